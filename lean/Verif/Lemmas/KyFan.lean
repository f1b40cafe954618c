import Verif.Lemmas.Weyl

/-!
# The sum of the lowest levels

Ky Fan: over orthonormal vectors the sum of the expectation values is at least the sum of the lowest levels.
-/

namespace SQ
open Matrix Complex SQ.Spec

/-- weights between zero and one that add up to `m` give no less than the `m` lowest values -/
theorem weights_lowest {N : ℕ} {lam p : Fin N → ℝ} (mono : Monotone lam) (h0 : ∀ j, 0 ≤ p j) (h1 : ∀ j, p j ≤ 1) {m : ℕ}
    (hm : m ≤ N) (hs : ∑ j, p j = m) : ∑ j : Fin N, (if (j : ℕ) < m then lam j else 0) ≤ ∑ j, lam j * p j := by
  rcases Nat.eq_zero_or_pos m with rfl | hpos
  · have hp : ∀ j, p j = 0 := by
      have := (Finset.sum_eq_zero_iff_of_nonneg (fun j _ => h0 j)).1 (by simpa using hs)
      exact fun j => this j (Finset.mem_univ j)
    simp [hp]
  let c : Fin N := ⟨m - 1, by omega⟩
  have hcount : ∑ j : Fin N, (if (j : ℕ) < m then (1 : ℝ) else 0) = m := by
    rw [Finset.sum_boole]
    congr 1
    rw [Fin.card_filter_val_lt]
    omega
  have key : ∀ j : Fin N, (if (j : ℕ) < m then lam j else 0) - lam c * (if (j : ℕ) < m then 1 else 0) ≤
      lam j * p j - lam c * p j := by
    intro j
    by_cases hj : (j : ℕ) < m
    · rw [if_pos hj, if_pos hj]
      have : lam j ≤ lam c := mono (show (j : ℕ) ≤ m - 1 by omega)
      nlinarith [h1 j]
    · rw [if_neg hj, if_neg hj]
      have : lam c ≤ lam j := mono (show m - 1 ≤ (j : ℕ) by omega)
      nlinarith [h0 j]
  have := Finset.sum_le_sum fun j (_ : j ∈ Finset.univ) => key j
  rw [Finset.sum_sub_distrib, Finset.sum_sub_distrib, ← Finset.mul_sum, ← Finset.mul_sum, hcount, hs] at this
  linarith

section
variable {ι : Type*} [Fintype ι]

theorem sum_range_fin {N m : ℕ} (hm : m ≤ N) (f : ℕ → ℝ) :
    ∑ j : Fin N, (if (j : ℕ) < m then f j else 0) = ∑ i ∈ Finset.range m, f i := by
  rw [Fin.sum_univ_eq_sum_range (fun j => if j < m then f j else 0), ← Finset.sum_filter]
  congr 1
  ext i
  simp only [Finset.mem_filter, Finset.mem_range]
  omega

/-- **Ky Fan** for the eigenvectors of another operator -/
theorem kyFan {H H' : Matrix ι ι ℂ} {vs vs' : List (ι → ℂ)} {ws ws' : List ℝ} (h : Levels H vs ws) (h' : Levels H' vs' ws')
    {m : ℕ} (hm : m ≤ Fintype.card ι) :
    ∑ i ∈ Finset.range m, ws.getD i 0 ≤ ∑ i ∈ Finset.range m, (braket (vs'.getD i 0) H (vs'.getD i 0)).re := by
  obtain ⟨s, mono⟩ := levels_sys h
  obtain ⟨s', -⟩ := levels_sys h'
  let p : Fin (Fintype.card ι) → ℝ := fun j =>
    ∑ i ∈ Finset.range m, ‖overlap (vs.getD j 0) (vs'.getD i 0)‖ ^ 2
  have hunit : ∀ {K : Matrix ι ι ℂ} {u : Fin (Fintype.card ι) → ι → ℂ} {lam : Fin (Fintype.card ι) → ℝ}
      (_ : Eigensys K u lam) j, nsq (u j) = 1 := by
    intro K u lam hs j
    have := hs.orth j j
    rw [if_pos rfl, overlap_self] at this
    exact_mod_cast this
  have hp1 : ∀ j, p j ≤ 1 := by
    intro j
    rw [← hunit s j, s'.nsq_eq]
    have e : p j = ∑ i : Fin (Fintype.card ι), if (i : ℕ) < m then ‖overlap (vs.getD j 0) (vs'.getD i 0)‖ ^ 2 else 0 :=
      (sum_range_fin hm fun i => ‖overlap (vs.getD j 0) (vs'.getD i 0)‖ ^ 2).symm
    rw [e]
    refine Finset.sum_le_sum fun i _ => ?_
    split
    · rw [← overlap_conj, RCLike.norm_conj]
    · positivity
  have hsum : ∑ j, p j = m := by
    rw [Finset.sum_comm]
    have : ∀ i ∈ Finset.range m, ∑ j : Fin (Fintype.card ι), ‖overlap (vs.getD j 0) (vs'.getD i 0)‖ ^ 2 = 1 := by
      intro i hi
      have hi' := Finset.mem_range.1 hi
      rw [← s.nsq_eq]
      exact hunit s' ⟨i, by omega⟩
    rw [Finset.sum_congr rfl this]
    simp
  have hw := weights_lowest mono (fun j => Finset.sum_nonneg fun i _ => by positivity) hp1 hm hsum
  rw [sum_range_fin hm fun i => ws.getD i 0] at hw
  refine hw.trans (le_of_eq ?_)
  simp only [p, Finset.mul_sum]
  rw [Finset.sum_comm]
  refine Finset.sum_congr rfl fun i _ => ?_
  rw [s.rayleigh, ofReal_re]

/-- the sum of the lowest levels is concave -/
theorem levels_concave {H H1 H2 : Matrix ι ι ℂ} {t : ℝ} (h0 : 0 ≤ t) (h1 : t ≤ 1)
    (hH : ∀ v, (braket v H v).re = t * (braket v H1 v).re + (1 - t) * (braket v H2 v).re)
    {vs vs1 vs2 : List (ι → ℂ)} {ws ws1 ws2 : List ℝ}
    (h : Levels H vs ws) (hl1 : Levels H1 vs1 ws1) (hl2 : Levels H2 vs2 ws2) {m : ℕ} (hm : m ≤ Fintype.card ι) :
    t * ∑ i ∈ Finset.range m, ws1.getD i 0 + (1 - t) * ∑ i ∈ Finset.range m, ws2.getD i 0 ≤
      ∑ i ∈ Finset.range m, ws.getD i 0 := by
  obtain ⟨s, -⟩ := levels_sys h
  have e : ∑ i ∈ Finset.range m, ws.getD i 0 = ∑ i ∈ Finset.range m, (braket (vs.getD i 0) H (vs.getD i 0)).re := by
    refine Finset.sum_congr rfl fun i hi => ?_
    have hi' := Finset.mem_range.1 hi
    have hr := s.rayleigh (vs.getD i 0)
    rw [hr, ofReal_re, Finset.sum_eq_single (⟨i, by omega⟩ : Fin (Fintype.card ι))]
    · have := s.orth ⟨i, by omega⟩ ⟨i, by omega⟩
      rw [if_pos rfl] at this
      simp only at this
      rw [this]
      simp
    · intro j _ hj
      have := s.orth j ⟨i, by omega⟩
      rw [if_neg hj] at this
      simp only at this
      rw [this]
      simp
    · intro hn
      exact absurd (Finset.mem_univ _) hn
  rw [e, Finset.sum_congr rfl fun i _ => hH _, Finset.sum_add_distrib, ← Finset.mul_sum, ← Finset.mul_sum]
  exact add_le_add (mul_le_mul_of_nonneg_left (kyFan hl1 h hm) h0)
    (mul_le_mul_of_nonneg_left (kyFan hl2 h hm) (by linarith))

end

/-- the Hamiltonian is linear in the junction energies -/
theorem ham_mix {n nJ b : ℕ} (C : Matrix (Fin n) (Fin n) ℝ) (M : Modes nJ n) (hk : M.keep.length ≤ n)
    (m : Fin M.keep.length → ℕ) (ng : Fin M.keep.length → ℝ) (val val1 val2 : ElemId → ℝ) (phi : Fin b → ℝ)
    (inds : List (IndKey b)) (juns : List (JunKey b nJ)) (hv : ∀ key ∈ inds, ValidEdge n key.edge) {t : ℝ}
    (hi : ∀ key ∈ inds, val1 key.el = val key.el ∧ val2 key.el = val key.el)
    (hj : ∀ key ∈ juns, val key.el = t * val1 key.el + (1 - t) * val2 key.el)
    {H H1 H2 : Op m} (hH : fullHamiltonian C M m ng val phi inds juns = .ok H)
    (hH1 : fullHamiltonian C M m ng val1 phi inds juns = .ok H1)
    (hH2 : fullHamiltonian C M m ng val2 phi inds juns = .ok H2) (v : Idx m → ℂ) :
    (braket v H v).re = t * (braket v H1 v).re + (1 - t) * (braket v H2 v).re := by
  unfold fullHamiltonian at hH hH1 hH2
  simp only at hH hH1 hH2
  rw [hamiltonianOf_eq C M hk _ _ _ _ _ _ hv] at hH hH1 hH2
  injection hH with hH
  injection hH1 with hH1
  injection hH2 with hH2
  rw [← hH, ← hH1, ← hH2]
  simp only [braket_addOp, add_re]
  have e : ∀ val' : ElemId → ℝ, (∀ key ∈ inds, val' key.el = val key.el) →
      inds.map (fun key => ((1 / val' key.el * phi key.bId * (Phi0 / 2 / Real.pi) / √hbar : ℝ) : ℂ) •
        indOpOf C M (buildMem M.data m ng) key) =
      inds.map (fun key => ((1 / val key.el * phi key.bId * (Phi0 / 2 / Real.pi) / √hbar : ℝ) : ℂ) •
        indOpOf C M (buildMem M.data m ng) key) := by
    intro val' h'
    refine List.map_congr_left fun key hkey => ?_
    rw [h' key hkey]
  rw [e val1 fun key hkey => (hi key hkey).1, e val2 fun key hkey => (hi key hkey).2]
  rw [braket_listSum v juns, braket_listSum v juns, braket_listSum v juns]
  have h2 : (juns.map fun key => (braket v ((-(val key.el : ℂ)) • cosOp (buildMem M.data m ng) key.wId (phi key.bId)) v).re).sum =
      t * (juns.map fun key => (braket v ((-(val1 key.el : ℂ)) • cosOp (buildMem M.data m ng) key.wId (phi key.bId)) v).re).sum +
      (1 - t) * (juns.map fun key => (braket v ((-(val2 key.el : ℂ)) • cosOp (buildMem M.data m ng) key.wId (phi key.bId)) v).re).sum := by
    clear hH hH1 hH2
    induction juns with
    | nil => simp
    | cons key l ih =>
      simp only [List.map_cons, List.sum_cons]
      rw [ih fun k hk' => hj k (List.mem_cons_of_mem _ hk')]
      have hkey := hj key (List.mem_cons_self ..)
      simp only [braket_smulOp, ← ofReal_neg, re_ofReal_mul]
      rw [hkey]
      ring
  rw [h2]
  ring

end SQ
