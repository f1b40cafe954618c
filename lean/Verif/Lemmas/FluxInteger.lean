import Verif.Lemmas.GaugeFlux

/-!
# Flux shares of parallel junctions differ by integers

If the distinct branch vectors are independent, every loop consists of two parallel branches (with opposite signs), and
the shares of parallel branches differ by integers, before and after rounding.
-/

namespace SQ
open Matrix SQ.Spec

theorem rint_add_even (x : ℝ) (k : ℤ) : rint (x + ((2 * k : ℤ) : ℝ)) = rint x + 2 * k := by
  unfold rint
  simp only [Int.floor_add_intCast]
  have h1 : x + ((2 * k : ℤ) : ℝ) - ((⌊x⌋ + 2 * k : ℤ) : ℝ) = x - (⌊x⌋ : ℝ) := by push_cast; ring
  have h2 : (2 : ℤ) ∣ ⌊x⌋ + 2 * k ↔ (2 : ℤ) ∣ ⌊x⌋ := by
    constructor
    · intro h; exact (Int.dvd_add_left ⟨k, rfl⟩).1 h
    · intro h; exact dvd_add h ⟨k, rfl⟩
  rw [h1]
  simp only [h2]
  split
  · rfl
  · split
    · ring
    · split
      · rfl
      · ring

theorem round5_add_int (x : ℝ) (z : ℤ) : round5 (x + z) = round5 x + z := by
  unfold round5
  have h : (x + z) * 1e5 = x * 1e5 + ((2 * (50000 * z) : ℤ) : ℝ) := by push_cast; norm_num; ring
  rw [h, rint_add_even]
  push_cast
  have : (1e5 : ℝ) ≠ 0 := by norm_num
  field_simp
  norm_num

/-- potentials whose drops are a given vector without circulation around the loops -/
theorem flux_potential (n : ℕ) (kMat : List (List ℤ)) (loops : List LoopObj)
    {G : Fin loops.length → Fin kMat.length → ℝ} {B0 : Matrix (Fin kMat.length) (Fin loops.length) ℝ}
    (hrank : kMat.length ≤ (arrayOf n kMat).rank + loops.length)
    (hlv : ∀ l, IsLoopVector n kMat (loops.get l).indices (G l))
    (hGB : ∀ l l', ∑ b, G l b * B0 b l' = if l = l' then 1 else 0) (v : Fin kMat.length → ℝ)
    (hv : ∀ l, ∑ b, G l b * v b = 0) :
    ∃ y : Fin n → ℝ, ∀ b, v b = ∑ j : Fin n, nodeEntry (kMat.get b) j * y j := by
  let Gm : Matrix (Fin loops.length) (Fin kMat.length) ℝ := Matrix.of G
  have hsurj : LinearMap.range Gm.mulVecLin = ⊤ := by
    rw [LinearMap.range_eq_top]
    intro z
    refine ⟨B0 *ᵥ z, ?_⟩
    rw [Matrix.mulVecLin_apply, Matrix.mulVec_mulVec]
    have : Gm * B0 = 1 := by
      ext i j
      rw [Matrix.mul_apply, Matrix.one_apply]
      exact hGB i j
    rw [this, Matrix.one_mulVec]
  have hker : Module.finrank ℝ (LinearMap.ker Gm.mulVecLin) + loops.length = kMat.length := by
    have := LinearMap.finrank_range_add_finrank_ker Gm.mulVecLin
    rw [hsurj, finrank_top] at this
    simp only [Module.finrank_fintype_fun_eq_card, Fintype.card_fin] at this
    omega
  have hle : LinearMap.range (arrayOf n kMat).mulVecLin ≤ LinearMap.ker Gm.mulVecLin := by
    rintro _ ⟨y, rfl⟩
    rw [LinearMap.mem_ker, Matrix.mulVecLin_apply, Matrix.mulVecLin_apply, Matrix.mulVec_mulVec]
    have : Gm * arrayOf n kMat = 0 := by
      ext t j
      rw [Matrix.mul_apply]
      have := (hlv t).closes j j.isLt
      simpa [Gm, arrayOf, rowVec, nodeEntry] using this
    rw [this, Matrix.zero_mulVec]
  have heq : LinearMap.range (arrayOf n kMat).mulVecLin = LinearMap.ker Gm.mulVecLin := by
    refine Submodule.eq_of_le_of_finrank_le hle ?_
    have : Module.finrank ℝ (LinearMap.range (arrayOf n kMat).mulVecLin) = (arrayOf n kMat).rank := rfl
    omega
  have hmem : v ∈ LinearMap.ker Gm.mulVecLin := by
    rw [LinearMap.mem_ker, Matrix.mulVecLin_apply]
    funext t
    exact hv t
  rw [← heq] at hmem
  obtain ⟨y, hy⟩ := hmem
  exact ⟨y, fun b => (congrFun hy b).symm⟩

/-- vectors that close at every node cancel on each set of parallel branches -/
def ParallelOnly (n : ℕ) (kMat : List (List ℤ)) : Prop :=
  ∀ x : Fin kMat.length → ℝ, (∀ j, j < n → ∑ b, x b * nodeEntry (kMat.get b) j = 0) →
    ∀ i, ∑ b, (if kMat.get b = kMat.get i then x b else 0) = 0

/-- a loop vector on parallel branches only is a difference of two of them -/
theorem loop_pair {sv : SvdFn} (hsv : SvdSpec sv) {n : ℕ} {kMat : List (List ℤ)} (hpar : ParallelOnly n kMat)
    {lp : LoopObj} (hnd : lp.indices.Nodup) (hlen : lp.indices.length = lp.kMat.length)
    (hws : ∀ p (hp : p < lp.indices.length), kMat[lp.indices[p]]? = lp.kMat[p]?)
    {g : Fin lp.kMat.length → ℝ} (hg : getG sv n lp.kMat = .ok g) {row : Fin kMat.length → ℝ}
    (hsc : scatter kMat.length lp.indices (List.ofFn g) = .ok row) (hrow : IsLoopVector n kMat lp.indices row) :
    ∃ p q : Fin kMat.length, p ≠ q ∧ kMat.get p = kMat.get q ∧
      ∀ i, row i = if i = p then 1 else if i = q then -1 else 0 := by
  have hl : lp.indices.length = (List.ofFn g).length := by simpa using hlen
  obtain ⟨hb, hval, hout⟩ := scatter_ok hsc hnd hl
  obtain ⟨h0, g0, gcl, guniq⟩ := C21_loop_vector sv hsv n lp.kMat g hg
  have hi0 : 0 < lp.indices.length := by omega
  -- the branch at a position of the loop
  let br : Fin lp.kMat.length → Fin kMat.length := fun t => ⟨lp.indices[(t : ℕ)]'(by omega), hb _ (List.getElem_mem _)⟩
  have hbr : ∀ t, kMat.get (br t) = lp.kMat.get t := by
    intro t
    have h1 := hws t (by omega)
    rw [List.getElem?_eq_getElem (hb _ (List.getElem_mem _)), List.getElem?_eq_getElem t.isLt] at h1
    exact Option.some.inj h1
  have hbinj : Function.Injective br := by
    intro s t hst
    have h1 : lp.indices[(s : ℕ)]'(by omega) = lp.indices[(t : ℕ)]'(by omega) := congrArg Fin.val hst
    exact Fin.ext ((List.Nodup.getElem_inj_iff hnd).1 h1)
  have hrowbr : ∀ t, row (br t) = g t := by
    intro t
    rw [hval t (by omega) (hb _ (List.getElem_mem _))]
    simp
  let p := br ⟨0, h0⟩
  have hp1 : row p = 1 := by rw [hrowbr, g0]
  -- another branch of the loop parallel to the first one
  have hsum := hpar row hrow.closes p
  obtain ⟨q, hqp, hq, hq0⟩ : ∃ q, q ≠ p ∧ kMat.get q = kMat.get p ∧ row q ≠ 0 := by
    by_contra hcon
    push Not at hcon
    rw [Finset.sum_eq_single p] at hsum
    · rw [if_pos rfl, hp1] at hsum; exact one_ne_zero hsum
    · intro b _ hbp
      split
      · rename_i h; exact hcon b hbp h
      · rfl
    · intro h; exact absurd (Finset.mem_univ _) h
  have hqi : (q : ℕ) ∈ lp.indices := by
    by_contra h; exact hq0 (hout q h)
  obtain ⟨s, hs, hsq⟩ := List.getElem_of_mem hqi
  have hs' : s < lp.kMat.length := by omega
  have hbs : br ⟨s, hs'⟩ = q := Fin.ext hsq
  have hsne : (⟨s, hs'⟩ : Fin lp.kMat.length) ≠ ⟨0, h0⟩ := by
    intro h
    exact hqp (hbs.symm.trans (congrArg br h))
  have hg' := guniq (fun t => if t = ⟨0, h0⟩ then 1 else if t = ⟨s, hs'⟩ then -1 else 0) (if_pos rfl) (by
    intro j hj
    have h1 : nodeEntry (lp.kMat.get ⟨s, hs'⟩) j = nodeEntry (lp.kMat.get ⟨0, h0⟩) j := by
      rw [← hbr, ← hbr, hbs, hq]
    rw [Finset.sum_eq_add (a := (⟨0, h0⟩ : Fin lp.kMat.length)) (b := ⟨s, hs'⟩) hsne.symm]
    · rw [if_pos rfl, if_neg hsne, if_pos rfl, h1]; ring
    · intro t _ ht
      rw [if_neg ht.1, if_neg ht.2, zero_mul]
    · intro h; exact absurd (Finset.mem_univ _) h
    · intro h; exact absurd (Finset.mem_univ _) h)
  refine ⟨p, q, hqp.symm, hq.symm, fun i => ?_⟩
  by_cases hi : (i : ℕ) ∈ lp.indices
  · obtain ⟨t, ht, hti⟩ := List.getElem_of_mem hi
    have hbt : br ⟨t, by omega⟩ = i := Fin.ext hti
    rw [← hbt, hrowbr]
    refine (congrFun hg' _).symm.trans ?_
    simp only [p, ← hbs, hbinj.eq_iff]
  · rw [hout i hi, if_neg, if_neg]
    · rintro rfl; exact hi hqi
    · rintro rfl
      exact hi (List.getElem_mem _)

/-- the shares of parallel branches differ by integers -/
theorem integer_shares (sv : SvdFn) (hsv : SvdSpec sv) (n : ℕ) (kMat : List (List ℤ)) (cEdge : List ℝ)
    (loops : List LoopObj) (hcon : LoopsConsistent kMat loops) (hpar : ParallelOnly n kMat) {B}
    (h : fluxMatrix sv n kMat cEdge loops = .ok (some B)) (i i' : Fin kMat.length) (hii : kMat.get i = kMat.get i')
    (l : Fin loops.length) : ∃ z : ℤ, B i l = B i' l + z := by
  obtain ⟨G, B0, ⟨gR, hr, hG⟩, hrank, hlv, hGB, -, -, hround, -⟩ := flux_distribution_rows sv hsv n kMat cEdge loops hcon B h
  -- the loops are pairs of parallel branches
  have hpair : ∀ t, ∃ p q : Fin kMat.length, p ≠ q ∧ kMat.get p = kMat.get q ∧
      ∀ i, G t i = if i = p then 1 else if i = q then -1 else 0 := by
    intro t
    obtain ⟨hl, hrow⟩ := loopRows_ok hr
    obtain ⟨g, hg, hsc⟩ := hrow t t.isLt
    have hGt := hG t
    rw [List.getElem?_eq_getElem (by omega)] at hGt
    rw [Option.some.inj hGt] at hsc
    obtain ⟨c1, c2, c3⟩ := hcon (loops.get t) (List.get_mem _ _)
    exact loop_pair hsv hpar c1 c2 c3 hg hsc (hlv t)
  have hGv : ∀ t (v : Fin kMat.length → ℝ), ∀ p q : Fin kMat.length, p ≠ q →
      (∀ i, G t i = if i = p then 1 else if i = q then -1 else 0) → ∑ b, G t b * v b = v p - v q := by
    intro t v p q hpq hG
    rw [Finset.sum_eq_add p q hpq]
    · rw [hG, hG, if_pos rfl, if_neg hpq.symm, if_pos rfl]; ring
    · intro b _ hb
      rw [hG, if_neg hb.1, if_neg hb.2, zero_mul]
    · intro h; exact absurd (Finset.mem_univ _) h
    · intro h; exact absurd (Finset.mem_univ _) h
  -- branches connected with `i'`
  have hB0 : ∃ z : ℤ, B0 i l = B0 i' l + z := by
    classical
    by_contra hne
    obtain ⟨y, hy⟩ := flux_potential n kMat loops hrank hlv hGB
      (fun b => if ∃ z : ℤ, B0 b l = B0 i' l + z then 1 else 0) (by
        intro t
        obtain ⟨p, q, hpq, -, hGt⟩ := hpair t
        rw [hGv t _ p q hpq hGt]
        have h1 := hGB t l
        rw [hGv t (fun b => B0 b l) p q hpq hGt] at h1
        have h2 : (∃ z : ℤ, B0 p l = B0 i' l + z) ↔ ∃ z : ℤ, B0 q l = B0 i' l + z := by
          constructor
          · rintro ⟨z, hz⟩
            split at h1
            · exact ⟨z - 1, by push_cast; linarith⟩
            · exact ⟨z, by linarith⟩
          · rintro ⟨z, hz⟩
            split at h1
            · exact ⟨z + 1, by push_cast; linarith⟩
            · exact ⟨z, by linarith⟩
        simp only [h2, sub_self])
    have e1 := hy i
    have e2 := hy i'
    rw [hii] at e1
    rw [← e1] at e2
    simp only [if_neg hne] at e2
    rw [if_pos ⟨0, by simp⟩] at e2
    exact one_ne_zero e2
  obtain ⟨z, hz⟩ := hB0
  exact ⟨z, by rw [hround, hround, hz, round5_add_int]⟩

end SQ
