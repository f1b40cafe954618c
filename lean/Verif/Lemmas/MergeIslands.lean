import Verif.Props.Islands2
import Verif.Lemmas.Merge

/-!
# Circuits of islands as parts of a system
-/

namespace SQ
open Matrix Spec Real

theorem keep_full {nJ n : ℕ} (torch : Bool) (t : Trans nJ n) (h : (finishModes torch t).keep.length = n) (i) :
    ((finishModes torch t).keep.get i : ℕ) = i := by
  have hs := ((C32_uncoupled_removal t).2.2 torch).1
  generalize (finishModes torch t).keep = l at *
  have e : l = List.finRange n := by
    refine (List.Perm.eq_of_pairwise (le := (· < ·)) (fun a b _ _ h1 h2 => absurd h2 (not_lt.2 h1.le)) hs
      (List.pairwise_lt_finRange n)) ?_
    rw [List.perm_ext_iff_of_nodup (hs.imp (fun h => ne_of_lt h)) (List.nodup_finRange n)]
    intro a
    refine ⟨fun _ => List.mem_finRange a, fun _ => ?_⟩
    have hnd : l.Nodup := hs.imp (fun h => ne_of_lt h)
    have h1 : l.toFinset = Finset.univ := by
      apply Finset.eq_univ_of_card
      rw [List.toFinset_card_of_nodup hnd, h, Fintype.card_fin]
    have := Finset.mem_univ a
    rw [← h1, List.mem_toFinset] at this
    exact this
  subst e
  simp

/-- everything a system reads of a circuit of islands -/
theorem isl_built_ord {c : CircSpec} {n : ℕ} (hi : IslandCircuit c n) (hr : RoutinesOK c) {vals : ElemId → ℝ}
    (hv : IslandValues c n vals) {b : Build} (hb : buildCirc c vals = .ok b) :
    ∃ (hn : b.n = n) (hk : b.M.keep.length = b.n) (σ : Fin (junctionEdges c.O c.els).length ≃ Fin b.M.keep.length),
      (∀ p q, b.C p q = capacitances (c.O.withVals vals) c.els n (p.cast hn) (q.cast hn)) ∧
      (capacitances (c.O.withVals vals) c.els n).PosDef ∧
      (∀ i p, b.M.R p ((σ i).cast hk) = incidence ((junctionEdges c.O c.els).get i) (p + 1)) ∧
      (∀ j, b.M.omega j = 0) ∧
      (∀ i j, junctionInvCap (c.O.withVals vals) c.els n j j < junctionInvCap (c.O.withVals vals) c.els n i i → σ i < σ j) ∧
      ∀ (flux : LoopId → ℝ) (m : Fin b.M.keep.length → ℕ) (ng : Fin b.M.keep.length → ℝ),
        fullHamiltonian b.C b.M m ng vals (b.fluxes flux) b.inds b.juns = .ok (
          islandHamiltonian σ (junctionInvCap (c.O.withVals vals) c.els n)
            (fun i => edgeEJ c.O c.els vals ((junctionEdges c.O c.els).get i)) m ng) := by
  have hgood := isl_good hi hr hv
  obtain ⟨b', hb', hlo, -⟩ := C93_constructed c n hi hr vals hv
  obtain rfl : b = b' := by rw [hb] at hb'; exact Except.ok.inj hb'
  obtain ⟨hcard, hin, hom, hJ, σ, hed, hord, hw, hcI, hsym, hR⟩ := isl_facts c vals hgood hi.noInd hi.some n hi.nodes hi.indep
    hv.2 hr.sv hr.argsort (Or.inr hi.square) b hb
  have hkn : b.M.keep.length = n := by
    have := Fintype.card_congr σ
    simp only [Fintype.card_fin] at this
    rw [← this]; exact hi.square
  have hst := buildCirc_stages hb
  obtain ⟨hn, hC, hPD, hkeep⟩ : ∃ hn : b.n = n, (∀ p q, b.C p q = capacitances (c.O.withVals vals) c.els n (p.cast hn) (q.cast hn)) ∧
      (capacitances (c.O.withVals vals) c.els n).PosDef ∧ ∀ i, (b.M.keep.get i : ℕ) = i := by
    obtain ⟨n', a, B, t, hn', htr, hB, ht, rfl⟩ := hst
    have : n' = n := by rw [hi.nodes] at hn'; exact (Except.ok.inj hn').symm
    subst this
    obtain ⟨-, hcm, -⟩ := isl_mats hgood hi.noInd hi.some hi.nodes htr
    obtain ⟨-, hP, -⟩ := good_mats hgood hi.nodes htr
    rw [hcm] at hP
    exact ⟨rfl, fun p q => congrFun (congrFun hcm p) q, hP, fun i => keep_full _ _ hkn i⟩
  refine ⟨hn, hkn.trans hn.symm, σ, hC, hPD, ?_, hom, hord, ?_⟩
  · intro i p
    have := hR i p p.2
    refine Eq.trans ?_ this
    congr 1
    exact Fin.ext (hkeep _).symm
  · intro flux m ng
    rw [isl_ham b hJ σ hcard hin hom hw hcI hsym]
    congr 1
    unfold islandHamiltonian
    congr 1
    have hz : ∀ q, b.fluxes flux q = 0 := by
      intro q
      unfold Build.fluxes
      rw [extFlux_sum]
      apply Finset.sum_eq_zero
      intro l _
      have h1 := l.2
      have h2 : b.loops.length = 0 := by rw [hlo]; rfl
      omega
    simp only [hz]
    exact sum_edges c.O c.els vals (isl_nodup hi.indep) b.juns (fun k => k.edge) (fun k => k.el)
      (fun k => k.wId.cast hJ) hed (build_junEdges hi.noSelf hb) (fun i => chargeCos m (σ i) 0)

theorem isl_built {c : CircSpec} {n : ℕ} (hi : IslandCircuit c n) (hr : RoutinesOK c) {vals : ElemId → ℝ}
    (hv : IslandValues c n vals) {b : Build} (hb : buildCirc c vals = .ok b) :
    ∃ (hn : b.n = n) (hk : b.M.keep.length = b.n) (σ : Fin (junctionEdges c.O c.els).length ≃ Fin b.M.keep.length),
      (∀ p q, b.C p q = capacitances (c.O.withVals vals) c.els n (p.cast hn) (q.cast hn)) ∧
      (capacitances (c.O.withVals vals) c.els n).PosDef ∧
      (∀ i p, b.M.R p ((σ i).cast hk) = incidence ((junctionEdges c.O c.els).get i) (p + 1)) ∧
      (∀ j, b.M.omega j = 0) ∧
      ∀ (flux : LoopId → ℝ) (m : Fin b.M.keep.length → ℕ) (ng : Fin b.M.keep.length → ℝ),
        fullHamiltonian b.C b.M m ng vals (b.fluxes flux) b.inds b.juns = .ok (
          islandHamiltonian σ (junctionInvCap (c.O.withVals vals) c.els n)
            (fun i => edgeEJ c.O c.els vals ((junctionEdges c.O c.els).get i)) m ng) := by
  obtain ⟨hn, hk, σ, h1, h2, h3, h4, -, h5⟩ := isl_built_ord hi hr hv hb
  exact ⟨hn, hk, σ, h1, h2, h3, h4, h5⟩

/-- the same with the heap of elements and the dictionary named -/
theorem isl_built' {c : CircSpec} {n : ℕ} {O : Objs} {E : Elements} (hO : c.O = O) (hE : c.els = E) (hi : IslandCircuit c n) (hr : RoutinesOK c) {vals : ElemId → ℝ}
    (hv : IslandValues c n vals) {b : Build} (hb : buildCirc c vals = .ok b) :
    ∃ (_ : b.n = n) (hk : b.M.keep.length = b.n) (σ : Fin (junctionEdges O E).length ≃ Fin b.M.keep.length),
      (∀ p q, b.C p q = capacitances (O.withVals vals) E b.n p q) ∧
      (capacitances (O.withVals vals) E b.n).PosDef ∧
      (∀ i p, b.M.R p ((σ i).cast hk) = incidence ((junctionEdges O E).get i) (p + 1)) ∧
      (∀ j, b.M.omega j = 0) ∧
      ∀ (flux : LoopId → ℝ) (m : Fin b.M.keep.length → ℕ) (ng : Fin b.M.keep.length → ℝ),
        fullHamiltonian b.C b.M m ng vals (b.fluxes flux) b.inds b.juns = .ok (
          islandHamiltonian σ (junctionInvCap (O.withVals vals) E b.n)
            (fun i => edgeEJ O E vals ((junctionEdges O E).get i)) m ng) := by
  subst hO hE
  obtain ⟨hn, hk, σ, h1, h2, h3, h4, h5⟩ := isl_built hi hr hv hb
  subst hn
  exact ⟨rfl, hk, σ, h1, h2, h3, h4, h5⟩

theorem pairs_comm_all {k : ℕ} (m : Fin k → ℕ) (ng : Fin k → ℝ) (i j : Fin k) : Commute (pairs m ng i) (pairs m ng j) := by
  by_cases h : i = j
  · subst h; exact Commute.refl _
  · unfold pairs
    have e : Commute (onMode m i (qCharge (m i))) (onMode m j (qCharge (m j))) := single_comm h _ _
    refine Commute.sub_left (Commute.sub_right e ?_) (Commute.sub_right ?_ ?_)
    · exact (Commute.one_right _).smul_right _
    · exact (Commute.one_left _).smul_left _
    · exact ((Commute.one_left _).smul_left _)

theorem levels_reindex {ι κ : Type*} [Fintype ι] [Fintype κ] [DecidableEq ι] [DecidableEq κ] (e : κ ≃ ι) {H : Matrix ι ι ℂ}
    {vs : List (ι → ℂ)} {ws : List ℝ} (h : Levels H vs ws) : ∃ vs', Levels (H.submatrix e e) vs' ws := by
  let V : Matrix ι κ ℂ := (1 : Matrix ι ι ℂ).submatrix id e
  have hVt : Vᴴ = (1 : Matrix ι ι ℂ).submatrix e id := by
    ext a b
    simp [V, Matrix.conjTranspose_apply, Matrix.one_apply, eq_comm]
  have h1 : Vᴴ * V = 1 := by
    rw [hVt]
    change (1 : Matrix ι ι ℂ).submatrix e id * (1 : Matrix ι ι ℂ).submatrix id e = 1
    rw [← Matrix.submatrix_mul _ _ _ _ _ Function.bijective_id, Matrix.one_mul, Matrix.submatrix_one_equiv]
  have h2 : V * Vᴴ = 1 := by
    rw [hVt]
    change (1 : Matrix ι ι ℂ).submatrix id e * (1 : Matrix ι ι ℂ).submatrix e id = 1
    rw [Matrix.submatrix_mul_equiv, Matrix.one_mul, Matrix.submatrix_id_id]
  have h3 : Vᴴ * H * V = H.submatrix e e := by
    rw [hVt]
    have e1 : H = H.submatrix id id := (Matrix.submatrix_id_id H).symm
    rw [e1]
    change (1 : Matrix ι ι ℂ).submatrix e id * H.submatrix id id * (1 : Matrix ι ι ℂ).submatrix id e = _
    rw [← Matrix.submatrix_mul _ _ _ _ _ Function.bijective_id, ← Matrix.submatrix_mul _ _ _ _ _ Function.bijective_id, Matrix.one_mul, Matrix.mul_one]
    rfl
  have := levels_conj h1 h2 h
  rw [h3] at this
  exact ⟨_, this⟩

end SQ
