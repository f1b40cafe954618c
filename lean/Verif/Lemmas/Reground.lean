import Verif.Spec.Reground
import Verif.Lemmas.Relabel

/-!
# Incidence vectors when another node becomes ground
-/

namespace SQ
open Matrix Spec

variable {n : ℕ} {O : Objs} {els els' : Elements}

theorem renameAll_lt (π : Equiv.Perm (Fin (n + 1))) {a : ℕ} (h : a ≤ n) : renameAll π a = π ⟨a, Nat.lt_succ_of_le h⟩ := by
  unfold renameAll
  rw [dif_pos (Nat.lt_succ_of_le h)]

theorem renameAll_inj (π : Equiv.Perm (Fin (n + 1))) {a b : ℕ} (ha : a ≤ n) (hb : b ≤ n) (h : renameAll π a = renameAll π b) :
    a = b := by
  rw [renameAll_lt π ha, renameAll_lt π hb] at h
  have := π.injective (Fin.ext h)
  exact congrArg Fin.val this

/-- incidence including the ground node -/
def fullInc (e : Edge) (k : ℕ) : ℝ := (if k = e.1 then 1 else 0) - (if k = e.2 then 1 else 0)

theorem inc_full (e : Edge) (he : e.1 ≠ e.2) : ∃ b : Bool, ∀ k, k ≠ 0 → (incidence e k : ℝ) = flipSign b * fullInc e k := by
  unfold incidence fullInc
  by_cases h1 : e.1 = 0
  · refine ⟨true, fun k hk => ?_⟩
    have : k ≠ e.1 := by rw [h1]; exact hk
    simp only [h1, if_true, flipSign]
    split_ifs <;> simp_all
  · refine ⟨false, fun k hk => ?_⟩
    simp only [h1, if_false, flipSign]
    by_cases h2 : e.2 = 0
    · have : k ≠ e.2 := by rw [h2]; exact hk
      simp only [h2, if_true]
      split_ifs <;> simp_all
    · split_ifs <;> simp_all

/-- new node fluxes from the old ones: `x'(π i) = x(i) - x(the node that becomes ground)` -/
def groundMat (π : Equiv.Perm (Fin (n + 1))) : Matrix (Fin n) (Fin n) ℝ :=
  Matrix.of fun a i => (if π.symm a.succ = i.succ then 1 else 0) - (if π.symm 0 = i.succ then 1 else 0)

theorem ground_sum (π : Equiv.Perm (Fin (n + 1))) (f : Fin (n + 1) → ℝ) (i : Fin n) :
    ∑ a : Fin n, f a.succ * groundMat π a i =
      f (π i.succ) - (∑ a, f a) * (if π.symm 0 = i.succ then 1 else 0) := by
  have h : ∑ a : Fin (n + 1), f a * ((if π.symm a = i.succ then 1 else 0) - (if π.symm 0 = i.succ then 1 else 0)) =
      ∑ a : Fin n, f a.succ * groundMat π a i := by
    rw [Fin.sum_univ_succ]
    simp [groundMat]
  rw [← h]
  simp only [mul_sub, Finset.sum_sub_distrib, Finset.sum_mul]
  congr 1
  rw [Finset.sum_eq_single (π i.succ)]
  · simp
  · intro b _ hb
    rw [if_neg, mul_zero]
    intro h
    exact hb (by rw [← h]; simp)
  · simp

theorem groundMat_inv (π : Equiv.Perm (Fin (n + 1))) : groundMat π.symm * groundMat π = 1 := by
  ext b i
  rw [mul_apply]
  have h := ground_sum π (fun a => (if π b.succ = a then (1 : ℝ) else 0) - (if π 0 = a then 1 else 0)) i
  rw [show ∑ a : Fin n, groundMat π.symm b a * groundMat π a i = _ from h]
  simp only [Finset.sum_sub_distrib, Finset.sum_ite_eq, Finset.mem_univ, if_true, sub_self, zero_mul, sub_zero,
    EmbeddingLike.apply_eq_iff_eq, Fin.succ_inj, Matrix.one_apply]
  rw [if_neg (Fin.succ_ne_zero i).symm, sub_zero]

theorem fullInc_sum {e : Edge} (h1 : e.1 ≤ n) (h2 : e.2 ≤ n) : ∑ a : Fin (n + 1), fullInc e a = 0 := by
  have h : ∀ x, x ≤ n → ∑ a : Fin (n + 1), (if (a : ℕ) = x then (1 : ℝ) else 0) = 1 := by
    intro x hx
    rw [Finset.sum_eq_single (⟨x, Nat.lt_succ_of_le hx⟩ : Fin (n + 1))]
    · simp
    · intro b _ hb
      rw [if_neg]
      intro h
      exact hb (Fin.ext h)
    · simp
  simp only [fullInc, Finset.sum_sub_distrib, h _ h1, h _ h2, sub_self]

/-- `e'` is the edge `e` with renumbered nodes (ground included), in either direction -/
def ReEdge (π : Equiv.Perm (Fin (n + 1))) (e e' : Edge) : Prop :=
  e' = (renameAll π e.1, renameAll π e.2) ∨ e' = (renameAll π e.2, renameAll π e.1)

theorem reEdge_left {σ : Equiv.Perm (Fin (n + 1))} {e f e' : Edge} (he : ValidEdge n e) (hf : ValidEdge n f) (h1 : ReEdge σ e e')
    (h2 : ReEdge σ f e') : f = e ∨ f = (e.2, e.1) := by
  have key : ∀ {a b : ℕ}, a ≤ n → b ≤ n → renameAll σ a = renameAll σ b → a = b := fun ha hb h => renameAll_inj σ ha hb h
  obtain ⟨-, a1, a2⟩ := he
  obtain ⟨-, b1, b2⟩ := hf
  rcases h1 with rfl | rfl <;> rcases h2 with h2 | h2 <;> simp only [Prod.mk.injEq] at h2
  · left; exact Prod.ext (key b1 a1 h2.1.symm) (key b2 a2 h2.2.symm)
  · right; exact Prod.ext (key b1 a2 h2.2.symm) (key b2 a1 h2.1.symm)
  · right; exact Prod.ext (key b1 a2 h2.1.symm) (key b2 a1 h2.2.symm)
  · left; exact Prod.ext (key b1 a1 h2.2.symm) (key b2 a2 h2.1.symm)

theorem reEdge_right {σ : Equiv.Perm (Fin (n + 1))} {e e' f' : Edge} (h1 : ReEdge σ e e') (h2 : ReEdge σ e f') :
    f' = e' ∨ f' = (e'.2, e'.1) := by
  rcases h1 with rfl | rfl <;> rcases h2 with rfl | rfl <;> simp

theorem reEdge_full {π : Equiv.Perm (Fin (n + 1))} {e e' : Edge} (hv : ValidEdge n e) (h : ReEdge π e e') :
    (e'.1 ≠ e'.2 ∧ e'.1 ≤ n ∧ e'.2 ≤ n) ∧
    ∃ b : Bool, ∀ i : Fin (n + 1), fullInc e' (π i) = flipSign b * fullInc e i := by
  have hne : renameAll π e.1 ≠ renameAll π e.2 := fun h => hv.1 (renameAll_inj π hv.2.1 hv.2.2 h)
  have hl : ∀ a, a ≤ n → renameAll π a ≤ n := by
    intro a ha
    rw [renameAll_lt π ha]
    exact Nat.le_of_lt_succ (Fin.is_lt _)
  have hiff : ∀ (i : Fin (n + 1)) a, a ≤ n → ((π i : ℕ) = renameAll π a ↔ (i : ℕ) = a) := by
    intro i a ha
    rw [renameAll_lt π ha, Fin.val_inj, EmbeddingLike.apply_eq_iff_eq]
    constructor
    · rintro rfl; rfl
    · intro h; exact Fin.ext h
  rcases h with rfl | rfl
  · refine ⟨⟨hne, hl _ hv.2.1, hl _ hv.2.2⟩, false, fun i => ?_⟩
    simp only [fullInc, hiff i _ hv.2.1, hiff i _ hv.2.2, flipSign]
    simp
  · refine ⟨⟨hne.symm, hl _ hv.2.2, hl _ hv.2.1⟩, true, fun i => ?_⟩
    simp only [fullInc, hiff i _ hv.2.1, hiff i _ hv.2.2, flipSign]
    simp

theorem flipSign_xor (a b : Bool) : flipSign a * flipSign b = flipSign (a != b) := by
  cases a <;> cases b <;> simp [flipSign]

theorem reEdge_inc {π : Equiv.Perm (Fin (n + 1))} {e e' : Edge} (hv : ValidEdge n e) (h : ReEdge π e e') :
    ∃ b : Bool, ∀ i : Fin n, ∑ a : Fin n, (incidence e' (a + 1) : ℝ) * groundMat π a i = flipSign b * (incidence e (i + 1) : ℝ) := by
  obtain ⟨⟨hne, h1, h2⟩, b, hb⟩ := reEdge_full hv h
  obtain ⟨c, hc⟩ := inc_full e hv.1
  obtain ⟨c', hc'⟩ := inc_full e' hne
  refine ⟨(c' != b) != c, fun i => ?_⟩
  have hs := ground_sum π (fun a => fullInc e' a) i
  rw [fullInc_sum h1 h2, zero_mul, sub_zero, hb] at hs
  have e1 : ∀ a : Fin n, (incidence e' (a + 1) : ℝ) * groundMat π a i =
      flipSign c' * (fullInc e' (a.succ : Fin (n + 1)) * groundMat π a i) := by
    intro a
    rw [hc' _ (by omega), Fin.val_succ]
    ring
  simp only [e1]
  rw [← Finset.mul_sum, hs, hc _ (by omega), ← flipSign_xor, ← flipSign_xor, Fin.val_succ]
  have : flipSign c * flipSign c = 1 := by cases c <;> simp [flipSign]
  linear_combination (-flipSign c' * flipSign b * fullInc e (i + 1)) * this

/-- the capacitance matrices of the two choices -/
theorem ground_caps {π : Equiv.Perm (Fin (n + 1))} (h : Regrounded π els els') (hv : ValidElements n els) (O : Objs) :
    (groundMat π)ᵀ * capacitances O els' n * groundMat π = capacitances O els n := by
  obtain ⟨l, hp, hl⟩ := h
  change (groundMat π)ᵀ * nodeCap n O els' * groundMat π = nodeCap n O els
  unfold nodeCap
  rw [(hp.map fun q => placedCap O q.2 • edgeMat n q.1).sum_eq]
  have hval := placements_valid hv
  generalize placements els = L at hl hval
  clear hp
  induction hl with
  | nil => simp
  | @cons q q' L L' h1 h2 ih =>
    rw [List.map_cons, List.map_cons, List.sum_cons, List.sum_cons, Matrix.mul_add, Matrix.add_mul,
      ih (fun x hx => hval x (List.mem_cons_of_mem _ hx)), h1.1]
    congr 1
    obtain ⟨b, hb⟩ := reEdge_inc (hval q List.mem_cons_self) h1.2
    rw [Matrix.mul_smul, Matrix.smul_mul]
    congr 1
    have hv : edgeMat n q'.1 = vecMulVec (fun a : Fin n => (incidence q'.1 (a + 1) : ℝ)) (fun a : Fin n => (incidence q'.1 (a + 1) : ℝ)) := rfl
    have hv2 : edgeMat n q.1 = vecMulVec (fun a : Fin n => (incidence q.1 (a + 1) : ℝ)) (fun a : Fin n => (incidence q.1 (a + 1) : ℝ)) := rfl
    have hvm : (fun a : Fin n => (incidence q'.1 (a + 1) : ℝ)) ᵥ* groundMat π = fun i : Fin n => flipSign b * (incidence q.1 (i + 1) : ℝ) := by
      funext i
      exact hb i
    rw [hv, hv2, mul_vecMulVec, vecMulVec_mul, mulVec_transpose, hvm]
    ext i j
    simp only [vecMulVec_apply]
    have : flipSign b * flipSign b = 1 := by cases b <;> simp [flipSign]
    linear_combination ((incidence q.1 (i + 1) : ℝ) * (incidence q.1 (j + 1) : ℝ)) * this

/-- Dictionaries that differ by the choice of ground, with as many independent junction edges: corresponding edges, directions,
inverse capacitances and Josephson energies. -/
theorem reground_edges {σ : Equiv.Perm (Fin (n + 1))} (hren : Regrounded σ els els') (hv : ValidElements n els)
    (hv' : ValidElements n els') (hli : IndependentJunctions O els n) (hli' : IndependentJunctions O els' n)
    (hcard : (junctionEdges O els).length = (junctionEdges O els').length) (vals : ElemId → ℝ) :
    ∃ (τ : Fin (junctionEdges O els).length ≃ Fin (junctionEdges O els').length)
      (r : Fin (junctionEdges O els).length → Bool),
      (∀ i (j : Fin n), ∑ a : Fin n, (incidence ((junctionEdges O els').get (τ i)) (a + 1) : ℝ) * groundMat σ a j =
        flipSign (r i) * (incidence ((junctionEdges O els).get i) (j + 1) : ℝ)) ∧
      (∀ i j, junctionInvCap (O.withVals vals) els' n (τ i) (τ j) =
        flipSign (r i) * flipSign (r j) * junctionInvCap (O.withVals vals) els n i j) ∧
      ∀ i, edgeEJ O els' vals ((junctionEdges O els').get (τ i)) = edgeEJ O els vals ((junctionEdges O els).get i) := by
  have hren0 := hren
  obtain ⟨l, hp, hl⟩ := hren
  have hval : ∀ i, ValidEdge n ((junctionEdges O els).get i) := fun i => valid_junctionEdge hv (List.get_mem _ _)
  have hfw : ∀ q ∈ placements els, ∃ q' ∈ placements els', q'.2 = q.2 ∧ ReEdge σ q.1 q'.1 := by
    intro q hq
    obtain ⟨a, ha, rfl⟩ := List.getElem_of_mem hq
    obtain ⟨hlen, hget⟩ := List.forall₂_iff_get.1 hl
    refine ⟨l[a]'(by omega), hp.mem_iff.2 (List.getElem_mem _), ?_⟩
    exact hget a ha (by omega)
  have hex : ∀ i, ∃ j, ReEdge σ ((junctionEdges O els).get i) ((junctionEdges O els').get j) := by
    intro i
    obtain ⟨a, ha, hk⟩ := mem_junctionEdges_iff.1 (List.get_mem (junctionEdges O els) i)
    obtain ⟨q', hq', h2, hrel⟩ := hfw _ ha
    have : q'.1 ∈ junctionEdges O els' := mem_junctionEdges_iff.2 ⟨q'.2, hq', by rw [h2]; exact hk⟩
    obtain ⟨j, hj⟩ := List.get_of_mem this
    exact ⟨j, by rw [hj]; exact hrel⟩
  choose t ht using hex
  have hinj : Function.Injective t := by
    intro i j hij
    refine (indep_edges hv hli i j ?_).symm
    refine reEdge_left (hval i) (hval j) (ht i) ?_
    rw [hij]
    exact ht j
  have hbij : Function.Bijective t := (Fintype.bijective_iff_injective_and_card t).2 ⟨hinj, by simp [hcard]⟩
  choose r hr using fun i => reEdge_inc (hval i) (ht i)
  refine ⟨Equiv.ofBijective t hbij, r, hr, ?_, ?_⟩
  · intro i j
    set G := groundMat σ with hG
    have hGu : groundMat σ.symm * G = 1 := groundMat_inv σ
    have hGd : IsUnit G.det := by
      rw [← Matrix.isUnit_iff_isUnit_det]
      exact IsUnit.of_mul_eq_one_right _ hGu
    have hC := ground_caps hren0 hv (O.withVals vals)
    rw [← hG] at hC
    have hCi : (capacitances (O.withVals vals) els' n)⁻¹ = G * (capacitances (O.withVals vals) els n)⁻¹ * Gᵀ := by
      rw [← hC, Matrix.mul_inv_rev, Matrix.mul_inv_rev]
      have h2 : (Gᵀ)⁻¹ * Gᵀ = 1 := Matrix.nonsing_inv_mul _ (by rw [det_transpose]; exact hGd)
      rw [Matrix.mul_assoc, Matrix.mul_assoc, Matrix.mul_assoc, h2, Matrix.mul_one, ← Matrix.mul_assoc,
        Matrix.mul_nonsing_inv _ hGd, Matrix.one_mul]
    have hJ : ∀ i, (fun a => junctionIncidence (O.withVals vals) els' n (t i) a) ᵥ* G =
        flipSign (r i) • fun a => junctionIncidence (O.withVals vals) els n i a := fun i => funext fun a => hr i a
    have hI : ∀ (els : Elements) (i j : Fin (junctionEdges O els).length), junctionInvCap (O.withVals vals) els n i j =
        ((fun a => junctionIncidence (O.withVals vals) els n i a) ᵥ* (capacitances (O.withVals vals) els n)⁻¹) ⬝ᵥ
          fun a => junctionIncidence (O.withVals vals) els n j a := fun els i j => invCap_apply (O.withVals vals) els n i j
    have e1 := hI els' (t i) (t j)
    rw [hCi, ← vecMul_vecMul, ← vecMul_vecMul, hJ, ← dotProduct_mulVec, mulVec_transpose, hJ, smul_vecMul, smul_dotProduct,
      dotProduct_smul, ← hI els i j] at e1
    refine e1.trans ?_
    simp only [smul_eq_mul]
    ring
  · intro i
    unfold edgeEJ
    rw [((hp.filter _).map _).sum_eq]
    have key : ∀ (L L' : List (Edge × ElemId)), List.Forall₂ (fun q q' => q'.2 = q.2 ∧ ReEdge σ q.1 q'.1) L L' →
        (∀ q ∈ L, q ∈ placements els) → (∀ q ∈ L', q ∈ placements els') →
        ((L'.filter (fun q => decide ((O.elem q.2).kind = .jj ∧ q.1 = (junctionEdges O els').get (t i)))).map
          (fun q => vals q.2)).sum =
        ((L.filter (fun q => decide ((O.elem q.2).kind = .jj ∧ q.1 = (junctionEdges O els).get i))).map (fun q => vals q.2)).sum := by
      intro L L' hLL
      induction hLL with
      | nil => intro _ _; rfl
      | @cons q q' L L' h1 h2 ih =>
        intro hL hL'
        have ih := ih (fun x hx => hL x (List.mem_cons_of_mem _ hx)) (fun x hx => hL' x (List.mem_cons_of_mem _ hx))
        have hiff : ((O.elem q'.2).kind = .jj ∧ q'.1 = (junctionEdges O els').get (t i)) ↔
            ((O.elem q.2).kind = .jj ∧ q.1 = (junctionEdges O els).get i) := by
          rw [h1.1]
          refine and_congr_right fun hk => ?_
          have hq : q ∈ placements els := hL q List.mem_cons_self
          have hq' : q' ∈ placements els' := hL' q' List.mem_cons_self
          obtain ⟨a, ha⟩ := List.get_of_mem (mem_junctionEdges_iff.2 ⟨q.2, hq, hk⟩ : q.1 ∈ junctionEdges O els)
          obtain ⟨a', ha'⟩ := List.get_of_mem (mem_junctionEdges_iff.2 ⟨q'.2, hq', by rw [h1.1]; exact hk⟩ :
            q'.1 ∈ junctionEdges O els')
          rw [← ha, ← ha']
          constructor
          · intro h
            rw [indep_edges hv hli i a ?_]
            refine reEdge_left (hval i) (hval a) (ht i) ?_
            rw [← h, ha, ha']
            exact h1.2
          · intro h
            rw [indep_edges hv' hli' (t i) a' ?_]
            refine reEdge_right (ht i) ?_
            rw [← h, ha, ha']
            exact h1.2
        rw [List.filter_cons, List.filter_cons]
        by_cases hc : (O.elem q.2).kind = .jj ∧ q.1 = (junctionEdges O els).get i
        · rw [if_pos (by simpa using hiff.2 hc), if_pos (by simpa using hc), List.map_cons, List.map_cons, List.sum_cons,
            List.sum_cons, ih, h1.1]
        · rw [if_neg (by simpa using fun h1 h2 => hc (hiff.1 ⟨h1, h2⟩)), if_neg (by simpa using fun h1 h2 => hc ⟨h1, h2⟩), ih]
    exact key _ _ hl (fun _ h => h) (fun _ h => hp.mem_iff.2 h)

theorem reground_dict {σ : Equiv.Perm (Fin (n + 1))} (hren : Regrounded σ els els') (hv : ValidElements n els)
    (hv' : ValidElements n els') (hli : IndependentJunctions O els n) (hli' : IndependentJunctions O els' n)
    (hcard : (junctionEdges O els).length = (junctionEdges O els').length) (vals : ElemId → ℝ) :
    ∃ (τ : Fin (junctionEdges O els).length ≃ Fin (junctionEdges O els').length)
      (r : Fin (junctionEdges O els).length → Bool),
      (∀ i j, junctionInvCap (O.withVals vals) els' n (τ i) (τ j) =
        flipSign (r i) * flipSign (r j) * junctionInvCap (O.withVals vals) els n i j) ∧
      ∀ i, edgeEJ O els' vals ((junctionEdges O els').get (τ i)) = edgeEJ O els vals ((junctionEdges O els).get i) := by
  obtain ⟨τ, r, -, h⟩ := reground_edges (O := O) hren hv hv' hli hli' hcard vals
  exact ⟨τ, r, h⟩

end SQ
