import Verif.Lemmas.MergeSpace
import Verif.Lemmas.Linear
import Verif.Lemmas.MergeIsland2

/-!
# Renumbered and reversed junction edges
-/

namespace SQ
open Matrix Spec

section Space

variable {k k' : ℕ} (π : Fin k ≃ Fin k') (r : Fin k → Bool) (m : Fin k' → ℕ)

/-- reverse the order of the basis states, or not -/
def flipEq (N : ℕ) (b : Bool) : Fin N ≃ Fin N := if b then Fin.revPerm else Equiv.refl _

/-- basis states with modes renumbered by `π` and the charges of the modes with `r` reversed -/
def relIdx : Idx m ≃ Idx (fun a => m (π a)) :=
  (Equiv.piCongrLeft (fun b => Fin (m b)) π).symm.trans (Equiv.piCongrRight fun a => flipEq (m (π a)) (r a))

theorem relIdx_apply (x : Idx m) (a : Fin k) : relIdx π r m x a = flipEq (m (π a)) (r a) (x (π a)) := rfl

theorem onMode_pos {k : ℕ} {m : Fin k → ℕ} {a : Fin k} (A : Matrix (Fin (m a)) (Fin (m a)) ℂ) {x y : Idx m}
    (h : ∀ t, t ≠ a → x t = y t) : onMode m a A x y = A (x a) (y a) := by
  rw [onMode_onSub]
  exact if_pos h

theorem onMode_neg {k : ℕ} {m : Fin k → ℕ} {a : Fin k} (A : Matrix (Fin (m a)) (Fin (m a)) ℂ) {x y : Idx m}
    (h : ¬ ∀ t, t ≠ a → x t = y t) : onMode m a A x y = 0 := by
  rw [onMode_onSub]
  exact if_neg h

/-- the sign of a mode -/
def flipSign (b : Bool) : ℝ := if b then -1 else 1

theorem flipEq_charge (N : ℕ) (b : Bool) :
    (qCharge N).submatrix (flipEq N b) (flipEq N b) = ((flipSign b : ℝ) : ℂ) • qCharge N := by
  cases b with
  | false => simp [flipEq, flipSign]
  | true =>
    ext x y
    simp only [flipEq, if_true, submatrix_apply, Fin.revPerm_apply, qCharge, diagonal_apply, Fin.rev_inj, Matrix.smul_apply,
      flipSign, smul_eq_mul]
    split
    · rename_i h
      have := x.isLt
      rw [Fin.val_rev, Nat.cast_sub (by omega)]
      push_cast
      ring
    · simp

theorem flipEq_raise (N : ℕ) (b : Bool) :
    (chargeRaise N).submatrix (flipEq N b) (flipEq N b) + ((chargeRaise N).submatrix (flipEq N b) (flipEq N b))ᴴ =
      chargeRaise N + (chargeRaise N)ᴴ := by
  cases b with
  | false => simp [flipEq]
  | true =>
    ext x y
    have := x.isLt
    have := y.isLt
    simp only [flipEq, if_true, submatrix_apply, Fin.revPerm_apply, chargeRaise, Matrix.add_apply, of_apply,
      conjTranspose_apply, Fin.val_rev, apply_ite star, star_one, star_zero]
    rw [add_comm]
    congr 1
    · exact if_congr (by omega) rfl rfl
    · exact if_congr (by omega) rfl rfl

theorem rel_onMode (a : Fin k) (A : Matrix (Fin (m (π a))) (Fin (m (π a))) ℂ) :
    (onMode (fun a => m (π a)) a A).submatrix (relIdx π r m) (relIdx π r m) =
      onMode m (π a) (A.submatrix (flipEq _ (r a)) (flipEq _ (r a))) := by
  ext x y
  rw [submatrix_apply]
  have hiff : (∀ t, t ≠ a → relIdx π r m x t = relIdx π r m y t) ↔ ∀ t, t ≠ π a → x t = y t := by
    simp only [relIdx_apply]
    constructor
    · intro h t ht
      have := h (π.symm t) (by rintro h'; exact ht (by rw [← h', Equiv.apply_symm_apply]))
      have h2 := (flipEq _ _).injective this
      rw [Equiv.apply_symm_apply] at h2
      exact h2
    · intro h t ht
      rw [h (π t) fun h' => ht (π.injective h')]
  by_cases h : ∀ t, t ≠ π a → x t = y t
  · rw [onMode_pos _ h, onMode_pos _ (hiff.2 h)]
    rfl
  · rw [onMode_neg _ h, onMode_neg _ (fun h' => h (hiff.1 h'))]

theorem rel_pairs (ng : Fin k → ℝ) (ng' : Fin k' → ℝ) (hng : ∀ a, ng' (π a) = flipSign (r a) * ng a) (a : Fin k) :
    (pairs (fun a => m (π a)) ng a).submatrix (relIdx π r m) (relIdx π r m) =
      ((flipSign (r a) : ℝ) : ℂ) • pairs m ng' (π a) := by
  unfold pairs
  rw [submatrix_sub, Pi.sub_apply, Pi.sub_apply, rel_onMode, flipEq_charge]
  have h1 : ((ng a : ℂ) • (1 : Op fun a => m (π a))).submatrix (relIdx π r m) (relIdx π r m) = (ng a : ℂ) • (1 : Op m) := by
    rw [submatrix_smul, Pi.smul_apply, Pi.smul_apply, submatrix_one_equiv]
  rw [h1, hng, smul_sub, smul_smul]
  have h2 : onMode m (π a) (((flipSign (r a) : ℝ) : ℂ) • qCharge (m (π a))) =
      ((flipSign (r a) : ℝ) : ℂ) • onMode m (π a) (qCharge (m (π a))) := by
    ext x y
    rw [Matrix.smul_apply]
    by_cases h : ∀ t, t ≠ π a → x t = y t
    · rw [onMode_pos _ h, onMode_pos _ h]
      rfl
    · rw [onMode_neg _ h, onMode_neg _ h, smul_zero]
  rw [h2]
  congr 2
  have : flipSign (r a) * flipSign (r a) = 1 := by
    unfold flipSign; split <;> norm_num
  rw [Complex.ofReal_mul, ← mul_assoc, ← Complex.ofReal_mul, this, Complex.ofReal_one, one_mul]

theorem onMode_conjT (a : Fin k') (A : Matrix (Fin (m a)) (Fin (m a)) ℂ) : (onMode m a A)ᴴ = onMode m a Aᴴ := by
  ext x y
  rw [conjTranspose_apply]
  by_cases h : ∀ t, t ≠ a → x t = y t
  · rw [onMode_pos _ h, onMode_pos _ (fun t ht => (h t ht).symm)]
    rfl
  · rw [onMode_neg _ h, onMode_neg _ (fun h' => h fun t ht => (h' t ht).symm), star_zero]

theorem onMode_addM (a : Fin k') (A B : Matrix (Fin (m a)) (Fin (m a)) ℂ) : onMode m a (A + B) = onMode m a A + onMode m a B := by
  ext x y
  rw [Matrix.add_apply]
  by_cases h : ∀ t, t ≠ a → x t = y t
  · rw [onMode_pos _ h, onMode_pos _ h, onMode_pos _ h]
    rfl
  · rw [onMode_neg _ h, onMode_neg _ h, onMode_neg _ h, add_zero]

theorem chargeCos_zero {k : ℕ} (m : Fin k → ℕ) (a : Fin k) :
    chargeCos m a 0 = (1 / 2 : ℂ) • onMode m a (chargeRaise (m a) + (chargeRaise (m a))ᴴ) := by
  unfold chargeCos
  simp only [Complex.ofReal_zero, mul_zero, Complex.exp_zero, one_smul]
  rw [onMode_addM, onMode_conjT]

theorem rel_cos (a : Fin k) :
    (chargeCos (fun a => m (π a)) a 0).submatrix (relIdx π r m) (relIdx π r m) = chargeCos m (π a) 0 := by
  rw [chargeCos_zero, chargeCos_zero, submatrix_smul, Pi.smul_apply, Pi.smul_apply, rel_onMode]
  congr 2
  rw [submatrix_add, Pi.add_apply, Pi.add_apply, ← conjTranspose_submatrix, flipEq_raise]

/-- Renumbering the modes and reversing some of them turns one island Hamiltonian into the other. -/
theorem relabel_islands {q q' : ℕ} (σ : Fin q ≃ Fin k) (σ' : Fin q' ≃ Fin k') (τ : Fin q ≃ Fin q')
    (hπ : ∀ i, π (σ i) = σ' (τ i)) (G : Matrix (Fin q) (Fin q) ℝ) (G' : Matrix (Fin q') (Fin q') ℝ) (E : Fin q → ℝ)
    (E' : Fin q' → ℝ) (hG : ∀ i j, G' (τ i) (τ j) = flipSign (r (σ i)) * flipSign (r (σ j)) * G i j)
    (hE : ∀ i, E' (τ i) = E i) (ng : Fin k → ℝ) (ng' : Fin k' → ℝ) (hng : ∀ a, ng' (π a) = flipSign (r a) * ng a) :
    (islandHamiltonian σ G E (fun a => m (π a)) ng).submatrix (relIdx π r m) (relIdx π r m) =
      islandHamiltonian σ' G' E' m ng' := by
  rw [islandHamiltonian_sum, islandHamiltonian_sum]
  have hsum : ∀ {α : Type} (S : Finset α) (f : α → Op fun a => m (π a)),
      (∑ i ∈ S, f i).submatrix (relIdx π r m) (relIdx π r m) = ∑ i ∈ S, (f i).submatrix (relIdx π r m) (relIdx π r m) := by
    intro α S f
    ext x y
    simp only [submatrix_apply, Matrix.sum_apply]
  have hsm : ∀ (c : ℂ) (A : Op fun a => m (π a)), (c • A).submatrix (relIdx π r m) (relIdx π r m) =
      c • A.submatrix (relIdx π r m) (relIdx π r m) := fun _ _ => rfl
  have hsub : ∀ A B : Op fun a => m (π a), (A - B).submatrix (relIdx π r m) (relIdx π r m) =
      A.submatrix (relIdx π r m) (relIdx π r m) - B.submatrix (relIdx π r m) (relIdx π r m) := fun _ _ => rfl
  have hmul : ∀ A B : Op fun a => m (π a), (A * B).submatrix (relIdx π r m) (relIdx π r m) =
      A.submatrix (relIdx π r m) (relIdx π r m) * B.submatrix (relIdx π r m) (relIdx π r m) :=
    fun A B => (submatrix_mul_equiv A B _ _ _).symm
  rw [hsub, hsm, hsum, hsum]
  congr 1
  · congr 1
    rw [← τ.sum_comp]
    refine Finset.sum_congr rfl fun i _ => ?_
    rw [← τ.sum_comp, hsum]
    refine Finset.sum_congr rfl fun j _ => ?_
    rw [hsm, hmul, rel_pairs π r m ng ng' hng, rel_pairs π r m ng ng' hng, hG, hπ, hπ, smul_mul_smul_comm, smul_smul]
    congr 1
    push_cast
    have h1 : ∀ b : Bool, ((flipSign b : ℝ) : ℂ) * flipSign b = 1 := by
      intro b
      cases b <;> simp [flipSign]
    ring
  · rw [← τ.sum_comp]
    refine Finset.sum_congr rfl fun i _ => ?_
    rw [hsm, rel_cos, hE, hπ]

end Space

/-! ### dictionaries -/

section Dict

variable {n : ℕ} {O : Objs} {els els' : Elements}

/-- `e'` is the edge `e` with renumbered nodes, in either direction -/
def RelEdge (σ : Equiv.Perm (Fin n)) (e e' : Edge) : Prop :=
  e' = (renameNode σ e.1, renameNode σ e.2) ∨ e' = (renameNode σ e.2, renameNode σ e.1)

theorem relEdge_left {σ : Equiv.Perm (Fin n)} {e f e' : Edge} (he : ValidEdge n e) (hf : ValidEdge n f) (h1 : RelEdge σ e e')
    (h2 : RelEdge σ f e') : f = e ∨ f = (e.2, e.1) := by
  have key : ∀ {a b : ℕ}, a ≤ n → b ≤ n → renameNode σ a = renameNode σ b → a = b := fun ha hb h => renameNode_inj σ ha hb h
  obtain ⟨-, a1, a2⟩ := he
  obtain ⟨-, b1, b2⟩ := hf
  rcases h1 with rfl | rfl <;> rcases h2 with h2 | h2 <;> simp only [Prod.mk.injEq] at h2
  · left; exact Prod.ext (key b1 a1 h2.1.symm) (key b2 a2 h2.2.symm)
  · right; exact Prod.ext (key b1 a2 h2.2.symm) (key b2 a1 h2.1.symm)
  · right; exact Prod.ext (key b1 a2 h2.1.symm) (key b2 a1 h2.2.symm)
  · left; exact Prod.ext (key b1 a1 h2.2.symm) (key b2 a2 h2.1.symm)

theorem relEdge_right {σ : Equiv.Perm (Fin n)} {e e' f' : Edge} (h1 : RelEdge σ e e') (h2 : RelEdge σ e f') :
    f' = e' ∨ f' = (e'.2, e'.1) := by
  rcases h1 with rfl | rfl <;> rcases h2 with rfl | rfl <;> simp

theorem relEdge_inc {σ : Equiv.Perm (Fin n)} {e e' : Edge} (hv : ValidEdge n e) (h : RelEdge σ e e') :
    ∃ b : Bool, ∀ i : Fin n, (incidence e' ((σ i : ℕ) + 1) : ℝ) = flipSign b * (incidence e (i + 1) : ℝ) := by
  have hr := incidence_rename σ hv.2.1 hv.2.2
  rcases h with rfl | rfl
  · exact ⟨false, fun i => by rw [hr]; simp [flipSign]⟩
  · have hne : renameNode σ e.1 ≠ renameNode σ e.2 := fun h => hv.1 (renameNode_inj σ hv.2.1 hv.2.2 h)
    rcases incidence_flip _ _ hne with h | h
    · exact ⟨false, fun i => by rw [h, hr]; simp [flipSign]⟩
    · exact ⟨true, fun i => by rw [h, hr]; simp [flipSign]⟩

/-- independent junction edges are different, also up to direction -/
theorem indep_edges (hv : ValidElements n els) (hli : IndependentJunctions O els n) (i j : Fin (junctionEdges O els).length)
    (h : (junctionEdges O els).get j = (junctionEdges O els).get i ∨
      (junctionEdges O els).get j = (((junctionEdges O els).get i).2, ((junctionEdges O els).get i).1)) : j = i := by
  by_contra hne
  have hval : ValidEdge n ((junctionEdges O els).get i) := valid_junctionEdge hv (List.get_mem _ _)
  have hrow : ∃ c : ℝ, (junctionIncidence O els n).row j = c • (junctionIncidence O els n).row i := by
    rcases h with h | h
    · refine ⟨1, ?_⟩
      funext p
      simp only [Matrix.row_apply, junctionIncidence, of_apply, h, Pi.smul_apply, smul_eq_mul, one_mul]
    · rcases incidence_flip _ _ hval.1 with h' | h'
      · refine ⟨1, ?_⟩
        funext p
        simp only [Matrix.row_apply, junctionIncidence, of_apply, h, Pi.smul_apply, smul_eq_mul, one_mul, h']
      · refine ⟨-1, ?_⟩
        funext p
        simp only [Matrix.row_apply, junctionIncidence, of_apply, h, Pi.smul_apply, smul_eq_mul, h']
        push_cast
        ring
  obtain ⟨c, hc⟩ := hrow
  have := linearIndependent_iff'.1 hli {j, i} (fun a => if a = j then 1 else -c) (by
    rw [Finset.sum_pair hne, if_pos rfl, if_neg (Ne.symm hne), hc]
    simp) j (by simp)
  simp at this

theorem mem_junctionEdges_iff {e : Edge} :
    e ∈ junctionEdges O els ↔ ∃ i, (e, i) ∈ placements els ∧ (O.elem i).kind = .jj := by
  unfold junctionEdges placements
  simp only [List.mem_map, List.mem_filter, List.any_eq_true, decide_eq_true_eq, List.mem_flatMap, Prod.mk.injEq]
  constructor
  · rintro ⟨p, ⟨hp, i, hi, hk⟩, rfl⟩
    exact ⟨i, ⟨p, hp, i, hi, rfl, rfl⟩, hk⟩
  · rintro ⟨i, ⟨p, hp, j, hj, rfl, rfl⟩, hk⟩
    exact ⟨p, ⟨hp, j, hj, hk⟩, rfl⟩

theorem invCap_apply (O : Objs) (els : Elements) (n : ℕ) (i j : Fin (junctionEdges O els).length) :
    junctionInvCap O els n i j =
      ∑ b, (∑ a, junctionIncidence O els n i a * (capacitances O els n)⁻¹ a b) * junctionIncidence O els n j b := by
  unfold junctionInvCap
  simp only [mul_apply, transpose_apply]

/-- Renumbered dictionaries with as many independent junction edges: corresponding edges, directions, inverse capacitances
and Josephson energies. -/
theorem relabel_dict {σ : Equiv.Perm (Fin n)} (hren : Renumbered σ els els') (hv : ValidElements n els)
    (hv' : ValidElements n els') (hli : IndependentJunctions O els n) (hli' : IndependentJunctions O els' n)
    (hcard : (junctionEdges O els).length = (junctionEdges O els').length) (vals : ElemId → ℝ) :
    ∃ (τ : Fin (junctionEdges O els).length ≃ Fin (junctionEdges O els').length)
      (r : Fin (junctionEdges O els).length → Bool),
      (∀ i, RelEdge σ ((junctionEdges O els).get i) ((junctionEdges O els').get (τ i))) ∧
      (∀ i j, junctionInvCap (O.withVals vals) els' n (τ i) (τ j) =
        flipSign (r i) * flipSign (r j) * junctionInvCap (O.withVals vals) els n i j) ∧
      ∀ i, edgeEJ O els' vals ((junctionEdges O els').get (τ i)) = edgeEJ O els vals ((junctionEdges O els).get i) := by
  obtain ⟨l, hp, hl⟩ := hren
  have hval : ∀ i, ValidEdge n ((junctionEdges O els).get i) := fun i => valid_junctionEdge hv (List.get_mem _ _)
  have hfw : ∀ q ∈ placements els, ∃ q' ∈ placements els', q'.2 = q.2 ∧ RelEdge σ q.1 q'.1 := by
    intro q hq
    obtain ⟨a, ha, rfl⟩ := List.getElem_of_mem hq
    obtain ⟨hlen, hget⟩ := List.forall₂_iff_get.1 hl
    refine ⟨l[a]'(by omega), hp.mem_iff.2 (List.getElem_mem _), ?_⟩
    exact hget a ha (by omega)
  have hex : ∀ i, ∃ j, RelEdge σ ((junctionEdges O els).get i) ((junctionEdges O els').get j) := by
    intro i
    obtain ⟨a, ha, hk⟩ := mem_junctionEdges_iff.1 (List.get_mem (junctionEdges O els) i)
    obtain ⟨q', hq', h2, hrel⟩ := hfw _ ha
    have : q'.1 ∈ junctionEdges O els' := mem_junctionEdges_iff.2 ⟨q'.2, hq', by rw [h2]; exact hk⟩
    obtain ⟨j, hj⟩ := List.get_of_mem this
    exact ⟨j, by rw [hj]; exact hrel⟩
  choose t ht using hex
  have hinj : Function.Injective t := by
    intro i j hij
    refine (indep_edges hv hli i j ?_).symm
    refine relEdge_left (hval i) (hval j) (ht i) ?_
    rw [hij]
    exact ht j
  have hbij : Function.Bijective t := (Fintype.bijective_iff_injective_and_card t).2 ⟨hinj, by simp [hcard]⟩
  choose r hr using fun i => relEdge_inc (hval i) (ht i)
  refine ⟨Equiv.ofBijective t hbij, r, ht, ?_, ?_⟩
  · intro i j
    have hC : (capacitances (O.withVals vals) els' n).submatrix σ σ = capacitances (O.withVals vals) els n := by
      ext a b
      exact (node_rename hv ⟨l, hp, hl⟩ (O.withVals vals) a b).1
    have hCi : ∀ a b, (capacitances (O.withVals vals) els' n)⁻¹ (σ a) (σ b) = (capacitances (O.withVals vals) els n)⁻¹ a b := by
      intro a b
      rw [← hC, inv_submatrix_equiv]
      rfl
    have hJ : ∀ i a, junctionIncidence (O.withVals vals) els' n (t i) (σ a) =
        flipSign (r i) * junctionIncidence (O.withVals vals) els n i a := fun i a => hr i a
    refine (invCap_apply (O.withVals vals) els' n (t i) (t j)).trans ?_
    rw [show junctionInvCap (O.withVals vals) els n i j = _ from invCap_apply (O.withVals vals) els n i j]
    rw [← Equiv.sum_comp σ, Finset.mul_sum]
    refine Finset.sum_congr rfl fun b _ => ?_
    rw [← Equiv.sum_comp σ]
    simp only [hJ, hCi]
    simp only [Finset.sum_mul, Finset.mul_sum]
    refine Finset.sum_congr rfl fun a _ => ?_
    ring
  · intro i
    unfold edgeEJ
    rw [((hp.filter _).map _).sum_eq]
    have key : ∀ (L L' : List (Edge × ElemId)), List.Forall₂ (fun q q' => q'.2 = q.2 ∧ RelEdge σ q.1 q'.1) L L' →
        (∀ q ∈ L, q ∈ placements els) → (∀ q ∈ L', q ∈ placements els') →
        ((L'.filter (fun q => decide ((O.elem q.2).kind = .jj ∧ q.1 = (junctionEdges O els').get (t i)))).map
          (fun q => vals q.2)).sum =
        ((L.filter (fun q => decide ((O.elem q.2).kind = .jj ∧ q.1 = (junctionEdges O els).get i))).map (fun q => vals q.2)).sum := by
      intro L L' hLL
      induction hLL with
      | nil => intro _ _; rfl
      | @cons q q' L L' h1 h2 ih =>
        intro hL hL'
        have ih := ih (fun x hx => hL x (List.mem_cons_of_mem _ hx)) (fun x hx => hL' x (List.mem_cons_of_mem _ hx))
        have hiff : ((O.elem q'.2).kind = .jj ∧ q'.1 = (junctionEdges O els').get (t i)) ↔
            ((O.elem q.2).kind = .jj ∧ q.1 = (junctionEdges O els).get i) := by
          rw [h1.1]
          refine and_congr_right fun hk => ?_
          have hq : q ∈ placements els := hL q List.mem_cons_self
          have hq' : q' ∈ placements els' := hL' q' List.mem_cons_self
          obtain ⟨a, ha⟩ := List.get_of_mem (mem_junctionEdges_iff.2 ⟨q.2, hq, hk⟩ : q.1 ∈ junctionEdges O els)
          obtain ⟨a', ha'⟩ := List.get_of_mem (mem_junctionEdges_iff.2 ⟨q'.2, hq', by rw [h1.1]; exact hk⟩ :
            q'.1 ∈ junctionEdges O els')
          rw [← ha, ← ha']
          constructor
          · intro h
            rw [indep_edges hv hli i a ?_]
            refine relEdge_left (hval i) (hval a) (ht i) ?_
            rw [← h, ha, ha']
            exact h1.2
          · intro h
            rw [indep_edges hv' hli' (t i) a' ?_]
            refine relEdge_right (ht i) ?_
            rw [← h, ha, ha']
            exact h1.2
        rw [List.filter_cons, List.filter_cons]
        by_cases hc : (O.elem q.2).kind = .jj ∧ q.1 = (junctionEdges O els).get i
        · rw [if_pos (by simpa using hiff.2 hc), if_pos (by simpa using hc), List.map_cons, List.map_cons, List.sum_cons,
            List.sum_cons, ih, h1.1]
        · rw [if_neg (by simpa using fun h1 h2 => hc (hiff.1 ⟨h1, h2⟩)), if_neg (by simpa using fun h1 h2 => hc ⟨h1, h2⟩), ih]
    exact key _ _ hl (fun _ h => h) (fun _ h => hp.mem_iff.2 h)

end Dict

end SQ
