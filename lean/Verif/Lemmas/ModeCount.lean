import Verif.Spec.ModeCount
import Verif.Lemmas.ConstructT2
import Verif.Lemmas.Constructed

/-! # Counting modes -/

namespace SQ
open Matrix Spec

variable {nJ n : ℕ}

/-- node potentials that agree across every edge of a set -/
def flat (n : ℕ) (E : Set Edge) : Submodule ℝ (Fin n → ℝ) where
  carrier := {x | ∀ e ∈ E, pot x e.1 = pot x e.2}
  zero_mem' := by
    intro e _
    have h : ∀ k, pot (0 : Fin n → ℝ) k = 0 := by
      intro k
      cases k with
      | zero => rfl
      | succ k => simp [pot]
    rw [h, h]
  add_mem' := by
    intro x y hx hy e he
    have h : ∀ k, pot (x + y) k = pot x k + pot y k := by
      intro k
      cases k with
      | zero => simp [pot]
      | succ k => simp only [pot]; split <;> simp
    rw [h, h, hx e he, hy e he]
  smul_mem' := by
    intro c x hx e he
    have h : ∀ k, pot (c • x) k = c * pot x k := by
      intro k
      cases k with
      | zero => simp [pot]
      | succ k => simp only [pot]; split <;> simp
    rw [h, h, hx e he]

theorem mem_flat {E : Set Edge} {x : Fin n → ℝ} : x ∈ flat n E ↔ ∀ e ∈ E, pot x e.1 = pot x e.2 := Iff.rfl

/-- the graph of a set of edges -/
def edgeGraph (n : ℕ) (E : Set Edge) : SimpleGraph (Fin (n + 1)) :=
  SimpleGraph.fromRel fun a b => ((a : ℕ), (b : ℕ)) ∈ E

/-- potentials from one number for each part -/
noncomputable def partPot (n : ℕ) (E : Set Edge) :
    ((edgeGraph n E).ConnectedComponent → ℝ) →ₗ[ℝ] (Fin n → ℝ) × ℝ where
  toFun g := (fun k => g ((edgeGraph n E).connectedComponentMk k.succ) - g ((edgeGraph n E).connectedComponentMk 0),
    g ((edgeGraph n E).connectedComponentMk 0))
  map_add' x y := by
    ext
    · simp; ring
    · simp
  map_smul' c x := by
    ext
    · simp; ring
    · simp

theorem pot_partPot {E : Set Edge} (g : (edgeGraph n E).ConnectedComponent → ℝ) (v : Fin (n + 1)) :
    pot (partPot n E g).1 v = g ((edgeGraph n E).connectedComponentMk v) - g ((edgeGraph n E).connectedComponentMk 0) := by
  refine Fin.cases ?_ (fun k => ?_) v
  · simp [pot]
  · change (if h : (k : ℕ) < n then (partPot n E g).1 ⟨k, h⟩ else 0) = _
    rw [dif_pos k.isLt]; rfl

theorem partPot_range {E : Set Edge} (hE : ∀ e ∈ E, e.1 ≤ n ∧ e.2 ≤ n) :
    LinearMap.range (partPot n E) = (flat n E).prod ⊤ := by
  ext ⟨x, c⟩
  rw [LinearMap.mem_range, Submodule.mem_prod]
  constructor
  · rintro ⟨g, hg⟩
    refine ⟨?_, trivial⟩
    intro e he
    obtain ⟨h1, h2⟩ := hE e he
    have hx : x = (partPot n E g).1 := by rw [hg]
    have e1 := pot_partPot g ⟨e.1, by omega⟩
    have e2 := pot_partPot g ⟨e.2, by omega⟩
    change pot x e.1 = pot x e.2
    rw [hx]
    refine e1.trans (Eq.trans ?_ e2.symm)
    congr 2
    by_cases hne : e.1 = e.2
    · simp only [hne]
    · rw [SimpleGraph.ConnectedComponent.eq]
      apply SimpleGraph.Adj.reachable
      rw [edgeGraph, SimpleGraph.fromRel_adj]
      exact ⟨fun h => hne (congrArg Fin.val h), Or.inl he⟩
  · rintro ⟨hx, -⟩
    have hadj : ∀ v w : Fin (n + 1), (edgeGraph n E).Adj v w → pot x v = pot x w := by
      intro v w h
      rw [edgeGraph, SimpleGraph.fromRel_adj] at h
      rcases h.2 with h | h
      · exact hx _ h
      · exact (hx _ h).symm
    have hwalk : ∀ v w : Fin (n + 1), (edgeGraph n E).Walk v w → pot x v = pot x w := by
      intro v w p
      induction p with
      | nil => rfl
      | cons h _ ih => exact (hadj _ _ h).trans ih
    refine ⟨SimpleGraph.ConnectedComponent.lift (fun v => pot x v + c) (fun v w p _ => by rw [hwalk v w p]), ?_⟩
    ext k
    · simp only [partPot, LinearMap.coe_mk, AddHom.coe_mk, SimpleGraph.ConnectedComponent.lift_mk]
      have : pot x ((k.succ : Fin (n + 1)) : ℕ) = x k := by
        change (if h : (k : ℕ) < n then x ⟨k, h⟩ else 0) = _
        rw [dif_pos k.isLt]
      rw [this]
      simp [pot]
    · simp only [partPot, LinearMap.coe_mk, AddHom.coe_mk, SimpleGraph.ConnectedComponent.lift_mk]
      change pot x 0 + c = c
      simp [pot]

/-- the potentials that agree across the edges of a graph: one for each connected part other than that of ground -/
theorem finrank_flat {E : Set Edge} (hE : ∀ e ∈ E, e.1 ≤ n ∧ e.2 ≤ n) :
    Module.finrank ℝ (flat n E) + 1 = Nat.card (edgeGraph n E).ConnectedComponent := by
  classical
  have : Fintype (edgeGraph n E).ConnectedComponent := Fintype.ofFinite _
  have hinj : Function.Injective (partPot n E) := by
    intro g g' h
    funext cc
    refine SimpleGraph.ConnectedComponent.ind (fun v => ?_) cc
    have h0 : g ((edgeGraph n E).connectedComponentMk 0) = g' ((edgeGraph n E).connectedComponentMk 0) :=
      congrArg Prod.snd h
    have h1 := pot_partPot g v
    have h2 := pot_partPot g' v
    rw [h, h2, h0] at h1
    linarith
  have h1 := LinearMap.finrank_range_of_inj hinj
  rw [partPot_range hE, Module.finrank_fintype_fun_eq_card] at h1
  rw [Nat.card_eq_fintype_card, ← h1]
  have h2 : (flat n E).prod (⊤ : Submodule ℝ ℝ) =
      LinearMap.range ((flat n E).subtype.prodMap (LinearMap.id : ℝ →ₗ[ℝ] ℝ)) := by
    ext ⟨x, c⟩
    rw [Submodule.mem_prod, LinearMap.mem_range]
    constructor
    · rintro ⟨h, -⟩
      exact ⟨(⟨x, h⟩, c), rfl⟩
    · rintro ⟨⟨y, d⟩, h⟩
      have h' := congrArg Prod.fst h
      refine ⟨?_, trivial⟩
      change x ∈ flat n E
      rw [← show (y : Fin n → ℝ) = x from h']
      exact y.2
  rw [h2, LinearMap.finrank_range_of_inj]
  · simp
  · rintro ⟨y, d⟩ ⟨y', d'⟩ h
    have h1 := congrArg Prod.fst h
    have h2 := congrArg Prod.snd h
    exact Prod.ext (Subtype.ext h1) h2

/-! ### the basis chosen by the second transformation -/

theorem mc_basisLoop_ind {argsort : ArgsortFn} {draws : Draws} {m q : ℕ} {A : Matrix (Fin m) (Fin q) ℝ} (hq : q ≠ 0)
    (fuel : ℕ) (st st' : BasisSt m q) (h : basisLoop argsort draws A fuel st = some st')
    (hst : st.basis.length = 0 ∨ st.ind = (independentRows argsort A).1) :
    st'.ind = (independentRows argsort A).1 := by
  induction fuel generalizing st with
  | zero =>
    rw [basisLoop] at h
    split at h
    · rename_i hl
      cases h
      exact hst.resolve_left (by omega)
    · cases h
  | succ fuel ih =>
    rw [basisLoop] at h
    split at h
    · rename_i hl
      cases h
      exact hst.resolve_left (by omega)
    · refine ih _ h (Or.inr ?_)
      unfold basisStep
      split
      · rfl
      · rename_i h0
        exact hst.resolve_left h0

/-- what the second transformation multiplies with: nothing, or the inverse of a basis that begins with the selected
junction rows -/
theorem t2_rows {sv : SvdFn} {argsort : ArgsortFn} {draws : Draws} {numJ : ℕ} {W : Matrix (Fin nJ) (Fin n) ℝ}
    {S1 : Matrix (Fin n) (Fin n) ℝ} {fuel k : ℕ} {t t' : Trans nJ n}
    (h : t2 sv argsort draws numJ W S1 fuel k t = some (.ok t')) :
    ∃ s r, t' = { applyT s r t with w := roundZeroOne numJ t.omega (applyT s r t).w } ∧
      ((¬ ((chargeCols t.omega).length ≠ 0 ∧ numJ ≠ 0) ∧ s = 1) ∨
        ((chargeCols t.omega).length ≠ 0 ∧ numJ ≠ 0) ∧ ∃ (rnd : List (Fin (chargeCols t.omega).length → ℝ))
          (hl : ((independentRows argsort (wCharge sv W S1 t.omega)).1.map (fun i => wCharge sv W S1 t.omega i) ++
            rnd).length = (chargeCols t.omega).length),
          IsUnit (rowsSquare _ hl).det ∧ s = blockS2 (chargeCols_length_le t.omega) (rowsSquare _ hl)⁻¹) := by
  induction fuel generalizing k with
  | zero => simp [t2] at h
  | succ fuel ih =>
    rw [t2] at h
    split at h
    · cases h
    · cases h
    · rename_i s k' hc
      split at h
      · cases h
      · rename_i r hr
        split at h
        · simp only [Option.some.injEq, Except.ok.injEq] at h
          refine ⟨s, r, h.symm, ?_⟩
          unfold t2Choose at hc
          simp only at hc
          split at hc
          · rename_i hcond
            refine Or.inr ⟨hcond, ?_⟩
            split at hc
            · cases hc
            · rename_i st hloop
              have hind := mc_basisLoop_ind hcond.1 _ _ _ hloop (Or.inl rfl)
              split at hc
              · cases hc
              · rename_i F hF
                split at hc
                · cases hc
                · rename_i Fi hFi
                  cases hc
                  unfold squareOf at hF
                  split at hF
                  · rename_i hl
                    cases hF
                    unfold npInv at hFi
                    split at hFi
                    · cases hFi
                    · rename_i hdet
                      cases hFi
                      rw [← hind]
                      exact ⟨st.rnd, hl, isUnit_iff_ne_zero.2 hdet, rfl⟩
                  · cases hF
          · rename_i hcond
            cases hc
            exact Or.inl ⟨hcond, rfl⟩
        · exact ih h

/-- the coupled charge modes after the second transformation: as many as the junction rows have dimensions on the charge
modes -/
theorem t2_coupled {sv : SvdFn} {argsort : ArgsortFn} {draws : Draws} {numJ : ℕ} {W : Matrix (Fin nJ) (Fin n) ℝ}
    {S1 : Matrix (Fin n) (Fin n) ℝ} {fuel k : ℕ} {t t' : Trans nJ n} (hJ : nJ ≠ 0)
    (h : t2 sv argsort draws numJ W S1 fuel k t = some (.ok t'))
    (hw : t.w = W * S1) {m : ℕ} (hm : m ≤ n) (ho : ∀ j, t.omega j = 0 ↔ m ≤ (j : ℕ))
    (hspan : SelectionSpans sv argsort W S1 t.omega)
    (h0 : numJ = 0 → ∀ i, chargeRow W S1 (chargeCols t.omega) i = 0) :
    t'.omega = t.omega ∧ Nat.card {j : Fin n // t.omega j = 0 ∧ ∃ i, t'.w i j ≠ 0} =
      Module.finrank ℝ (Submodule.span ℝ (Set.range (chargeRow W S1 (chargeCols t.omega)))) := by
  classical
  obtain ⟨s, r, rfl, hs⟩ := t2_rows h
  refine ⟨rfl, ?_⟩
  have hwS : (applyT s r t).w = t.w * s := by
    change (if nJ ≠ 0 then t.w * s else t.w) = _
    rw [if_pos hJ]
  rcases hs with ⟨hc, rfl⟩ | ⟨⟨hq, hn⟩, rnd, hl, hdet, rfl⟩
  · by_cases hn : numJ = 0
    · have hr : Set.range (chargeRow W S1 (chargeCols t.omega)) ⊆ {0} := by
        rintro _ ⟨i, rfl⟩; exact h0 hn i
      have hz : Submodule.span ℝ (Set.range (chargeRow W S1 (chargeCols t.omega))) = ⊥ := by
        rw [Submodule.span_eq_bot]; intro x hx; exact hr hx
      rw [hz, finrank_bot, Nat.card_eq_zero]
      left
      refine ⟨?_⟩
      rintro ⟨j, hj, i, hi⟩
      apply hi
      simp only [roundZeroOne, of_apply, hj, hn, accGS, if_true]
      norm_num
    · have hq : (chargeCols t.omega).length = 0 := by
        by_contra hq; exact hc ⟨hq, hn⟩
      have he : IsEmpty (Fin (chargeCols t.omega).length) := by rw [hq]; infer_instance
      rw [Module.finrank_zero_of_subsingleton, Nat.card_eq_zero]
      left
      refine ⟨?_⟩
      rintro ⟨j, hj, -⟩
      have := List.length_pos_of_mem ((mem_chargeCols t.omega j).2 hj)
      omega
  · have hgs := gsInv_rows argsort (wCharge sv W S1 t.omega)
    unfold SelectionSpans at hspan
    generalize independentRows argsort (wCharge sv W S1 t.omega) = rr at *
    have hli := gsInv_li hgs
    have hrq : rr.1.length ≤ (chargeCols t.omega).length := by simp at hl; omega
    have hrow : ∀ p : Fin rr.1.length, rowsSquare _ hl (Fin.castLE hrq p) = wCharge sv W S1 t.omega (rr.1.get p) := by
      intro p
      change (rr.1.map (fun i => wCharge sv W S1 t.omega i) ++ rnd).get _ = _
      rw [List.get_eq_getElem, List.getElem_append_left (by simp)]
      simp
    have hrange : Set.range (fun p : Fin rr.1.length => wCharge sv W S1 t.omega (rr.1.get p)) =
        wCharge sv W S1 t.omega '' {a | a ∈ rr.1} := by
      ext x
      constructor
      · rintro ⟨p, rfl⟩
        exact ⟨_, List.get_mem _ _, rfl⟩
      · rintro ⟨a, ha, rfl⟩
        obtain ⟨p, rfl⟩ := List.get_of_mem ha
        exact ⟨p, rfl⟩
    have hspaneq : Submodule.span ℝ (Set.range (chargeRow W S1 (chargeCols t.omega))) =
        Submodule.span ℝ (Set.range (fun p : Fin rr.1.length => wCharge sv W S1 t.omega (rr.1.get p))) := by
      apply le_antisymm
      · rw [Submodule.span_le, hrange]
        rintro _ ⟨i, rfl⟩
        exact hspan i
      · rw [Submodule.span_le]
        rintro _ ⟨p, rfl⟩
        exact Submodule.subset_span ⟨(keptCols sv Wᵀ).get (rr.1.get p), rfl⟩
    have hcard := linearIndependent_iff_card_eq_finrank_span.1 hli
    rw [Set.finrank, ← hspaneq, Fintype.card_fin] at hcard
    rw [← hcard]
    -- entries of the new couplings in the charge columns
    have hentry : ∀ i p, (t.w * blockS2 (chargeCols_length_le t.omega) (rowsSquare _ hl)⁻¹) i
        ((chargeCols t.omega).get p) = (chargeRow W S1 (chargeCols t.omega) i ᵥ* (rowsSquare _ hl)⁻¹) p := by
      intro i p
      rw [mul_blockS2 hm ho, hw]; rfl
    have hsel : ∀ p : Fin rr.1.length, ∀ j, (wCharge sv W S1 t.omega (rr.1.get p) ᵥ* (rowsSquare _ hl)⁻¹) j =
        if j = Fin.castLE hrq p then 1 else 0 := by
      intro p j
      rw [← hrow p]
      change (rowsSquare _ hl * (rowsSquare _ hl)⁻¹) (Fin.castLE hrq p) j = _
      rw [mul_nonsing_inv _ hdet, one_apply]
      simp only [eq_comm]
    have hbeyond : ∀ i (p : Fin (chargeCols t.omega).length), rr.1.length ≤ (p : ℕ) →
        (chargeRow W S1 (chargeCols t.omega) i ᵥ* (rowsSquare _ hl)⁻¹) p = 0 := by
      intro i p hp
      have hmem := hspan i
      rw [← hrange] at hmem
      obtain ⟨d, hd⟩ := (Submodule.mem_span_range_iff_exists_fun ℝ).1 hmem
      rw [← hd, ← vecMulLinear_apply, map_sum, Finset.sum_apply]
      apply Finset.sum_eq_zero
      intro x _
      rw [map_smul, vecMulLinear_apply, Pi.smul_apply, hsel, if_neg, smul_zero]
      intro he
      have h1 := congrArg Fin.val he
      have h2 := x.isLt
      simp at h1
      omega
    have hiff : ∀ p : Fin (chargeCols t.omega).length,
        (∃ i, roundZeroOne numJ t.omega (t.w * blockS2 (chargeCols_length_le t.omega) (rowsSquare _ hl)⁻¹) i
          ((chargeCols t.omega).get p) ≠ 0) ↔ (p : ℕ) < rr.1.length := by
      intro p
      have hp0 : t.omega ((chargeCols t.omega).get p) = 0 := (mem_chargeCols _ _).1 (List.get_mem _ _)
      constructor
      · rintro ⟨i, hi⟩
        by_contra hlt
        apply hi
        have : (t.w * blockS2 (chargeCols_length_le t.omega) (rowsSquare _ hl)⁻¹) i ((chargeCols t.omega).get p) = 0 := by
          rw [hentry, hbeyond i p (by omega)]
        rw [round_tri hn hp0 (by rw [this]; exact Or.inr (Or.inl rfl)), this]
      · intro hlt
        refine ⟨(keptCols sv Wᵀ).get (rr.1.get ⟨p, hlt⟩), ?_⟩
        have : (t.w * blockS2 (chargeCols_length_le t.omega) (rowsSquare _ hl)⁻¹)
            ((keptCols sv Wᵀ).get (rr.1.get ⟨p, hlt⟩)) ((chargeCols t.omega).get p) = 1 := by
          rw [hentry]
          refine (hsel ⟨p, hlt⟩ p).trans ?_
          rw [if_pos]
          ext; simp
        rw [round_tri hn hp0 (by rw [this]; exact Or.inr (Or.inr rfl)), this]
        exact one_ne_zero
    have hbij : Nat.card {j : Fin n // t.omega j = 0 ∧ ∃ i, roundZeroOne numJ t.omega
        (applyT (blockS2 (chargeCols_length_le t.omega) (rowsSquare _ hl)⁻¹) r t).w i j ≠ 0} =
        Nat.card (Fin rr.1.length) := by
      symm
      apply Nat.card_congr
      refine Equiv.ofBijective (fun p => ⟨(chargeCols t.omega).get (Fin.castLE hrq p), ?_, ?_⟩) ⟨?_, ?_⟩
      · exact (mem_chargeCols _ _).1 (List.get_mem _ _)
      · rw [hwS]
        exact (hiff (Fin.castLE hrq p)).2 p.isLt
      · intro p p' hpp
        have := chargeCols_inj t.omega (congrArg Subtype.val hpp)
        exact Fin.castLE_injective hrq this
      · rintro ⟨j, hj, hc⟩
        obtain ⟨p, rfl⟩ := List.get_of_mem ((mem_chargeCols t.omega j).2 hj)
        rw [hwS] at hc
        exact ⟨⟨p, (hiff p).1 hc⟩, Subtype.ext rfl⟩
    rw [Nat.card_fin] at hbij
    exact hbij

/-! ### dimensions -/

theorem charge_dim {L S : Matrix (Fin n) (Fin n) ℝ} (hS : IsUnit S.det) {d : Fin n → ℝ} (hd : Sᵀ * L * S = diagonal d)
    {omega : Fin n → ℝ} (ho : ∀ j, omega j = 0 ↔ d j = 0) {E : Set Edge} (hE : ∀ x, L *ᵥ x = 0 ↔ x ∈ flat n E) :
    Module.finrank ℝ (flat n E) = (chargeCols omega).length := by
  obtain ⟨hinj, hker⟩ := chargeS_kernel hS hd ho
  have hr : LinearMap.range (chargeS S (chargeCols omega)).mulVecLin = flat n E := by
    ext x
    rw [← hE, hker, LinearMap.mem_range]
    exact ⟨fun ⟨y, hy⟩ => ⟨y, hy.symm⟩, fun ⟨y, hy⟩ => ⟨y, hy.symm⟩⟩
  rw [← hr, LinearMap.finrank_range_of_inj]
  · simp
  · rw [← LinearMap.ker_eq_bot, LinearMap.ker_eq_bot']
    exact hinj

theorem row_dim {L S : Matrix (Fin n) (Fin n) ℝ} (hS : IsUnit S.det) {d : Fin n → ℝ} (hd : Sᵀ * L * S = diagonal d)
    {omega : Fin n → ℝ} (ho : ∀ j, omega j = 0 ↔ d j = 0) {E E' : Set Edge} (hE : ∀ x, L *ᵥ x = 0 ↔ x ∈ flat n E)
    {W : Matrix (Fin nJ) (Fin n) ℝ} (hW : ∀ x, W *ᵥ x = 0 ↔ x ∈ flat n E') :
    Module.finrank ℝ (Submodule.span ℝ (Set.range (chargeRow W S (chargeCols omega)))) +
      Module.finrank ℝ (flat n (E ∪ E')) = Module.finrank ℝ (flat n E) := by
  rw [charge_dim hS hd ho hE]
  obtain ⟨hinj, hker⟩ := chargeS_kernel hS hd ho
  have hinj' : Function.Injective (chargeS S (chargeCols omega)).mulVecLin := by
    rw [← LinearMap.ker_eq_bot, LinearMap.ker_eq_bot']
    exact hinj
  set A : Matrix (Fin nJ) (Fin (chargeCols omega).length) ℝ := Matrix.of (chargeRow W S (chargeCols omega)) with hA
  have hAW : ∀ y, A *ᵥ y = W *ᵥ (chargeS S (chargeCols omega) *ᵥ y) := by
    intro y
    rw [mulVec_mulVec]
    rfl
  have h1 : Submodule.map (chargeS S (chargeCols omega)).mulVecLin (LinearMap.ker A.mulVecLin) = flat n (E ∪ E') := by
    ext x
    rw [Submodule.mem_map]
    have hu : x ∈ flat n (E ∪ E') ↔ x ∈ flat n E ∧ x ∈ flat n E' := by
      simp only [mem_flat, Set.mem_union, or_imp, forall_and]
    rw [hu, ← hE, ← hW, hker]
    constructor
    · rintro ⟨y, hy, rfl⟩
      refine ⟨⟨y, rfl⟩, ?_⟩
      rw [LinearMap.mem_ker, mulVecLin_apply, hAW] at hy
      exact hy
    · rintro ⟨⟨y, rfl⟩, hy⟩
      refine ⟨y, ?_, rfl⟩
      rw [LinearMap.mem_ker, mulVecLin_apply, hAW]
      exact hy
  have h2 := (Submodule.equivMapOfInjective _ hinj' (LinearMap.ker A.mulVecLin)).finrank_eq
  rw [h1] at h2
  have h3 := LinearMap.finrank_range_add_finrank_ker A.mulVecLin
  have h4 : Module.finrank ℝ (LinearMap.range A.mulVecLin) =
      Module.finrank ℝ (Submodule.span ℝ (Set.range (chargeRow W S (chargeCols omega)))) :=
    A.rank_eq_finrank_span_row
  rw [← h2, ← h4, h3]
  simp

/-- the edges that carry an element of one of some kinds -/
def kindEdges (O : Objs) (els : Elements) (kinds : List Kind) : Set Edge :=
  {e | ∃ p ∈ els, p.1 = e ∧ ∃ i ∈ p.2, (O.elem i).kind ∈ kinds}

theorem kindGraph_eq (O : Objs) (els : Elements) (n : ℕ) (kinds : List Kind) :
    kindGraph O els n kinds = edgeGraph n (kindEdges O els kinds) := rfl

theorem kindEdges_le {O : Objs} {els : Elements} {kinds : List Kind} (hv : ValidElements n els) :
    ∀ e ∈ kindEdges O els kinds, e.1 ≤ n ∧ e.2 ≤ n := by
  rintro _ ⟨p, hp, rfl, -⟩
  exact (hv p hp).2

theorem numParts_flat {O : Objs} {els : Elements} {kinds : List Kind} (hv : ValidElements n els) :
    Module.finrank ℝ (flat n (kindEdges O els kinds)) + 1 = numParts O els n kinds :=
  finrank_flat (kindEdges_le hv)

theorem kindEdges_union (O : Objs) (els : Elements) (k k' : List Kind) :
    kindEdges O els k ∪ kindEdges O els k' = kindEdges O els (k ++ k') := by
  ext e
  constructor
  · rintro (⟨p, hp, he, i, hi, hk⟩ | ⟨p, hp, he, i, hi, hk⟩)
    · exact ⟨p, hp, he, i, hi, List.mem_append_left _ hk⟩
    · exact ⟨p, hp, he, i, hi, List.mem_append_right _ hk⟩
  · rintro ⟨p, hp, he, i, hi, hk⟩
    rcases List.mem_append.1 hk with hk | hk
    · exact Or.inl ⟨p, hp, he, i, hi, hk⟩
    · exact Or.inr ⟨p, hp, he, i, hi, hk⟩

theorem kernel_flat {torch fd} {O : Objs} {h : LoopId → LoopObj} {els : Elements}
    (hv : ValidElements n els) (hc : PositiveCaps O els) (hl : PositiveInds O els) {a : Acc n}
    (ha : traverse torch fd O n h els = .ok a) (x : Fin n → ℝ) : a.lMat *ᵥ x = 0 ↔ x ∈ flat n (kindEdges O els [.ind]) := by
  have hpsd := (traverse_graphKernel hv hc hl ha).1
  have h1 := (C17_null_space torch fd O n h els hv hl a ha).1 x
  have h2 := hpsd.dotProduct_mulVec_zero_iff x
  rw [star_trivial] at h2
  rw [← h2, h1, mem_flat]
  constructor
  · rintro hx e ⟨p, hp, rfl, i, hi, hk⟩
    exact hx p hp i hi (by simpa using hk)
  · intro hx p hp i hi hk
    exact hx p.1 ⟨p, hp, rfl, i, hi, by simpa using hk⟩

theorem junction_flat {torch fd} {O : Objs} {h : LoopId → LoopObj} {els : Elements}
    (hv : ValidElements n els) {a : Acc n} (ha : traverse torch fd O n h els = .ok a) (x : Fin n → ℝ) :
    arrayOf n a.wMat *ᵥ x = 0 ↔ x ∈ flat n (kindEdges O els [.jj]) := by
  have hw := (traverse_inv hv ha).2
  have hval : ∀ (e : Edge) (he : ValidEdge n e), (∑ k : Fin n, rowVec n (incVec n e) k * x k = 0) ↔
      pot x e.1 = pot x e.2 := by
    intro e he
    have h1 : ∑ k : Fin n, rowVec n (incVec n e) k * x k = ∑ k : Fin n, (incidence e (k + 1) : ℝ) * x k := by
      apply Finset.sum_congr rfl
      intro k _
      simp [rowVec, incVec]
    rw [h1, sum_incidence he]
    unfold branchDiff
    split <;> constructor <;> intro h <;> linarith
  have hrow : arrayOf n a.wMat *ᵥ x = 0 ↔ ∀ r ∈ a.wMat, ∑ k : Fin n, rowVec n r k * x k = 0 := by
    constructor
    · intro h0 r hr
      obtain ⟨i, rfl⟩ := List.get_of_mem hr
      exact congrFun h0 i
    · intro h0
      funext i
      exact h0 _ (List.get_mem _ i)
  rw [hrow, hw, mem_flat]
  constructor
  · rintro h0 e ⟨p, hp, rfl, i, hi, hk⟩
    rw [← hval p.1 (hv p hp)]
    apply h0
    apply List.mem_map_of_mem
    unfold junctionEdges
    apply List.mem_map_of_mem
    rw [List.mem_filter]
    refine ⟨hp, ?_⟩
    rw [List.any_eq_true]
    exact ⟨i, hi, by simpa using hk⟩
  · intro h0 r hr
    obtain ⟨e, he, rfl⟩ := List.mem_map.1 hr
    unfold junctionEdges at he
    obtain ⟨p, hp, rfl⟩ := List.mem_map.1 he
    obtain ⟨hp, hany⟩ := List.mem_filter.1 hp
    rw [List.any_eq_true] at hany
    obtain ⟨i, hi, hk⟩ := hany
    rw [hval p.1 (hv p hp)]
    exact h0 p.1 ⟨p, hp, rfl, i, hi, by simpa using hk⟩

end SQ
