import Verif.Lemmas.Network
import Verif.Lemmas.Linear
import Verif.Lemmas.Constructed
import Verif.Spec.LoopSigns

/-!
# Loop vectors and flux shares of a circuit written down in two ways
-/

namespace SQ
open SQ.Spec Matrix

/-- loop vectors `G` and exact shares `B0` of a circuit with inductive elements `P`, by branch and loop -/
structure LoopShares (n : ℕ) (O : Objs) (P : List (Edge × ElemId)) (fst : LoopId → Option ℕ) (cap : ElemId → ℝ) (L : List LoopId)
    (G : LoopId → Fin P.length → ℝ) (B0 : Fin P.length → LoopId → ℝ) : Prop where
  sign : ∀ l ∈ L, ∀ i, G l i = 0 ∨ G l i = 1 ∨ G l i = -1
  support : ∀ l ∈ L, ∀ i, l ∉ (O.elem (P.get i).2).loops → G l i = 0
  closes : ∀ l ∈ L, ∀ k : Fin n, ∑ i, G l i * (incidence (P.get i).1 (k + 1) : ℝ) = 0
  first : ∀ l ∈ L, ∃ i0 : Fin P.length, fst l = some (i0 : ℕ) ∧ G l i0 = 1 ∧ ∀ g : Fin P.length → ℝ, g i0 = 1 → (∀ i, l ∉ (O.elem (P.get i).2).loops → g i = 0) →
    (∀ k : Fin n, ∑ i, g i * (incidence (P.get i).1 (k + 1) : ℝ) = 0) → g = G l
  loop : ∀ l ∈ L, ∀ l' ∈ L, ∑ i, G l i * B0 i l' = if l = l' then 1 else 0
  node : ∀ l' ∈ L, ∀ k : Fin n, ∑ i, (incidence (P.get i).1 (k + 1) : ℝ) * cap (P.get i).2 * B0 i l' = 0
  unique : ∀ l' ∈ L, ∀ x : Fin P.length → ℝ, (∀ l ∈ L, ∑ i, G l i * x i = if l = l' then 1 else 0) →
    (∀ k : Fin n, ∑ i, (incidence (P.get i).1 (k + 1) : ℝ) * cap (P.get i).2 * x i = 0) → x = fun i => B0 i l'

theorem rint_neg (x : ℝ) : rint (-x) = - rint x := by
  by_cases hz : x = ⌊x⌋
  · have e : ∀ z : ℤ, rint (z : ℝ) = z := by
      intro z
      unfold rint
      simp
    rw [hz, ← Int.cast_neg, e, e]
  · have hfl : ⌊-x⌋ = - ⌊x⌋ - 1 := by
      rw [Int.floor_eq_iff]
      have h1 := Int.floor_le x
      have h2 := Int.lt_floor_add_one x
      have h3 : (⌊x⌋ : ℝ) ≠ x := fun h => hz h.symm
      have h4 : (⌊x⌋ : ℝ) < x := lt_of_le_of_ne h1 h3
      push_cast
      constructor <;> linarith
    unfold rint
    simp only [hfl]
    push_cast
    by_cases h1 : x - ⌊x⌋ < 1 / 2
    · rw [if_neg (by linarith), if_pos (by linarith), if_pos h1]; ring
    · by_cases h2 : 1 / 2 < x - ⌊x⌋
      · rw [if_pos (by linarith), if_neg h1, if_pos h2]; ring
      · rw [if_neg (by linarith), if_neg (by linarith), if_neg h1, if_neg h2]
        by_cases h3 : (2 : ℤ) ∣ ⌊x⌋
        · rw [if_pos h3, if_neg (by omega)]; ring
        · rw [if_neg h3, if_pos (by omega)]; ring

theorem round5_neg (x : ℝ) : round5 (-x) = - round5 x := by
  unfold round5
  rw [neg_mul, rint_neg]
  push_cast; ring

theorem round5_sgn {a : ℝ} (ha : a = 1 ∨ a = -1) (x : ℝ) : round5 (a * x) = a * round5 x := by
  rcases ha with rfl | rfl
  · rw [one_mul, one_mul]
  · rw [neg_one_mul, round5_neg, neg_one_mul]

theorem sgn_mul_self {s : ℝ} (h : s = 1 ∨ s = -1) : s * s = 1 := by rcases h with h | h <;> rw [h] <;> norm_num

section
variable {n : ℕ} {O : Objs} {P P' : List (Edge × ElemId)} {cap : ElemId → ℝ} {L L' : List LoopId}
  {fst fst' : LoopId → Option ℕ}

variable {σ : Equiv.Perm (Fin n)} {τ : Fin P'.length ≃ Fin P.length} {a : Fin P'.length → ℝ}

/-- loop vectors of the two notations agree up to a sign of the loop and the directions of the edges -/
theorem one_sign (hm : Matching σ P P' τ a) {G : LoopId → Fin P.length → ℝ} {B0 G' B0'} {cap' : ElemId → ℝ}
    (h : LoopShares n O P fst cap L G B0) (h' : LoopShares n O P' fst' cap' L' G' B0') {l : LoopId} (hl : l ∈ L) (hl' : l ∈ L') :
    ∃ ε : ℝ, (ε = 1 ∨ ε = -1) ∧ ∀ i, G' l i = ε * a i * G l (τ i) := by
  obtain ⟨i0, -, -, hu⟩ := h.first l hl
  obtain ⟨i0', -, hG', hu'⟩ := h'.first l hl'
  have hG0 := (h.first l hl).choose_spec.2.1
  have hsup : ∀ i, l ∉ (O.elem (P'.get i).2).loops → a i * G l (τ i) = 0 := by
    intro i hi
    rw [h.support l hl (τ i) (by rw [← hm.elem]; exact hi), mul_zero]
  have hclo : ∀ k : Fin n, ∑ i, a i * G l (τ i) * (incidence (P'.get i).1 (k + 1) : ℝ) = 0 := by
    intro k
    obtain ⟨k, rfl⟩ := σ.surjective k
    rw [← h.closes l hl k, ← Equiv.sum_comp τ]
    refine Finset.sum_congr rfl fun i _ => ?_
    rw [hm.inc]
    linear_combination G l (τ i) * (incidence (P.get (τ i)).1 (k + 1) : ℝ) * sgn_mul_self (hm.sgn i)
  have hk : a i0' * G l (τ i0') = 0 ∨ a i0' * G l (τ i0') = 1 ∨ a i0' * G l (τ i0') = -1 := by
    rcases hm.sgn i0' with ha | ha <;> rcases h.sign l hl (τ i0') with hg | hg | hg <;> rw [ha, hg] <;> norm_num
  rcases hk with hk | hk
  · exfalso
    have := hu' (fun i => G' l i + a i * G l (τ i)) (by rw [hG', hk, add_zero])
      (fun i hi => by rw [h'.support l hl' i hi, hsup i hi, add_zero])
      (fun k => by
        simp only [add_mul, Finset.sum_add_distrib]
        rw [h'.closes l hl' k, hclo k, add_zero])
    have h0 := congrFun this (τ.symm (h.first l hl).choose)
    simp only [Equiv.apply_symm_apply, hG0, mul_one] at h0
    rcases hm.sgn (τ.symm (h.first l hl).choose) with h1 | h1 <;> rw [h1] at h0 <;> linarith
  · refine ⟨a i0' * G l (τ i0'), hk, fun i => ?_⟩
    have := hu' (fun i => a i0' * G l (τ i0') * (a i * G l (τ i))) (by
        rcases hk with hk | hk <;> rw [hk] <;> norm_num)
      (fun i hi => by rw [hsup i hi, mul_zero])
      (fun k => by
        simp only [mul_assoc, ← Finset.mul_sum]
        have := hclo k
        simp only [mul_assoc] at this
        rw [this]; ring)
    rw [← this]; ring

/-- the exact shares agree up to the signs of the loops and the directions of the edges -/
theorem shares_sign (hm : Matching σ P P' τ a) {G : LoopId → Fin P.length → ℝ} {B0 G' B0'}
    (h : LoopShares n O P fst cap L G B0) (h' : LoopShares n O P' fst' cap L' G' B0') (hL : ∀ l, l ∈ L' ↔ l ∈ L) {ε : LoopId → ℝ}
    (hε : ∀ l, ε l = 1 ∨ ε l = -1) (hG : ∀ l ∈ L, ∀ i, G' l i = ε l * a i * G l (τ i)) {l : LoopId} (hl : l ∈ L) (i) :
    B0' i l = ε l * a i * B0 (τ i) l := by
  have := h'.unique l ((hL l).2 hl) (fun i => ε l * a i * B0 (τ i) l) (fun l2 hl2 => by
      have hl2 := (hL l2).1 hl2
      have e : ∑ i, G' l2 i * (ε l * a i * B0 (τ i) l) = ε l2 * ε l * ∑ i, G l2 i * B0 i l := by
        rw [← Equiv.sum_comp τ, Finset.mul_sum]
        refine Finset.sum_congr rfl fun i _ => ?_
        rw [hG l2 hl2]
        linear_combination ε l2 * ε l * G l2 (τ i) * B0 (τ i) l * sgn_mul_self (hm.sgn i)
      rw [e, h.loop l2 hl2 l hl]
      by_cases hll : l2 = l
      · subst hll; rw [if_pos rfl, mul_one, sgn_mul_self (hε l2)]
      · rw [if_neg hll, mul_zero]) (fun k => by
      obtain ⟨k, rfl⟩ := σ.surjective k
      have e : ∑ i, (incidence (P'.get i).1 ((σ k : ℕ) + 1) : ℝ) * cap (P'.get i).2 * (ε l * a i * B0 (τ i) l) =
          ε l * ∑ i, (incidence (P.get i).1 (k + 1) : ℝ) * cap (P.get i).2 * B0 i l := by
        rw [← Equiv.sum_comp τ, Finset.mul_sum]
        refine Finset.sum_congr rfl fun i _ => ?_
        rw [hm.inc, hm.elem]
        linear_combination ε l * (incidence (P.get (τ i)).1 (k + 1) : ℝ) * cap (P.get (τ i)).2 * B0 (τ i) l * sgn_mul_self (hm.sgn i)
      rw [e, h.node l hl k, mul_zero])
  exact (congrFun this i).symm

end

theorem perm_equiv {α : Type*} {l l' : List α} (h : l.Perm l') : ∃ e : Fin l.length ≃ Fin l'.length, ∀ i, l'.get (e i) = l.get i := by
  induction h with
  | nil => exact ⟨Equiv.refl _, fun i => rfl⟩
  | @cons x l l' _ ih =>
    obtain ⟨e, he⟩ := ih
    refine ⟨((finSuccEquiv l.length).trans (Equiv.optionCongr e)).trans (finSuccEquiv l'.length).symm, fun i => ?_⟩
    refine Fin.cases ?_ (fun i => ?_) i
    · simp
    · simpa using he i
  | swap x y l =>
    refine ⟨Equiv.swap (0 : Fin (l.length + 2)) 1, fun i => ?_⟩
    refine Fin.cases ?_ (fun i => Fin.cases ?_ (fun i => ?_) i) i
    · show (x :: y :: l).get (Equiv.swap (0 : Fin (l.length + 2)) 1 0) = _
      rw [Equiv.swap_apply_left]; rfl
    · show (x :: y :: l).get (Equiv.swap (0 : Fin (l.length + 2)) 1 1) = _
      rw [Equiv.swap_apply_right]; rfl
    · show (x :: y :: l).get (Equiv.swap (0 : Fin (l.length + 2)) 1 i.succ.succ) = _
      have h1 : (i.succ.succ : Fin (l.length + 2)) ≠ 1 := by
        intro h
        have := congrArg Fin.val h
        simp at this
      rw [Equiv.swap_apply_of_ne_of_ne (Fin.succ_ne_zero _) h1]
      rfl
  | trans _ _ ih1 ih2 =>
    obtain ⟨e1, h1⟩ := ih1
    obtain ⟨e2, h2⟩ := ih2
    exact ⟨e1.trans e2, fun i => (h2 _).trans (h1 _)⟩

theorem incidence_sign {n : ℕ} (σ : Equiv.Perm (Fin n)) {e e' : Edge} (hv : ValidEdge n e)
    (h : e' = (renameNode σ e.1, renameNode σ e.2) ∨ e' = (renameNode σ e.2, renameNode σ e.1)) :
    ∃ a : ℝ, (a = 1 ∨ a = -1) ∧ ∀ k : Fin n, (incidence e' ((σ k : ℕ) + 1) : ℝ) = a * incidence e (k + 1) := by
  have hr := incidence_rename σ hv.2.1 hv.2.2
  rcases h with rfl | rfl
  · exact ⟨1, Or.inl rfl, fun i => by rw [hr, one_mul]⟩
  · have hne : renameNode σ e.1 ≠ renameNode σ e.2 := fun h => hv.1 (renameNode_inj σ hv.2.1 hv.2.2 h)
    rcases incidence_flip _ _ hne with h | h
    · exact ⟨1, Or.inl rfl, fun i => by rw [h, hr, one_mul]⟩
    · exact ⟨-1, Or.inr rfl, fun i => by rw [h, hr]; push_cast; ring⟩

/-- the inductive elements of a renumbered dictionary -/
theorem renumbered_matching {n : ℕ} {σ : Equiv.Perm (Fin n)} {els els' : Elements} (hv : ValidElements n els)
    (hren : Renumbered σ els els') (O : Objs) :
    ∃ τ a, Matching σ (inductivePlacements O els) (inductivePlacements O els') τ a := by
  obtain ⟨l, hperm, hl⟩ := hren
  have hf : List.Forall₂ (fun q q' => q'.2 = q.2 ∧
      (q'.1 = (renameNode σ q.1.1, renameNode σ q.1.2) ∨ q'.1 = (renameNode σ q.1.2, renameNode σ q.1.1)))
      (inductivePlacements O els) (l.filter fun q => decide ((O.elem q.2).kind ≠ .cap)) := by
    unfold inductivePlacements
    clear hperm
    generalize placements els = p at hl
    induction hl with
    | nil => exact List.Forall₂.nil
    | @cons q q' p l hq _ ih =>
      by_cases hk : (O.elem q.2).kind ≠ .cap
      · rw [List.filter_cons_of_pos (by simpa using hk), List.filter_cons_of_pos (by rw [hq.1]; simpa using hk)]
        exact List.Forall₂.cons hq ih
      · rw [List.filter_cons_of_neg (by simpa using hk), List.filter_cons_of_neg (by rw [hq.1]; simpa using hk)]
        exact ih
  obtain ⟨e, he⟩ := perm_equiv (hperm.filter fun q => decide ((O.elem q.2).kind ≠ .cap))
  obtain ⟨hlen, hget⟩ := List.forall₂_iff_get.1 hf
  have hmatch : ∀ i : Fin (inductivePlacements O els').length,
      let j : Fin (inductivePlacements O els).length := (e i).cast hlen.symm
      ((inductivePlacements O els').get i).2 = ((inductivePlacements O els).get j).2 ∧
        (((inductivePlacements O els').get i).1 = (renameNode σ ((inductivePlacements O els).get j).1.1, renameNode σ ((inductivePlacements O els).get j).1.2) ∨
        ((inductivePlacements O els').get i).1 = (renameNode σ ((inductivePlacements O els).get j).1.2, renameNode σ ((inductivePlacements O els).get j).1.1)) := by
    intro i j
    have h1 := hget (e i) (j.2) (e i).2
    have h2 := he i
    have h3 : (inductivePlacements O els').get i = (l.filter fun q => decide ((O.elem q.2).kind ≠ .cap)).get (e i) := h2.symm
    rw [h3]
    exact h1
  have hval : ∀ j : Fin (inductivePlacements O els).length, ValidEdge n ((inductivePlacements O els).get j).1 := fun j =>
    placements_valid hv _ (List.mem_of_mem_filter (List.get_mem (inductivePlacements O els) j))
  choose a ha hinc using fun i => incidence_sign σ (hval ((e i).cast hlen.symm)) (hmatch i).2
  exact ⟨e.trans (finCongr hlen.symm), a, fun i => (hmatch i).1, ha, hinc⟩

/-- the flux distribution by branch and loop, for lists of incidence vectors and capacitances -/
theorem loopShares_of {sv : SvdFn} (hsv : SvdSpec sv) {n : ℕ} {O : Objs} {els : Elements} {cap : ElemId → ℝ}
    (ho : LoopsListedOnce O) (hv : ValidElements n els) {P : List (Edge × ElemId)} (hP : P = inductivePlacements O els)
    {K : List (List ℤ)} {cE : List ℝ} {L : List LoopId} {heap : LoopId → LoopObj}
    (hK : K = P.map fun q => incVec n q.1) (hcE : cE = P.map fun q => cap q.2)
    (hL : L.Nodup) (hidx : ∀ l ∈ L, (heap l).indices = (usesOf O els l).map Prod.fst)
    (hcon : LoopsConsistent K (L.map heap)) {B} (hB : fluxMatrix sv n K cE (L.map heap) = .ok (some B)) :
    ∃ G B0, LoopShares n O P (fun l => ((usesOf O els l).map Prod.fst).head?) cap L G B0 ∧
      ∀ (i : ℕ) (hi : i < K.length) (hi' : i < P.length) (l : Fin L.length),
        fluxTable (some B) ⟨i, hi⟩ l = round5 (B0 ⟨i, hi'⟩ (L.get l)) := by
  subst hK hcE
  have hval : ∀ q ∈ P, ValidEdge n q.1 := fun q hq =>
    placements_valid hv _ (List.mem_of_mem_filter (hP ▸ hq))
  obtain ⟨G, B0, f1, f2, f3, f4, f5, f6, f7, f8⟩ := flux_distribution_signs sv hsv n _ _ _ hcon B hB (by
    intro w hw
    obtain ⟨q, hq, rfl⟩ := List.mem_map.1 hw
    exact ⟨q.1, (hval q hq).1, rfl⟩)
  have hidxOf : ∀ l ∈ L, L.idxOf l < (L.map heap).length := fun l hl => by
    rw [List.length_map]; exact List.idxOf_lt_length_of_mem hl
  have hobj : ∀ l (hl : l ∈ L), (L.map heap).get ⟨L.idxOf l, hidxOf l hl⟩ = heap l := by
    intro l hl
    simp
  have hlen : (P.map fun q => incVec n q.1).length = P.length := by simp
  let κ : Fin P.length ≃ Fin (P.map fun q => incVec n q.1).length := finCongr hlen.symm
  have hget : ∀ (i : Fin P.length) (k : Fin n), nodeEntry ((P.map fun q => incVec n q.1).get (κ i)) k = (incidence (P.get i).1 (k + 1) : ℝ) := by
    intro i k
    have e : (P.map fun q => incVec n q.1).get (κ i) = incVec n (P.get i).1 := by simp [κ]
    rw [e]
    exact nodeEntry_inc _ k.2
  have hce : ∀ i : Fin P.length, (P.map fun q => cap q.2).getD (κ i) 0 = cap (P.get i).2 := by
    intro i
    simp [κ]
  have hmem : ∀ l ∈ L, ∀ i : Fin P.length, (i : ℕ) ∈ (heap l).indices ↔ l ∈ (O.elem (P.get i).2).loops := by
    intro l hl i
    rw [hidx l hl, usesOf_eq ho]
    simp only [List.map_map, List.mem_map, List.mem_filter, Function.comp, decide_eq_true_eq]
    unfold numbered
    rw [← hP]
    constructor
    · rintro ⟨q, ⟨hq, hql⟩, hqi⟩
      rw [List.mem_zipIdx_iff_getElem?] at hq
      rw [hqi, List.getElem?_eq_getElem i.2] at hq
      have := Option.some.inj hq
      rw [← this] at hql
      exact hql
    · intro h
      refine ⟨(P.get i, i), ⟨?_, h⟩, rfl⟩
      rw [List.mem_zipIdx_iff_getElem?]
      simp
  classical
  let G1 : LoopId → Fin P.length → ℝ := fun l i => if hl : l ∈ L then G ⟨L.idxOf l, hidxOf l hl⟩ (κ i) else 0
  let B1 : Fin P.length → LoopId → ℝ := fun i l => if hl : l ∈ L then B0 (κ i) ⟨L.idxOf l, hidxOf l hl⟩ else 0
  have hG1 : ∀ l (hl : l ∈ L), G1 l = fun i => G ⟨L.idxOf l, hidxOf l hl⟩ (κ i) := fun l hl => funext fun i => dif_pos hl
  have hB1 : ∀ l (hl : l ∈ L) i, B1 i l = B0 (κ i) ⟨L.idxOf l, hidxOf l hl⟩ := fun l hl i => dif_pos hl
  have hδ : ∀ l (hl : l ∈ L) l' (hl' : l' ∈ L),
      (if (⟨L.idxOf l, hidxOf l hl⟩ : Fin (L.map heap).length) = ⟨L.idxOf l', hidxOf l' hl'⟩ then (1 : ℝ) else 0) = if l = l' then 1 else 0 := by
    intro l hl l' hl'
    by_cases h : l = l'
    · subst h; simp
    · rw [if_neg h, if_neg]
      intro h'
      exact h ((List.idxOf_inj hl).1 (Fin.mk.inj h'))
  have hloopvec : ∀ l (hl : l ∈ L) (g : Fin P.length → ℝ) (i0 : Fin P.length), (heap l).indices.head? = some (i0 : ℕ) → g i0 = 1 →
      (∀ i, l ∉ (O.elem (P.get i).2).loops → g i = 0) →
      (∀ k : Fin n, ∑ i, g i * (incidence (P.get i).1 (k + 1) : ℝ) = 0) → g = G1 l := by
    intro l hl g i0 hi0 hg0 hgs hgc
    have := f2 ⟨L.idxOf l, hidxOf l hl⟩ (fun b => g (κ.symm b)) (by
      rw [hobj l hl]
      refine ⟨fun b hb => ?_, fun b hb => ?_, fun j hj => ?_⟩
      · have : κ.symm b = i0 := by
          rw [hi0] at hb
          exact Fin.ext (Option.some.inj hb).symm
        rw [this, hg0]
      · refine hgs _ fun h => hb ?_
        exact (hmem l hl (κ.symm b)).2 h
      · rw [← hgc ⟨j, hj⟩, ← Equiv.sum_comp κ]
        refine Finset.sum_congr rfl fun i _ => ?_
        rw [Equiv.symm_apply_apply, hget i ⟨j, hj⟩])
    rw [hG1 l hl]
    funext i
    have := congrFun this (κ i)
    simpa using this
  refine ⟨G1, B1, ⟨?_, ?_, ?_, ?_, ?_, ?_, ?_⟩, ?_⟩
  · intro l hl i
    rw [hG1 l hl]
    exact f1 _ _
  · intro l hl i hi
    rw [hG1 l hl]
    refine (f3 ⟨L.idxOf l, hidxOf l hl⟩).support (κ i) ?_
    rw [hobj l hl]
    exact fun h => hi ((hmem l hl i).1 h)
  · intro l hl k
    rw [hG1 l hl, ← (f3 ⟨L.idxOf l, hidxOf l hl⟩).closes k k.2, ← Equiv.sum_comp κ]
    refine Finset.sum_congr rfl fun i _ => ?_
    rw [hget i k]
  · intro l hl
    obtain ⟨b0, hb0⟩ := f4 ⟨L.idxOf l, hidxOf l hl⟩
    have h1 := (f3 ⟨L.idxOf l, hidxOf l hl⟩).first b0 hb0
    rw [hobj l hl] at hb0
    refine ⟨κ.symm b0, by rw [← hidx l hl, hb0]; rfl, ?_, fun g hg0 hgs hgc => hloopvec l hl g (κ.symm b0) hb0 hg0 hgs hgc⟩
    rw [hG1 l hl]
    simpa using h1
  · intro l hl l' hl'
    rw [← hδ l hl l' hl', ← f5, ← Equiv.sum_comp κ]
    refine Finset.sum_congr rfl fun i _ => ?_
    rw [hG1 l hl, hB1 l' hl']
  · intro l' hl' k
    rw [← f6 k k.2 ⟨L.idxOf l', hidxOf l' hl'⟩, ← Equiv.sum_comp κ]
    refine Finset.sum_congr rfl fun i _ => ?_
    rw [hget i k, hce i, hB1 l' hl']
  · intro l' hl' x hx1 hx2
    have := f7 (Matrix.of fun b l => if l = ⟨L.idxOf l', hidxOf l' hl'⟩ then x (κ.symm b) else B0 b l) ?_ ?_
    · funext i
      rw [hB1 l' hl']
      have h := congrFun (congrFun this (κ i)) ⟨L.idxOf l', hidxOf l' hl'⟩
      simpa using h
    · intro l l2
      simp only [Matrix.of_apply]
      by_cases h2 : l2 = ⟨L.idxOf l', hidxOf l' hl'⟩
      · subst h2
        simp only [if_true]
        have hll : (L.get ⟨l, lt_of_lt_of_eq l.2 (List.length_map ..)⟩) ∈ L := List.get_mem _ _
        have hix : L.idxOf (L.get ⟨l, lt_of_lt_of_eq l.2 (List.length_map ..)⟩) = l := by
          simpa using List.Nodup.idxOf_getElem hL l (lt_of_lt_of_eq l.2 (List.length_map ..))
        have h3 := hx1 _ hll
        rw [← hδ _ hll _ hl', hG1 _ hll] at h3
        have h4 : (⟨L.idxOf (L.get ⟨l, lt_of_lt_of_eq l.2 (List.length_map ..)⟩), hidxOf _ hll⟩ : Fin (L.map heap).length) = l := Fin.ext hix
        rw [h4] at h3
        rw [← h3, ← Equiv.sum_comp κ]
        refine Finset.sum_congr rfl fun i _ => ?_
        rw [Equiv.symm_apply_apply]
      · simp only [if_neg h2]
        exact f5 l l2
    · intro j hj l2
      simp only [Matrix.of_apply]
      by_cases h2 : l2 = ⟨L.idxOf l', hidxOf l' hl'⟩
      · simp only [if_pos h2]
        refine Eq.trans ?_ (hx2 ⟨j, hj⟩)
        rw [← Equiv.sum_comp κ]
        refine Finset.sum_congr rfl fun i _ => ?_
        rw [hget i ⟨j, hj⟩, hce i, Equiv.symm_apply_apply]
      · simp only [if_neg h2]
        exact f6 j hj l2
  · intro i hi hi' l
    have hll : L.get l ∈ L := List.get_mem _ _
    rw [hB1 _ hll]
    show B ⟨i, hi⟩ (l.cast _) = _
    rw [f8]
    congr 2
    refine Fin.ext ?_
    simpa using (List.Nodup.idxOf_getElem hL l l.2).symm

end SQ
