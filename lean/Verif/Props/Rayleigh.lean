import Verif.Lemmas.Rayleigh
import Verif.Props.LinearExample

/-!
# C133: larger capacitors or inductors never raise a frequency of a linear network
-/

namespace SQ
open Matrix Spec

theorem edges_quad (n : ℕ) (g : ElemId → ℝ) (l : List (Edge × ElemId)) (y : Fin n → ℝ) :
    y ⬝ᵥ ((l.map (fun q => g q.2 • edgeMat n q.1)).sum *ᵥ y) =
      (l.map (fun q => g q.2 * (∑ a, y a * (incidence q.1 (a + 1) : ℝ)) ^ 2)).sum := by
  induction l with
  | nil => simp
  | cons q l ih =>
    simp only [List.map_cons, List.sum_cons]
    rw [add_mulVec, dotProduct_add, ih, smul_mulVec, dotProduct_smul, edgeMat_quad, smul_eq_mul]

theorem edges_symm (n : ℕ) (g : ElemId → ℝ) (l : List (Edge × ElemId)) :
    (l.map (fun q => g q.2 • edgeMat n q.1)).sumᵀ = (l.map (fun q => g q.2 • edgeMat n q.1)).sum := by
  induction l with
  | nil => simp
  | cons q l ih =>
    simp only [List.map_cons, List.sum_cons]
    rw [transpose_add, ih, transpose_smul]
    congr 2
    ext i j
    simp only [transpose_apply, edgeMat, of_apply]
    ring

/-- the energies of the nodes in the two networks -/
theorem slower_energies {O : Objs} (hcaps : CapsOK O) {els els' : Elements} {v v' : ElemId → ℝ} (h : SlowerNetwork O els els' v v')
    (hpos : PositiveCaps (O.withVals v') els') (hind : PositiveInds (O.withVals v) els) (n : ℕ) (y : Fin n → ℝ) :
    y ⬝ᵥ (nodeCap n (O.withVals v) els *ᵥ y) ≤ y ⬝ᵥ (nodeCap n (O.withVals v') els' *ᵥ y) ∧
    y ⬝ᵥ (nodeInvInd n (O.withVals v') els' *ᵥ y) ≤ y ⬝ᵥ (nodeInvInd n (O.withVals v) els *ᵥ y) := by
  obtain ⟨caps, hp, hk⟩ := h.extra
  unfold nodeCap nodeInvInd
  rw [edges_quad, edges_quad, edges_quad, edges_quad, (hp.map _).sum_eq, (hp.map _).sum_eq, List.map_append, List.sum_append,
    List.map_append, List.sum_append]
  constructor
  · have h1 : ((placements els).map (fun q => placedCap (O.withVals v) q.2 * (∑ a, y a * (incidence q.1 (a + 1) : ℝ)) ^ 2)).sum ≤
        ((placements els).map (fun q => placedCap (O.withVals v') q.2 * (∑ a, y a * (incidence q.1 (a + 1) : ℝ)) ^ 2)).sum := by
      refine List.sum_le_sum fun q _ => mul_le_mul_of_nonneg_right ?_ (sq_nonneg _)
      unfold placedCap
      change (match (O.elem q.2).kind with
        | .cap => v q.2
        | _ => v (O.elem q.2).cap) ≤ (match (O.elem q.2).kind with
        | .cap => v' q.2
        | _ => v' (O.elem q.2).cap)
      have h1 := h.values q.2
      have h2 := h.values _ (hcaps q.2)
      cases hk : (O.elem q.2).kind
      · exact h1 (by rw [hk]; decide)
      · exact h2
      · exact h2
    have h2 : 0 ≤ (caps.map (fun q => placedCap (O.withVals v') q.2 * (∑ a, y a * (incidence q.1 (a + 1) : ℝ)) ^ 2)).sum := by
      refine List.sum_nonneg ?_
      intro x hx
      obtain ⟨q, hq, rfl⟩ := List.mem_map.1 hx
      have : q ∈ placements els' := hp.mem_iff.2 (List.mem_append_right _ hq)
      exact mul_nonneg (hpos q this).le (sq_nonneg _)
    linarith
  · have h1 : ((placements els).map (fun q => placedInvInd (O.withVals v') q.2 * (∑ a, y a * (incidence q.1 (a + 1) : ℝ)) ^ 2)).sum ≤
        ((placements els).map (fun q => placedInvInd (O.withVals v) q.2 * (∑ a, y a * (incidence q.1 (a + 1) : ℝ)) ^ 2)).sum := by
      refine List.sum_le_sum fun q hq => mul_le_mul_of_nonneg_right ?_ (sq_nonneg _)
      have h0 := hind q hq
      unfold placedInvInd
      change (match (O.elem q.2).kind with
        | .ind => 1 / v' q.2
        | _ => 0) ≤ (match (O.elem q.2).kind with
        | .ind => 1 / v q.2
        | _ => 0)
      have h1 := h.values q.2
      cases hk : (O.elem q.2).kind
      · exact le_rfl
      · exact one_div_le_one_div_of_le (h0 hk) (h1 (by rw [hk]; decide))
      · exact le_rfl
    have h2 : (caps.map (fun q => placedInvInd (O.withVals v') q.2 * (∑ a, y a * (incidence q.1 (a + 1) : ℝ)) ^ 2)).sum = 0 := by
      refine List.sum_eq_zero ?_
      intro x hx
      obtain ⟨q, hq, rfl⟩ := List.mem_map.1 hx
      have : placedInvInd (O.withVals v') q.2 = 0 := by
        unfold placedInvInd
        change (match (O.elem q.2).kind with
          | .ind => 1 / v' q.2
          | _ => 0) = 0
        rw [hk q hq]
      rw [this, zero_mul]
    linarith

/-- C133: take two networks of capacitors and inductors in which inductors join every node to ground, where the second holds the
elements of the first on the same edges, possibly further capacitors, and no element has a smaller capacitance or inductance.
Whatever calls led to them, with equal truncation numbers none of the frequencies `diag` returns for the second is higher
than the corresponding one of the first. -/
theorem C133_slower {c c' : CircSpec} {eigs eigs' : EigsFn} {as as' : List ℂ → List ℕ}
    (he : EigsLowest eigs) (ha : CArgsortSpec as) (he' : EigsLowest eigs') (ha' : CArgsortSpec as')
    (hO : c'.O = c.O) (hcaps : CapsOK c.O) (hlin : Linear c.O c.els)
    {n : ℕ} (hn : numNodes c.els = .ok n) (hn' : numNodes c'.els = .ok n) (hval : ValidElements n c.els)
    (hval' : ValidElements n c'.els) (hg : InductivelyGrounded n c.O c.els)
    (vals vals' : ElemId → ℝ) (flux flux' : LoopId → ℝ) (u u' : ℝ)
    (w0 : World (circPhys c eigs as)) (hw : construct (circPhys c eigs as) vals flux u = .ok w0)
    (w0' : World (circPhys c' eigs' as')) (hw' : construct (circPhys c' eigs' as') vals' flux' u' = .ok w0')
    (h h' : List Act) (hh : Orderly w0 h) (hh' : Orderly w0' h') :
    let w := run w0 h
    let w' := run w0' h'
    (∀ i, w.vals i = lastBuilt vals w0 h i) → (∀ i, w'.vals i = lastBuilt vals' w0' h' i) →
    GoodCircuit c w.vals → GoodCircuit c' w'.vals → (∀ l, w.flux l = 0) → (∀ l, w'.flux l = 0) →
    w.circ.m ≠ [] → SlowerNetwork c.O c.els c'.els w.vals w'.vals → w'.circ.m = w.circ.m → w'.unitFreq = w.unitFreq →
    0 < w.unitFreq →
    ∀ num : ℕ, 1 ≤ num → num + 1 < ∏ i : Fin n, (w.circ.m.getD i 0).toNat →
      ∃ F F' v v', (diag (some num) w).1 = .ok (F, v) ∧ (diag (some num) w').1 = .ok (F', v') ∧
        List.Forall₂ (fun f f' => f' ≤ f) F F' := by
  intro w w' hlast hlast' hgood hgood' hflux hflux' hm0 hslow hmm huu hu0 num h1 hnum
  have hlin' : Linear c'.O c'.els := by
    obtain ⟨caps, hp, hk⟩ := hslow.extra
    intro q hq
    rw [hO]
    rcases List.mem_append.1 (hp.mem_iff.1 hq) with h0 | h0
    · exact hlin q h0
    · rw [hk q h0]; decide
  have hg' : InductivelyGrounded n c'.O c'.els := by
    obtain ⟨caps, hp, hk⟩ := hslow.extra
    intro k hk
    refine Relation.ReflTransGen.mono ?_ _ _ (hg k hk)
    rintro a b ⟨q, hq, h2, h3⟩
    exact ⟨q, hp.mem_iff.2 (List.mem_append_left _ hq), by rw [hO]; exact h2, h3⟩
  obtain ⟨n1, k, ω, κ, hn1, hmodes, -, hd⟩ := C100_linear he ha hcaps hlin vals flux u w0 hw h hh hlast hgood hflux hm0
  obtain ⟨n2, k', ω', κ', hn2, hmodes', -, hd'⟩ := C100_linear he' ha' (by rw [hO]; exact hcaps) hlin' vals' flux' u' w0' hw'
    h' hh' hlast' hgood' hflux' (by
      show w'.circ.m ≠ []
      rw [hmm]; exact hm0)
  obtain rfl : n1 = n := Except.ok.inj (hn1.symm.trans hn)
  obtain rfl : n2 = n1 := Except.ok.inj (hn2.symm.trans hn')
  obtain rfl : k = n2 := hmodes.number
  obtain rfl : k' = k := hmodes'.number
  have hω : ∀ {c : CircSpec} {vals : ElemId → ℝ} {ω : Fin k' → ℝ}, GoodCircuit c vals → ValidElements k' c.els →
      InductivelyGrounded k' c.O c.els → NormalModes (nodeCap k' (c.O.withVals vals) c.els)
        (nodeInvInd k' (c.O.withVals vals) c.els) ω → ∀ i, ω i ≠ 0 := by
    intro c vals ω hgood hval hg hmodes i h0
    have hLu := invInd_isUnit hval hgood.inds (O := c.O.withVals vals) hg
    obtain ⟨-, -, -, v, hli, hv⟩ := hmodes
    have h2 := hv i
    rw [h0] at h2
    simp only [ne_eq, OfNat.ofNat_ne_zero, not_false_eq_true, zero_pow, zero_smul] at h2
    exact hli.ne_zero i (eq_zero_of_mulVec_eq_zero (isUnit_iff_ne_zero.1 hLu) h2)
  have hω1 := hω hgood hval hg hmodes
  have hω2 := hω hgood' hval' hg' hmodes'
  have hen := slower_energies hcaps hslow (by have := hgood'.caps; rwa [hO] at this) hgood.inds k'
  rw [← hO] at hen
  have hmono := ray_mono (nodeCap_posDef hval hgood.caps hgood.inds (hgood.ground _ hn))
    (nodeCap_posDef hval' hgood'.caps hgood'.inds (hgood'.ground _ hn'))
    (edges_symm _ _ _) (edges_symm _ _ _) (fun x => by have := (hen x).1; rw [hO] at this ⊢; exact this)
    (fun x => by have := (hen x).2; rw [hO] at this ⊢; exact this) hmodes hmodes'
  obtain ⟨v, hv⟩ := hd num h1 hnum
  obtain ⟨v', hv'⟩ := hd' num h1 (by
    show num + 1 < ∏ i : Fin k', (w'.circ.m.getD i 0).toNat
    rw [hmm]; exact hnum)
  refine ⟨_, _, v, v', hv, hv', ?_⟩
  rw [List.forall₂_map_left_iff, List.forall₂_map_right_iff]
  have hlad := lowest_ladder ω' κ' κ' (fun i => (w'.circ.ng i).getD 0) (fun i => (w'.circ.ng i).getD 0) hω2 num hmm
  have hmon : List.Forall₂ (fun f f' => f' ≤ f) (lowest (ladder ω κ (fun i => (w.circ.ng i).getD 0) fun i => (w.circ.m.getD i 0).toNat) num)
      (lowest (ladder ω' κ' (fun i => (w'.circ.ng i).getD 0) fun i => (w.circ.m.getD i 0).toNat) num) := by
    refine lowest_mono (fun x => ?_) num
    unfold ladder
    refine Finset.sum_le_sum fun i _ => ?_
    rw [if_pos (hω1 i), if_pos (hω2 i)]
    exact mul_le_mul_of_nonneg_right (hmono i) (Nat.cast_nonneg _)
  rw [← hlad] at hmon
  refine hmon.imp fun a b hab => ?_
  have e : (run w0' h').unitFreq = (run w0 h).unitFreq := huu
  rw [e]
  exact div_le_div_of_nonneg_right hab (by positivity)

/-- two coupled resonators, and the same with a second capacitor between them -/
def coupMore : Elements := [((0, 1), [0]), ((0, 2), [2]), ((1, 2), [4, 5])]

/-- two coupled LC resonators, and the same with a further capacitor between them, meet the hypotheses of C133 -/
theorem C133_example : ∃ (c c' : CircSpec) (eigs : EigsFn) (as : List ℂ → List ℕ) (w0 : World (circPhys c eigs as))
    (w0' : World (circPhys c' eigs as)),
    EigsLowest eigs ∧ CArgsortSpec as ∧ c'.O = c.O ∧ c.els = [((0, 1), [0]), ((0, 2), [2]), ((1, 2), [4])] ∧
    c'.els = [((0, 1), [0]), ((0, 2), [2]), ((1, 2), [4, 5])] ∧ SlowerNetwork c.O c.els c'.els (fun _ => 1) (fun _ => 1) ∧
    InductivelyGrounded 2 c.O c.els ∧
    construct (circPhys c eigs as) (fun _ => 1) (fun _ => 0) 1 = .ok w0 ∧
    construct (circPhys c' eigs as) (fun _ => 1) (fun _ => 0) 1 = .ok w0' ∧
    ∃ F F' v v', (diag (some 4) (run w0 [.setTruncNums (.list [3, 4])])).1 = .ok (F, v) ∧
      (diag (some 4) (run w0' [.setTruncNums (.list [3, 4])])).1 = .ok (F', v') ∧ List.Forall₂ (fun f f' => f' ≤ f) F F' := by
  choose lib hlib using exists_lib
  choose argmax hm using exists_argmax
  obtain ⟨argsort, hsrt⟩ := exists_argsort
  obtain ⟨eigs, he⟩ := exists_eigs_lowest
  obtain ⟨as, ha⟩ := exists_cargsort
  have hn : numNodes coupEls = .ok 2 := rfl
  have hn' : numNodes coupMore = .ok 2 := rfl
  have hv : ValidElements 2 coupEls := by
    intro p hp
    simp [coupEls] at hp
    rcases hp with rfl | rfl | rfl <;> simp [ValidEdge]
  have hv' : ValidElements 2 coupMore := by
    intro p hp
    simp [coupMore] at hp
    rcases hp with rfl | rfl | rfl <;> simp [ValidEdge]
  have hg : GroundConnected 2 coupEls := by
    intro k hk
    interval_cases k
    · exact .refl
    · exact .single ⟨((0, 1), [0]), by simp [coupEls], by simp, by simp⟩
    · exact .single ⟨((0, 2), [2]), by simp [coupEls], by simp, by simp⟩
  have hg' : GroundConnected 2 coupMore := by
    intro k hk
    interval_cases k
    · exact .refl
    · exact .single ⟨((0, 1), [0]), by simp [coupMore], by simp, by simp⟩
    · exact .single ⟨((0, 2), [2]), by simp [coupMore], by simp, by simp⟩
  have hL : nodeInvInd 2 (pairObjs.withVals fun _ => 1) coupEls = 1 := by
    ext i j
    fin_cases i <;> fin_cases j <;>
      simp [nodeInvInd, placements, coupEls, placedInvInd, Objs.withVals, pairObjs, edgeMat, incidence]
  have hL' : nodeInvInd 2 (pairObjs.withVals fun _ => 1) coupMore = 1 := by
    ext i j
    fin_cases i <;> fin_cases j <;>
      simp [nodeInvInd, placements, coupMore, placedInvInd, Objs.withVals, pairObjs, edgeMat, incidence]
  have hi : InductivelyGrounded 2 pairObjs coupEls := by
    intro k hk
    interval_cases k
    · exact .refl
    · exact .single ⟨((0, 1), 0), by simp [placements, coupEls], by simp [pairObjs], by simp⟩
    · exact .single ⟨((0, 2), 2), by simp [placements, coupEls], by simp [pairObjs], by simp⟩
  have hi' : InductivelyGrounded 2 pairObjs coupMore := by
    intro k hk
    interval_cases k
    · exact .refl
    · exact .single ⟨((0, 1), 0), by simp [placements, coupMore], by simp [pairObjs], by simp⟩
    · exact .single ⟨((0, 2), 2), by simp [placements, coupMore], by simp [pairObjs], by simp⟩
  have hslow : SlowerNetwork pairObjs coupEls coupMore (fun _ => 1) (fun _ => 1) :=
    ⟨⟨[((1, 2), 5)], by decide, by intro q hq; simp at hq; subst hq; simp [pairObjs]⟩, fun _ _ => le_rfl⟩
  have hgood := pair_good (argsort := argsort) hlib hm hn hv hg hL
  have hgood' := pair_good (argsort := argsort) hlib hm hn' hv' hg' hL'
  obtain ⟨w0, hw, ho, hlast, hvals, hfl, hmm, hu⟩ := pair_session (argsort := argsort) hlib hm hn hv hg hL hi eigs as [3, 4]
    rfl (by simp)
  obtain ⟨w0', hw', ho', hlast', hvals', hfl', hmm', hu'⟩ := pair_session (argsort := argsort) hlib hm hn' hv' hg' hL' hi'
    eigs as [3, 4] rfl (by simp)
  refine ⟨pairSpec coupEls lib argsort argmax, pairSpec coupMore lib argsort argmax, eigs, as, w0, w0', he, ha,
    rfl, rfl, rfl, hslow, hi, hw, hw', ?_⟩
  exact C133_slower (c := pairSpec coupEls lib argsort argmax) (c' := pairSpec coupMore lib argsort argmax) he ha he ha rfl
    pair_caps (pair_linear _) hn hn' hv hv' hi _ _ _ _ _ _ w0 hw w0' hw' _ _ ho ho' hlast hlast'
    (by rw [hvals]; exact hgood) (by rw [hvals']; exact hgood') hfl hfl' (by rw [hmm]; simp)
    (by rw [hvals, hvals']; exact hslow) (by rw [hmm, hmm']) (by rw [hu, hu']) (by rw [hu]; norm_num) 4 (by norm_num) (by
      rw [hmm]; simp [Fin.prod_univ_two])

end SQ
