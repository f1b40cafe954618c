import Verif.Lemmas.MergeEls

/-!
# The merged circuit is a circuit of islands
-/

namespace SQ
open Matrix Spec Real

section Merged
variable {sz : CircId → ℕ} {els : CircId → Elements} {cs : List CircId} {cps : List Coupling} {O : Objs}

theorem valid_placement {n : ℕ} {els : Elements} (hv : ValidElements n els) {q : Edge × ElemId} (hq : q ∈ placements els) :
    ValidEdge n q.1 := by
  unfold placements at hq
  obtain ⟨p, hp, hp2⟩ := List.mem_flatMap.1 hq
  obtain ⟨i, -, rfl⟩ := List.mem_map.1 hp2
  exact hv p hp

theorem valid_junctionEdge {n : ℕ} {els : Elements} (hv : ValidElements n els) {e : Edge} (he : e ∈ junctionEdges O els) :
    ValidEdge n e := by
  unfold junctionEdges at he
  obtain ⟨p, hp, rfl⟩ := List.mem_map.1 he
  exact hv p (List.mem_of_mem_filter hp)

theorem shiftEdge_inj {sz : CircId → ℕ} {cs : List CircId} (hnd : cs.Nodup) {s t : Fin cs.length} {e e' : Edge}
    (he : ValidEdge (sz (cs.get s)) e) (he' : ValidEdge (sz (cs.get t)) e')
    (h : shiftEdge (nodeOffset sz cs (cs.get s)) e = shiftEdge (nodeOffset sz cs (cs.get t)) e') : s = t ∧ e = e' := by
  obtain ⟨h1, h2, h3⟩ := he
  obtain ⟨h1', h2', h3'⟩ := he'
  rw [nodeOffset_before sz _ _ (List.get_mem _ _), nodeOffset_before sz _ _ (List.get_mem _ _)] at h
  unfold shiftEdge at h
  obtain ⟨ha, hb⟩ := Prod.ext_iff.1 h
  have key : ∀ v w, v ≤ sz (cs.get s) → w ≤ sz (cs.get t) →
      shiftNode (nodesBefore sz (cs.get s) cs) v = shiftNode (nodesBefore sz (cs.get t) cs) w → v = w ∧ (v ≠ 0 → s = t) := by
    intro v w hv hw hvw
    unfold shiftNode at hvw
    by_cases hv0 : v = 0
    · subst hv0
      rw [if_pos rfl] at hvw
      by_cases hw0 : w = 0
      · exact ⟨hw0.symm, fun h => absurd rfl h⟩
      · rw [if_neg hw0] at hvw; omega
    · rw [if_neg hv0] at hvw
      by_cases hw0 : w = 0
      · rw [if_pos hw0] at hvw; omega
      · rw [if_neg hw0] at hvw
        obtain ⟨q1, q2⟩ := node_inj sz hnd (s := s) (t := t) (i := v - 1) (j := w - 1) (by omega) (by omega) (by omega)
        exact ⟨by omega, fun _ => q1⟩
  obtain ⟨k1, k2⟩ := key _ _ h2 h2' ha
  obtain ⟨k3, k4⟩ := key _ _ h3 h3' hb
  refine ⟨?_, Prod.ext k1 k3⟩
  by_cases h0 : e.1 = 0
  · exact k4 (by omega)
  · exact k2 h0

theorem merged_edgeEJ (hnd : cs.Nodup) (hv : ∀ c ∈ cs, ValidElements (sz c) (els c))
    (hk : ∀ g ∈ cps, (O.elem g.el).kind = .cap) (vals : ElemId → ℝ) (s : Fin cs.length) {e : Edge}
    (he : ValidEdge (sz (cs.get s)) e) :
    edgeEJ O (mergedEls sz els cs cps) vals (shiftEdge (nodeOffset sz cs (cs.get s)) e) = edgeEJ O (els (cs.get s)) vals e := by
  unfold edgeEJ
  rw [merged_placements, List.filter_append, List.map_append, List.sum_append]
  have h2 : (cps.map fun g => ((nodeOffset sz cs g.cr1 + g.node1, nodeOffset sz cs g.cr2 + g.node2), g.el)).filter
      (fun q => decide ((O.elem q.2).kind = .jj ∧ q.1 = shiftEdge (nodeOffset sz cs (cs.get s)) e)) = [] := by
    rw [List.filter_eq_nil_iff]
    intro p hp
    obtain ⟨g, hg, rfl⟩ := List.mem_map.1 hp
    simp [hk g hg]
  rw [h2, List.map_nil, List.sum_nil, add_zero, List.filter_flatMap, sum_flatMap, ← Fin.sum_univ_fun_getElem]
  have e1 : ∀ t : Fin cs.length, ((((placements (els (cs.get t))).map fun q => (shiftEdge (nodeOffset sz cs (cs.get t)) q.1, q.2)).filter
      (fun q => decide ((O.elem q.2).kind = .jj ∧ q.1 = shiftEdge (nodeOffset sz cs (cs.get s)) e))).map fun q => vals q.2).sum =
      if t = s then (((placements (els (cs.get t))).filter (fun q => decide ((O.elem q.2).kind = .jj ∧ q.1 = e))).map
        (fun q => vals q.2)).sum else 0 := by
    intro t
    rw [List.filter_map, List.map_map]
    by_cases h : t = s
    · subst h
      rw [if_pos rfl]
      congr 2
      refine List.filter_congr fun q hq => ?_
      simp only [Function.comp_apply, decide_eq_decide]
      refine and_congr_right fun _ => ⟨fun h => (shiftEdge_inj hnd (valid_placement (hv _ (List.get_mem _ _)) hq) he h).2,
        fun h => by rw [h]⟩
    · rw [if_neg h]
      have : (placements (els (cs.get t))).filter ((fun q : Edge × ElemId => decide ((O.elem q.2).kind = .jj ∧
          q.1 = shiftEdge (nodeOffset sz cs (cs.get s)) e)) ∘ fun q => (shiftEdge (nodeOffset sz cs (cs.get t)) q.1, q.2)) = [] := by
        rw [List.filter_eq_nil_iff]
        intro q hq
        simp only [Function.comp_apply, decide_eq_true_eq, not_and]
        intro _ hh
        exact h (shiftEdge_inj hnd (valid_placement (hv _ (List.get_mem _ _)) hq) he hh).1
      rw [this]
      rfl
  refine (Finset.sum_congr rfl fun t _ => e1 t).trans ?_
  rw [Finset.sum_ite_eq' Finset.univ s]
  rw [if_pos (Finset.mem_univ _)]

theorem shiftNode_le {k v n N : ℕ} (hv : v ≤ n) (h : k + n ≤ N) : shiftNode k v ≤ N := by
  unfold shiftNode
  split <;> omega

theorem mem_mergedEls {p : Edge × List ElemId} (h : p ∈ mergedEls sz els cs cps) :
    (∃ c ∈ cs, ∃ q ∈ els c, p = (shiftEdge (nodeOffset sz cs c) q.1, q.2)) ∨
    (∃ g ∈ cps, p = ((nodeOffset sz cs g.cr1 + g.node1, nodeOffset sz cs g.cr2 + g.node2), [g.el])) := by
  unfold mergedEls at h
  rcases List.mem_append.1 h with h | h
  · left
    obtain ⟨c, hc, h⟩ := List.mem_flatMap.1 h
    obtain ⟨q, hq, rfl⟩ := List.mem_map.1 h
    exact ⟨c, hc, q, hq, rfl⟩
  · right
    obtain ⟨g, hg, rfl⟩ := List.mem_map.1 h
    exact ⟨g, hg, rfl⟩

theorem offset_le {c : CircId} (hc : c ∈ cs) : nodeOffset sz cs c + sz c ≤ (cs.map sz).sum := by
  rw [nodeOffset_before sz _ _ hc]
  exact nodesBefore_le sz c cs hc

theorem coupling_ends (hnd : cs.Nodup) {vals : ElemId → ℝ} {g : Coupling} (hg : ValidCoupling O sz vals g) (h1 : g.cr1 ∈ cs)
    (h2 : g.cr2 ∈ cs) : nodeOffset sz cs g.cr1 + g.node1 ≠ nodeOffset sz cs g.cr2 + g.node2 := by
  obtain ⟨⟨a1, a2⟩, ⟨b1, b2⟩, hne, -⟩ := hg
  rw [nodeOffset_before sz _ _ h1, nodeOffset_before sz _ _ h2]
  intro h
  obtain ⟨s, hs⟩ := List.get_of_mem h1
  obtain ⟨t, ht⟩ := List.get_of_mem h2
  rw [← hs, ← ht] at h
  obtain ⟨q1, q2⟩ := node_inj sz hnd (s := s) (t := t) (i := g.node1 - 1) (j := g.node2 - 1) (by rw [hs]; omega) (by rw [ht]; omega) (by omega)
  apply hne
  rw [Prod.mk.injEq]
  exact ⟨by rw [← hs, ← ht, q1], by omega⟩

theorem merged_valid (hnd : cs.Nodup) (hv : ∀ c ∈ cs, ValidElements (sz c) (els c)) {vals : ElemId → ℝ}
    (hg : ∀ g ∈ cps, ValidCoupling O sz vals g) (hm : ∀ g ∈ cps, g.cr1 ∈ cs ∧ g.cr2 ∈ cs) :
    ValidElements (cs.map sz).sum (mergedEls sz els cs cps) := by
  intro p hp
  rcases mem_mergedEls hp with ⟨c, hc, q, hq, rfl⟩ | ⟨g, hgm, rfl⟩
  · obtain ⟨h1, h2, h3⟩ := hv c hc q hq
    have ho := offset_le (sz := sz) hc
    refine ⟨?_, shiftNode_le h2 ho, shiftNode_le h3 ho⟩
    change shiftNode _ _ ≠ shiftNode _ _
    unfold shiftNode
    split <;> split <;> omega
  · obtain ⟨m1, m2⟩ := hm g hgm
    have o1 := offset_le (sz := sz) m1
    have o2 := offset_le (sz := sz) m2
    refine ⟨coupling_ends hnd (hg g hgm) m1 m2, ?_, ?_⟩
    · have := (hg g hgm).1
      change nodeOffset sz cs g.cr1 + g.node1 ≤ _
      omega
    · have := (hg g hgm).2.1
      change nodeOffset sz cs g.cr2 + g.node2 ≤ _
      omega

theorem merged_ground (hnd : cs.Nodup) (hg : ∀ c ∈ cs, GroundConnected (sz c) (els c)) :
    GroundConnected (cs.map sz).sum (mergedEls sz els cs cps) := by
  intro k hk
  rcases Nat.eq_zero_or_pos k with rfl | hk0
  · exact Relation.ReflTransGen.refl
  · obtain ⟨x, hx⟩ := (nodeEquiv sz cs hnd).surjective ⟨k - 1, by omega⟩
    have hx' := congrArg Fin.val hx
    rw [nodeEquiv_val] at hx'
    have h1 := hg _ (List.get_mem cs x.1) (x.2 + 1) (by have := x.2.2; omega)
    have h2 := Relation.ReflTransGen.lift (r := Joined (els (cs.get x.1))) (p := Joined (mergedEls sz els cs cps))
      (shiftNode (nodeOffset sz cs (cs.get x.1))) ?_ _ _ h1
    · have e : k = shiftNode (nodeOffset sz cs (cs.get x.1)) (x.2 + 1) := by
        rw [shiftNode_pos (by omega), nodeOffset_before sz _ _ (List.get_mem _ _)]
        simp only at hx'
        omega
      rw [e]
      exact h2
    · rintro a b ⟨p, hp, hp2, hab⟩
      refine ⟨(shiftEdge (nodeOffset sz cs (cs.get x.1)) p.1, p.2), ?_, hp2, ?_⟩
      · unfold mergedEls
        exact List.mem_append_left _ (List.mem_flatMap.2 ⟨_, List.get_mem _ _, List.mem_map.2 ⟨p, hp, rfl⟩⟩)
      · rcases hab with ⟨rfl, rfl⟩ | ⟨rfl, rfl⟩
        · exact Or.inl ⟨rfl, rfl⟩
        · exact Or.inr ⟨rfl, rfl⟩

theorem merged_mem_placements {q : Edge × ElemId} (h : q ∈ placements (mergedEls sz els cs cps)) :
    (∃ c ∈ cs, ∃ q' ∈ placements (els c), q.2 = q'.2) ∨ ∃ g ∈ cps, q.2 = g.el := by
  rw [merged_placements] at h
  rcases List.mem_append.1 h with h | h
  · obtain ⟨c, hc, h⟩ := List.mem_flatMap.1 h
    obtain ⟨q', hq', rfl⟩ := List.mem_map.1 h
    exact Or.inl ⟨c, hc, q', hq', rfl⟩
  · obtain ⟨g, hg, rfl⟩ := List.mem_map.1 h
    exact Or.inr ⟨g, hg, rfl⟩

/-- junction edges of the merged circuit -/
noncomputable def junPos (O : Objs) (els : CircId → Elements) (hnd : cs.Nodup) (hk : ∀ g ∈ cps, (O.elem g.el).kind = .cap) :
    (Σ s : Fin cs.length, Fin (junctionEdges O (els (cs.get s))).length) ≃ Fin (junctionEdges O (mergedEls sz els cs cps)).length :=
  (Equiv.sigmaCongrRight fun s => finCongr (by rw [List.length_map])).trans
    (posEquiv (fun c => (junctionEdges O (els c)).map (shiftEdge (nodeOffset sz cs c))) cs hnd (merged_junctionEdges hk))

theorem junPos_get (hnd : cs.Nodup) (hk : ∀ g ∈ cps, (O.elem g.el).kind = .cap)
    (z : Σ s : Fin cs.length, Fin (junctionEdges O (els (cs.get s))).length) :
    (junctionEdges O (mergedEls sz els cs cps)).get (junPos O els hnd hk z) =
      shiftEdge (nodeOffset sz cs (cs.get z.1)) ((junctionEdges O (els (cs.get z.1))).get z.2) := by
  unfold junPos
  rw [Equiv.trans_apply, posEquiv_get]
  obtain ⟨s, i⟩ := z
  simp
  rfl

/-- incidence matrices of the junctions of all circuits -/
noncomputable def bigInc (O : Objs) (els : CircId → Elements) (sz : CircId → ℕ) (cs : List CircId) :
    Matrix (Σ s : Fin cs.length, Fin (junctionEdges O (els (cs.get s))).length) (Σ s : Fin cs.length, Fin (sz (cs.get s))) ℝ :=
  blockDiagonal' fun s => junctionIncidence O (els (cs.get s)) (sz (cs.get s))

theorem merged_junctionIncidence (hnd : cs.Nodup) (hv : ∀ c ∈ cs, ValidElements (sz c) (els c))
    (hk : ∀ g ∈ cps, (O.elem g.el).kind = .cap) (z y) :
    junctionIncidence O (mergedEls sz els cs cps) (cs.map sz).sum (junPos O els hnd hk z) (nodeEquiv sz cs hnd y) = bigInc O els sz cs z y := by
  change (incidence ((junctionEdges O (mergedEls sz els cs cps)).get (junPos O els hnd hk z)) (nodeEquiv sz cs hnd y + 1) : ℝ) = _
  rw [junPos_get, merged_incidence hnd (valid_junctionEdge (hv _ (List.get_mem _ _)) (List.get_mem _ _))]
  unfold bigInc
  rw [blockDiagonal'_apply]
  obtain ⟨s, i⟩ := z
  obtain ⟨t, k⟩ := y
  by_cases h : s = t
  · subst h
    rw [if_pos rfl, dif_pos rfl]
    rfl
  · rw [if_neg h, dif_neg h]
    simp

theorem merged_independent (hnd : cs.Nodup) (hv : ∀ c ∈ cs, ValidElements (sz c) (els c))
    (hk : ∀ g ∈ cps, (O.elem g.el).kind = .cap) (hi : ∀ c ∈ cs, IndependentJunctions O (els c) (sz c)) :
    IndependentJunctions O (mergedEls sz els cs cps) (cs.map sz).sum := by
  unfold IndependentJunctions
  rw [Fintype.linearIndependent_iff]
  intro g hg j
  obtain ⟨⟨s, i⟩, rfl⟩ := (junPos O els hnd hk).surjective j
  have h1 := Fintype.linearIndependent_iff.1 (hi _ (List.get_mem cs s)) (fun i => g (junPos O els hnd hk ⟨s, i⟩)) ?_ i
  · exact h1
  · funext k
    have h2 := congrFun hg (nodeEquiv sz cs hnd ⟨s, k⟩)
    rw [Finset.sum_apply, ← Equiv.sum_comp (junPos O els hnd hk), Fintype.sum_sigma] at h2
    rw [Finset.sum_apply]
    refine Eq.trans ?_ h2
    rw [Finset.sum_eq_single s]
    · refine Finset.sum_congr rfl fun i' _ => ?_
      simp only [Pi.smul_apply, Matrix.row, merged_junctionIncidence hnd hv hk]
      congr 1
      unfold bigInc
      rw [blockDiagonal'_apply_eq]
    · intro t _ hts
      refine Finset.sum_eq_zero fun i' _ => ?_
      simp only [Pi.smul_apply, Matrix.row, merged_junctionIncidence hnd hv hk]
      unfold bigInc
      rw [blockDiagonal'_apply_ne _ _ _ hts, smul_zero]
    · intro h; exact absurd (Finset.mem_univ _) h

end Merged

end SQ
