import Verif.Lemmas.MergeIslands
import Mathlib.Data.Matrix.Block

/-!
# The dictionary of a merged circuit
-/

namespace SQ
open Matrix Spec Real

section Nodes
variable (sz : CircId → ℕ)

theorem nodeOffset_before (c : CircId) (cs : List CircId) (hc : c ∈ cs) : nodeOffset sz cs c = nodesBefore sz c cs := by
  induction cs with
  | nil => simp at hc
  | cons a cs ih =>
    rw [nodesBefore]
    by_cases h : a = c
    · simp [h, nodeOffset]
    · rw [if_neg h, ← ih (by rcases List.mem_cons.1 hc with h' | h'; exact absurd h'.symm h; exact h')]
      unfold nodeOffset
      rw [List.takeWhile_cons]
      simp only [h, ne_eq, not_false_eq_true, decide_true, if_true, List.map_cons, List.sum_cons]

/-- nothing but numbers of modes and nodes -/
def bareSub : CircId → SubCirc := fun c => ⟨sz c, sz c, fun _ _ => 0, fun _ _ => 0, [], fun _ => 0⟩

/-- nodes of the circuits, in the order of the system -/
noncomputable def nodeEquiv (cs : List CircId) (hnd : cs.Nodup) :
    (Σ s : Fin cs.length, Fin (sz (cs.get s))) ≃ Fin ((cs.map sz).sum) :=
  Equiv.ofBijective (fun x => ⟨modeIdx (bareSub sz) cs x, modeIdx_lt (bareSub sz) cs hnd x⟩) (by
    constructor
    · intro x y h
      exact modeIdx_inj (bareSub sz) cs hnd (Fin.mk.inj_iff.1 h)
    · intro g
      obtain ⟨x, hx⟩ := modeIdx_surj (bareSub sz) cs hnd g.2
      exact ⟨x, Fin.ext hx⟩)

theorem nodeEquiv_val (cs : List CircId) (hnd : cs.Nodup) (x : Σ s : Fin cs.length, Fin (sz (cs.get s))) :
    (nodeEquiv sz cs hnd x : ℕ) = nodesBefore sz (cs.get x.1) cs + x.2 := by
  rw [nodesBefore_get sz cs hnd]
  rfl

theorem node_inj {cs : List CircId} (hnd : cs.Nodup) {s t : Fin cs.length} {i j : ℕ} (hi : i < sz (cs.get s))
    (hj : j < sz (cs.get t)) (h : nodesBefore sz (cs.get s) cs + i = nodesBefore sz (cs.get t) cs + j) : s = t ∧ i = j := by
  have : nodeEquiv sz cs hnd ⟨s, i, hi⟩ = nodeEquiv sz cs hnd ⟨t, j, hj⟩ := by
    apply Fin.ext
    rw [nodeEquiv_val, nodeEquiv_val]
    exact h
  have h2 := (nodeEquiv sz cs hnd).injective this
  have h3 : s = t := (Sigma.mk.inj_iff.1 h2).1
  subst h3
  exact ⟨rfl, by omega⟩

theorem blockDiag_at (F : CircId → ℕ → ℕ → ℝ) : ∀ (cs : List CircId) (s t : Fin cs.length) (i j : ℕ)
    (_ : i < sz (cs.get s)) (_ : j < sz (cs.get t)),
    blockDiag (cs.map fun c => (sz c, F c)) (((cs.take s).map sz).sum + i) (((cs.take t).map sz).sum + j) =
      if s = t then F (cs.get s) i j else 0 := by
  intro cs
  induction cs with
  | nil => intro s; exact s.elim0
  | cons c cs ih =>
    intro s t i j hi hj
    rw [List.map_cons, blockDiag]
    obtain ⟨s, hs⟩ := s
    obtain ⟨t, ht⟩ := t
    cases s with
    | zero =>
      have hi' : i < sz c := hi
      cases t with
      | zero =>
        have hj' : j < sz c := hj
        simp [hi', hj']
      | succ t =>
        simp [hi']
        omega
    | succ s =>
      cases t with
      | zero =>
        have hj' : j < sz c := hj
        simp [hj']
        omega
      | succ t =>
        have := ih ⟨s, by simpa using hs⟩ ⟨t, by simpa using ht⟩ i j hi hj
        simp only [List.take_succ_cons, List.map_cons, List.sum_cons]
        rw [if_neg (by omega), if_neg (by omega)]
        have e1 : sz c + ((cs.take s).map sz).sum + i - sz c = ((cs.take s).map sz).sum + i := by omega
        have e2 : sz c + ((cs.take t).map sz).sum + j - sz c = ((cs.take t).map sz).sum + j := by omega
        rw [e1, e2, this]
        simp

end Nodes

theorem shiftNode_pos {k v : ℕ} (h : v ≠ 0) : shiftNode k v = k + v := if_neg h

theorem shift_incidence {o o' k n : ℕ} {e : Edge} (he : ValidEdge n e) (hne : ∀ v, 1 ≤ v → v ≤ n → o + v ≠ o' + (k + 1)) :
    incidence (shiftEdge o e) (o' + (k + 1)) = 0 := by
  obtain ⟨h1, h2, h3⟩ := he
  unfold incidence shiftEdge
  simp only
  rcases Nat.eq_zero_or_pos e.1 with ha | ha <;> rcases Nat.eq_zero_or_pos e.2 with hb | hb
  · omega
  · rw [ha, shiftNode_pos (by omega : e.2 ≠ 0), show shiftNode o 0 = 0 from rfl, if_pos rfl, if_neg]
    exact fun h => hne e.2 hb h3 h.symm
  · rw [hb, shiftNode_pos (by omega : e.1 ≠ 0), show shiftNode o 0 = 0 from rfl, if_neg (by omega), if_pos rfl, if_neg]
    exact fun h => hne e.1 ha h2 h.symm
  · rw [shiftNode_pos (by omega : e.1 ≠ 0), shiftNode_pos (by omega : e.2 ≠ 0), if_neg (by omega), if_neg (by omega), if_neg, if_neg]
    · exact fun h => hne e.2 hb h3 h.symm
    · exact fun h => hne e.1 ha h2 h.symm

theorem shift_incidence_self {o k n : ℕ} {e : Edge} (he : ValidEdge n e) :
    incidence (shiftEdge o e) (o + (k + 1)) = incidence e (k + 1) := by
  obtain ⟨h1, h2, h3⟩ := he
  unfold incidence shiftEdge
  simp only
  rcases Nat.eq_zero_or_pos e.1 with ha | ha <;> rcases Nat.eq_zero_or_pos e.2 with hb | hb
  · omega
  · rw [ha, shiftNode_pos (by omega : e.2 ≠ 0), show shiftNode o 0 = 0 from rfl, if_pos rfl, if_pos rfl]
    simp
  · rw [hb, shiftNode_pos (by omega : e.1 ≠ 0), show shiftNode o 0 = 0 from rfl, if_neg (by omega), if_pos rfl, if_neg (by omega : ¬ e.1 = 0), if_pos rfl]
    simp
  · rw [shiftNode_pos (by omega : e.1 ≠ 0), shiftNode_pos (by omega : e.2 ≠ 0), if_neg (by omega), if_neg (by omega),
      if_neg (by omega : ¬ e.1 = 0), if_neg (by omega : ¬ e.2 = 0)]
    simp

section Lists
variable {α : Type*} (f : CircId → List α)

theorem flatMap_get : ∀ (cs : List CircId) (s : Fin cs.length) (i : ℕ) (_ : i < (f (cs.get s)).length),
    (cs.flatMap f)[((cs.take s).map fun c => (f c).length).sum + i]? = (f (cs.get s))[i]? := by
  intro cs
  induction cs with
  | nil => intro s; exact s.elim0
  | cons c cs ih =>
    intro s i hi
    obtain ⟨s, hs⟩ := s
    rw [List.flatMap_cons]
    cases s with
    | zero =>
      have hi' : i < (f c).length := hi
      rw [List.getElem?_append_left (by simpa using hi')]
      simp
    | succ s =>
      rw [List.getElem?_append_right (by simp; omega)]
      have := ih ⟨s, by simpa using hs⟩ i hi
      simp only [List.take_succ_cons, List.map_cons, List.sum_cons]
      have e1 : (f c).length + ((cs.take s).map fun c => (f c).length).sum + i - (f c).length =
        ((cs.take s).map fun c => (f c).length).sum + i := by omega
      rw [e1, this]
      rfl

/-- positions in a concatenation -/
noncomputable def posEquiv (cs : List CircId) (hnd : cs.Nodup) {l : List α} (hl : l = cs.flatMap f) :
    (Σ s : Fin cs.length, Fin (f (cs.get s)).length) ≃ Fin l.length :=
  (nodeEquiv (fun c => (f c).length) cs hnd).trans (finCongr (by rw [hl, List.length_flatMap]))

theorem posEquiv_get (cs : List CircId) (hnd : cs.Nodup) {l : List α} (hl : l = cs.flatMap f)
    (z : Σ s : Fin cs.length, Fin (f (cs.get s)).length) : l.get (posEquiv f cs hnd hl z) = (f (cs.get z.1)).get z.2 := by
  have h1 := flatMap_get f cs z.1 z.2 z.2.2
  rw [← hl, List.getElem?_eq_getElem z.2.2] at h1
  obtain ⟨h2, h3⟩ := List.getElem?_eq_some_iff.1 h1
  exact h3

end Lists

section Merged
variable {sz : CircId → ℕ} {els : CircId → Elements} {cs : List CircId} {cps : List Coupling} {O : Objs}

theorem placements_append (a b : Elements) : placements (a ++ b) = placements a ++ placements b := by
  simp [placements]

theorem merged_placements : placements (mergedEls sz els cs cps) =
    cs.flatMap (fun c => (placements (els c)).map fun q => (shiftEdge (nodeOffset sz cs c) q.1, q.2)) ++
      cps.map fun g => ((nodeOffset sz cs g.cr1 + g.node1, nodeOffset sz cs g.cr2 + g.node2), g.el) := by
  unfold mergedEls
  rw [placements_append]
  congr 1
  · unfold placements
    rw [List.flatMap_assoc]
    refine List.flatMap_congr fun c _ => ?_
    rw [List.flatMap_map, List.map_flatMap]
    simp [List.map_map, Function.comp_def]
  · induction cps with
    | nil => rfl
    | cons g cps ih => simp [placements] at ih ⊢; exact ih

theorem merged_junctionEdges (hk : ∀ g ∈ cps, (O.elem g.el).kind = .cap) : junctionEdges O (mergedEls sz els cs cps) =
    cs.flatMap fun c => (junctionEdges O (els c)).map (shiftEdge (nodeOffset sz cs c)) := by
  unfold mergedEls junctionEdges
  rw [List.filter_append, List.map_append]
  have h2 : (cps.map fun g => ((nodeOffset sz cs g.cr1 + g.node1, nodeOffset sz cs g.cr2 + g.node2), [g.el])).filter
      (fun p => p.2.any (fun i => decide ((O.elem i).kind = .jj))) = [] := by
    rw [List.filter_eq_nil_iff]
    intro p hp
    obtain ⟨g, hg, rfl⟩ := List.mem_map.1 hp
    simp [hk g hg]
  rw [h2, List.map_nil, List.append_nil, List.filter_flatMap, List.map_flatMap]
  refine List.flatMap_congr fun c _ => ?_
  rw [List.filter_map, List.map_map, List.map_map]
  rfl

theorem capacitances_apply (els : Elements) (n : ℕ) (a b : Fin n) : capacitances O els n a b =
    ((placements els).map fun q => placedCap O q.2 * ((incidence q.1 (a + 1) : ℝ) * incidence q.1 (b + 1))).sum := by
  unfold capacitances
  generalize placements els = l
  induction l with
  | nil => rfl
  | cons q l ih =>
    rw [List.map_cons, List.sum_cons, List.map_cons, List.sum_cons, Matrix.add_apply, ih]
    rfl

theorem sum_flatMap {α : Type*} (l : List CircId) (f : CircId → List α) (g : α → ℝ) :
    ((l.flatMap f).map g).sum = (l.map fun c => ((f c).map g).sum).sum := by
  induction l with
  | nil => rfl
  | cons c l ih => rw [List.flatMap_cons, List.map_append, List.sum_append, ih, List.map_cons, List.sum_cons]

/-- incidence of an edge of circuit `s` at a node of circuit `t` of the merged circuit -/
theorem merged_incidence (hnd : cs.Nodup) {s : Fin cs.length} {e : Edge} (he : ValidEdge (sz (cs.get s)) e)
    (y : Σ t : Fin cs.length, Fin (sz (cs.get t))) :
    incidence (shiftEdge (nodeOffset sz cs (cs.get s)) e) (nodeEquiv sz cs hnd y + 1) =
      if s = y.1 then incidence e (y.2 + 1) else 0 := by
  rw [nodeOffset_before sz _ _ (List.get_mem _ _), nodeEquiv_val]
  have e1 : nodesBefore sz (cs.get y.1) cs + (y.2 : ℕ) + 1 = nodesBefore sz (cs.get y.1) cs + (y.2 + 1) := by omega
  rw [e1]
  by_cases h : s = y.1
  · rw [if_pos h]
    obtain ⟨t, i⟩ := y
    simp only at h
    subst h
    exact shift_incidence_self he
  · rw [if_neg h]
    refine shift_incidence he ?_
    intro v h1 h2 h3
    refine h (node_inj sz hnd (i := v - 1) (j := y.2) (by omega) y.2.2 (by omega)).1

theorem merged_capacitances (hnd : cs.Nodup) (hv : ∀ c ∈ cs, ValidElements (sz c) (els c))
    (hk : ∀ g ∈ cps, (O.elem g.el).kind = .cap) (y y' : Σ t : Fin cs.length, Fin (sz (cs.get t))) :
    capacitances O (mergedEls sz els cs cps) _ (nodeEquiv sz cs hnd y) (nodeEquiv sz cs hnd y') =
      blockDiagonal' (fun t : Fin cs.length => capacitances O (els (cs.get t)) (sz (cs.get t))) y y' +
      (cps.map fun g => (O.elem g.el).value * edgeMat (cs.map sz).sum (nodeOffset sz cs g.cr1 + g.node1, nodeOffset sz cs g.cr2 + g.node2)
        (nodeEquiv sz cs hnd y) (nodeEquiv sz cs hnd y')).sum := by
  rw [capacitances_apply, merged_placements, List.map_append, List.sum_append, sum_flatMap]
  congr 1
  · have e1 : ∀ s : Fin cs.length, (((placements (els (cs.get s))).map fun q => (shiftEdge (nodeOffset sz cs (cs.get s)) q.1, q.2)).map
        fun q => placedCap O q.2 * ((incidence q.1 (nodeEquiv sz cs hnd y + 1) : ℝ) * incidence q.1 (nodeEquiv sz cs hnd y' + 1))).sum =
        if s = y.1 then (if s = y'.1 then ((placements (els (cs.get s))).map
          fun q => placedCap O q.2 * ((incidence q.1 (y.2 + 1) : ℝ) * incidence q.1 (y'.2 + 1))).sum else 0) else 0 := by
      intro s
      rw [List.map_map]
      have e2 : ∀ q ∈ placements (els (cs.get s)), (((fun q : Edge × ElemId => placedCap O q.2 *
          ((incidence q.1 (nodeEquiv sz cs hnd y + 1) : ℝ) * incidence q.1 (nodeEquiv sz cs hnd y' + 1))) ∘
          fun q => (shiftEdge (nodeOffset sz cs (cs.get s)) q.1, q.2)) q) =
          if s = y.1 then (if s = y'.1 then placedCap O q.2 * ((incidence q.1 (y.2 + 1) : ℝ) * incidence q.1 (y'.2 + 1)) else 0) else 0 := by
        intro q hq
        have hq' : ValidEdge (sz (cs.get s)) q.1 := by
          unfold placements at hq
          obtain ⟨p, hp, hp2⟩ := List.mem_flatMap.1 hq
          obtain ⟨i, -, rfl⟩ := List.mem_map.1 hp2
          exact hv _ (List.get_mem _ _) p hp
        simp only [Function.comp_apply]
        rw [merged_incidence hnd hq', merged_incidence hnd hq']
        split <;> split <;> simp
      rw [List.map_congr_left e2]
      split
      · split
        · rfl
        · simp
      · simp
    have e3 := Fin.sum_univ_fun_getElem cs (fun c => (((placements (els c)).map fun q => (shiftEdge (nodeOffset sz cs c) q.1, q.2)).map
        fun q => placedCap O q.2 * ((incidence q.1 (nodeEquiv sz cs hnd y + 1) : ℝ) * incidence q.1 (nodeEquiv sz cs hnd y' + 1))).sum)
    rw [← e3]
    refine (Finset.sum_congr rfl fun s _ => e1 s).trans ?_
    rw [Finset.sum_ite_eq' Finset.univ y.1]
    rw [if_pos (Finset.mem_univ _), blockDiagonal'_apply]
    by_cases h : y.1 = y'.1
    · rw [if_pos h, dif_pos h, capacitances_apply]
      obtain ⟨t, i⟩ := y
      obtain ⟨t', i'⟩ := y'
      simp only at h
      subst h
      rfl
    · rw [if_neg h, dif_neg h]
  · rw [List.map_map]
    congr 1
    refine List.map_congr_left fun g hg => ?_
    simp only [Function.comp_apply, placedCap, hk g hg]
    rfl

end Merged

end SQ
