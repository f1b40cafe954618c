import Verif.Spec.Copy
import Verif.Lemmas.Copy
import Verif.Props.Traverse
import Verif.Model.State

/-! # C52, C53: copying and pickling circuits -/

namespace SQ
open Spec

/-! ### Helpers -/

theorem lookup_of_mem {α β : Type*} [DecidableEq α] : ∀ {l : List (α × β)} {a : α} {b : β},
    (l.map Prod.fst).Nodup → (a, b) ∈ l → l.lookup a = some b
  | [], _, _, _, h => by simp at h
  | (x, y) :: l, a, b, hn, h => by
    simp only [List.map_cons, List.nodup_cons] at hn
    by_cases hx : a = x
    · subst hx
      rcases List.mem_cons.1 h with h | h
      · simp only [Prod.mk.injEq, true_and] at h
        simp [h]
      · exact absurd (List.mem_map.2 ⟨_, h, rfl⟩) hn.1
    · rcases List.mem_cons.1 h with h | h
      · simp only [Prod.mk.injEq] at h
        exact absurd h.1 hx
      · rw [List.lookup_cons, beq_eq_false_iff_ne.2 hx]
        exact lookup_of_mem hn.2 h

theorem lookup_isSome {α β : Type*} [DecidableEq α] : ∀ {l : List (α × β)} {a : α},
    (l.lookup a).isSome ↔ a ∈ l.map Prod.fst
  | [], _ => by simp
  | (x, y) :: l, a => by
    by_cases hx : a = x
    · subst hx; simp
    · rw [List.lookup_cons, beq_eq_false_iff_ne.2 hx]
      simp only [List.map_cons, List.mem_cons, hx, false_or]
      exact lookup_isSome

theorem lookup_mem {α β : Type*} [DecidableEq α] : ∀ {l : List (α × β)} {a : α} {b : β},
    l.lookup a = some b → (a, b) ∈ l
  | [], _, _, h => by simp at h
  | (x, y) :: l, a, b, h => by
    by_cases hx : a = x
    · subst hx
      simp at h
      simp [h]
    · rw [List.lookup_cons, beq_eq_false_iff_ne.2 hx] at h
      exact List.mem_cons_of_mem _ (lookup_mem h)

theorem lookup_zip {α : Type*} [DecidableEq α] {ls js : List α} (hl : js.length = ls.length)
    (hn : ls.Nodup) (k : ℕ) (hk : k < ls.length) :
    ((ls.zip js).reverse ++ []).lookup ls[k] = some js[k] := by
  apply lookup_of_mem
  · rw [List.append_nil, List.map_reverse, List.nodup_reverse, List.map_fst_zip (by omega)]
    exact hn
  · simp only [List.append_nil, List.mem_reverse]
    have : (ls.zip js)[k]'(by simp; omega) = (ls[k], js[k]) := by simp
    rw [← this]
    exact List.getElem_mem _

/-- edges with equal shapes and pointwise related elements have the same picture -/
theorem edges_view {V : Type*} (v v' : ElemId → V) : ∀ {es es' : Elements},
    List.Forall₂ (fun p q => q.1 = p.1 ∧ q.2.length = p.2.length) es es' →
    (es'.flatMap Prod.snd).map v' = (es.flatMap Prod.snd).map v →
    es'.map (fun p => (p.1, p.2.map v')) = es.map (fun p => (p.1, p.2.map v))
  | _, _, .nil, _ => rfl
  | _, _, .cons (a := p) (b := q) h t, he => by
    simp only [List.flatMap_cons, List.map_append] at he
    have h2 := List.append_inj he (by simp [h.2])
    simp only [List.map_cons]
    rw [h2.1, h.1, edges_view v v' t h2.2]

theorem mapM_ok {α β : Type*} {f : α → Except PyErr β} : ∀ {l : List α} {l' : List β},
    l.mapM f = .ok l' ↔ List.Forall₂ (fun a b => f a = .ok b) l l'
  | [], l' => by
    constructor
    · intro h
      have : l' = [] := by
        simp only [List.mapM_nil] at h
        exact (Except.ok.inj h).symm
      rw [this]; exact .nil
    · intro h; cases h; rfl
  | a :: l, l' => by
    rw [List.mapM_cons]
    constructor
    · intro h
      cases ha : f a with
      | error e => rw [ha] at h; cases h
      | ok b =>
        rw [ha] at h
        cases hl : l.mapM f with
        | error e => rw [hl] at h; cases h
        | ok bs =>
          rw [hl] at h
          have : l' = b :: bs := (Except.ok.inj h).symm
          rw [this]
          exact .cons ha (mapM_ok.1 hl)
    · intro h
      cases h with
      | cons h t =>
        rw [h, mapM_ok.2 t]; rfl

theorem mapM_error {α β : Type*} {f : α → Except PyErr β} {e : PyErr} : ∀ {l : List α},
    (∀ a ∈ l, ∀ e', f a = .error e' → e' = e) → (∃ a ∈ l, ∃ e', f a = .error e') →
    l.mapM f = .error e
  | [], _, h => by simp at h
  | a :: l, h1, h2 => by
    rw [List.mapM_cons]
    cases ha : f a with
    | error e' => rw [h1 a (by simp) e' ha]; rfl
    | ok b =>
      have h3 : ∃ a ∈ l, ∃ e', f a = .error e' := by
        obtain ⟨x, hx, e', he⟩ := h2
        rcases List.mem_cons.1 hx with rfl | hx
        · rw [ha] at he; cases he
        · exact ⟨x, hx, e', he⟩
      rw [mapM_error (fun x hx => h1 x (by simp [hx])) h3]
      rfl

theorem inductive_iff (o : ElemObj) : o.inductive = true ↔ o.kind ≠ .cap := by
  simp [ElemObj.inductive]

/-! ### The steps before the final deep copy -/

/-- State after copying loops and elements under PyTorch. -/
structure Stage (H : SHeap) (c : SCirc) (els : Elements) (ls : List LoopId) (r : Repl) (H1 : SHeap) :
    Prop where
  shape : List.Forall₂ (fun p q => q.1 = p.1 ∧ q.2.length = p.2.length) c.elements els
  ids : els.flatMap Prod.snd = List.range' H.nextE (placed c).length
  lids : ls = List.range' H.nextL c.loops.length
  relems : r.elems = ((placed c).zip (els.flatMap Prod.snd)).reverse ++ []
  rloops : r.loops = (c.loops.zip ls).reverse ++ []
  nextE : H1.nextE = H.nextE + (placed c).length
  nextL : H1.nextL = H.nextL + c.loops.length
  old : ∀ i, i < H.nextE → H1.elem i = H.elem i
  oldL : ∀ l, l < H.nextL → H1.loopValue l = H.loopValue l ∧ H1.loopIsLeaf l = H.loopIsLeaf l
  copies : List.Forall₂ (CopyOf r H H1) (placed c) (els.flatMap Prod.snd)
  lcopies : List.Forall₂ (fun l l' => H1.loopValue l' = H.loopValue l ∧ H1.loopIsLeaf l' = true)
    c.loops ls

theorem Stage.loop {H c els ls r H1} (s : Stage H c els ls r H1) (hb : Built H c) (k : ℕ)
    (hk : k < c.loops.length) : r.loop c.loops[k] = .ok (H.nextL + k) := by
  have hl : ls.length = c.loops.length := by rw [s.lids]; simp
  unfold Repl.loop
  rw [s.rloops, lookup_zip hl hb.loops_nodup k hk]
  simp [s.lids]

theorem stage_exists {H : SHeap} {c : SCirc} (hb : Built H c) :
    ∃ els ls r H1, Stage H c els ls r H1 ∧
      safecopy true H c = (match rekey c els ls r with
        | .error e => .error e
        | .ok c' => deepCopy true H1 c') := by
  generalize hq : copyLoops c.loops ⟨[], []⟩ H = q
  obtain ⟨ls, r0, H0⟩ := q
  obtain ⟨a1, a2, a3, a4, a5, a6, a7, a8⟩ := copyLoops_spec _ _ _ hq
  have a8 := a8 hb.loops_lt
  have hl : ls.length = c.loops.length := by rw [a1]; simp
  have hr0 : ∀ l ∈ c.loops, ∃ l', r0.loop l = .ok l' := by
    intro l hl'
    obtain ⟨k, hk, rfl⟩ := List.getElem_of_mem hl'
    refine ⟨ls[k], ?_⟩
    unfold Repl.loop
    rw [a3, lookup_zip hl hb.loops_nodup k hk]
  obtain ⟨⟨els, r, H1⟩, hc⟩ := copyEdges_succeeds c.elements r0 H0
    (fun i hi => by rw [a5]; exact hb.elem_lt i hi)
    (fun i hi hind l hl' => by
      rw [a4] at hind hl'
      exact hr0 l (hb.loops_mem i hi ((inductive_iff _).1 hind) l hl'))
  obtain ⟨ca, sh⟩ := copyEdges_spec _ _ _ hc
  obtain ⟨e1, e2, e3, e4⟩ := ca.same
  refine ⟨els, ls, r, H1, ⟨sh, ?_, a1, ?_, ?_, ?_, ?_, ?_, ?_, ?_, ?_⟩, ?_⟩
  · rw [ca.ids, a5]; rfl
  · rw [ca.elems, a2]; rfl
  · rw [ca.loops, a3]
  · rw [ca.next, a5]; rfl
  · rw [e4, a6]
  · intro i hi
    rw [ca.old i (by rw [a5]; exact hi), a4]
  · intro l hl'
    rw [e1, e3]
    exact ⟨(a7 l hl').1, (a7 l hl').2.2⟩
  · have := ca.copies (fun i hi => by rw [a5]; exact hb.elem_lt i hi)
    have hrl : r.loop = r0.loop := by
      funext l; unfold Repl.loop; rw [ca.loops]
    refine List.Forall₂.imp ?_ this
    rintro i j ⟨ls', h1, h2⟩
    rw [a4, ← hrl] at h1
    rw [a4] at h2
    exact ⟨ls', h1, h2⟩
  · rw [e1, e3]; exact a8
  · unfold safecopy
    simp only [if_true, hq, hc]
    cases rekey c els ls r <;> rfl

theorem range'_idxOf (s n k : ℕ) (hk : k < n) : (List.range' s n).idxOf (s + k) = k := by
  have h1 : (List.range' s n)[k]'(by simpa using hk) = s + k := by simp
  rw [← h1]
  exact List.Nodup.idxOf_getElem (List.nodup_range' ..) _ _

/-- the view before the deep copy is that of the original -/
theorem stage_view {H c els ls r H1} (s : Stage H c els ls r H1) (hb : Built H c) (c1 : SCirc)
    (he : c1.elements = els) (hl : c1.loops = ls) : view H1 c1 = view H c := by
  unfold view
  rw [he, hl]
  refine Prod.ext ?_ ?_
  · refine edges_view _ _ s.shape ?_
    apply List.ext_getElem
    · simp only [List.length_map]
      rw [s.ids, List.length_range']; rfl
    · intro k h1 h2
      simp only [List.length_map] at h1 h2
      simp only [List.getElem_map]
      have hk := (List.forall₂_iff_get.1 s.copies).2 k h2 h1
      simp only [List.get_eq_getElem] at hk
      obtain ⟨ls', hls, hj⟩ := hk
      have hmem : (placed c)[k] ∈ placed c := List.getElem_mem _
      change viewElem H1 ls _ = viewElem H c.loops (placed c)[k]
      generalize (placed c)[k] = i at hls hj hmem
      unfold viewElem
      rw [hj]
      simp only
      by_cases hkind : (H.elem i).kind = .cap
      · simp [hkind]
      · rw [if_neg hkind, if_neg hkind]
        rw [if_pos ((inductive_iff _).2 hkind)] at hls
        rw [s.old _ (hb.cap_lt i hmem hkind)]
        congr 1
        have hf := mapM_ok.1 hls
        have hsub := hb.loops_mem i hmem hkind
        clear hls hj
        generalize (H.elem i).loops = lo at hf hsub
        induction hf with
        | nil => rfl
        | cons h t ih =>
          rename_i l l' t1 t2
          simp only [List.map_cons]
          have hlm := hsub l (by simp)
          have := ih (fun x hx => hsub x (by simp [hx]))
          rw [this]
          congr 1
          obtain ⟨k, hk, rfl⟩ := List.getElem_of_mem hlm
          rw [s.loop hb k hk] at h
          injection h with h
          rw [← h, s.lids, range'_idxOf _ _ _ hk, List.Nodup.idxOf_getElem hb.loops_nodup]
  · simp only
    apply List.ext_getElem
    · rw [s.lids]; simp
    · intro k h1 h2
      simp only [List.length_map] at h1 h2
      have := (List.forall₂_iff_get.1 s.lcopies).2 k h2 h1
      simpa using this.1

theorem idxOf_shift (ls : List LoopId) (n : ℕ) (l : LoopId) :
    (ls.map (fun l => l + n)).idxOf (l + n) = ls.idxOf l := by
  induction ls with
  | nil => rfl
  | cons x xs ih =>
    by_cases h : x = l
    · subst h; simp
    · have h' : x + n ≠ l + n := fun hh => h (Nat.add_right_cancel hh)
      rw [List.map_cons, List.idxOf_cons_ne _ h', List.idxOf_cons_ne _ h, ih]

theorem deepCopy_view {torch : Bool} {H H' : SHeap} {c c' : SCirc}
    (h : deepCopy torch H c = .ok (H', c')) : view H' c' = view H c := by
  unfold deepCopy at h
  split at h
  · simp only [Except.ok.injEq, Prod.mk.injEq] at h
    obtain ⟨rfl, rfl⟩ := h
    have hlt : ∀ i n : ℕ, ¬ (i + n < n) := fun i n => by omega
    unfold view
    simp only [List.map_map, Function.comp_def]
    refine Prod.ext ?_ ?_
    · simp only
      apply List.map_congr_left
      intro p _
      congr 1
      apply List.map_congr_left
      intro i _
      unfold viewElem
      simp only [hlt, if_false, Nat.add_sub_cancel, List.map_map, Function.comp_def, idxOf_shift]
    · simp only [hlt, if_false, Nat.add_sub_cancel]
  · cases h

theorem deepCopy_next {torch : Bool} {H H' : SHeap} {c c' : SCirc}
    (h : deepCopy torch H c = .ok (H', c')) :
    (∀ i, i < H.nextE → H'.elem i = H.elem i) ∧ (∀ l, l < H.nextL → H'.loopValue l = H.loopValue l) ∧
    (∀ i ∈ placed c', H.nextE ≤ i ∧ H.nextE ≤ (H'.elem i).cap) ∧ (∀ l ∈ c'.loops, H.nextL ≤ l) := by
  unfold deepCopy at h
  split at h
  · simp only [Except.ok.injEq, Prod.mk.injEq] at h
    obtain ⟨rfl, rfl⟩ := h
    refine ⟨fun i hi => by simp only [hi, if_true], fun i hi => by simp only [hi, if_true], ?_, ?_⟩
    · intro i hi
      obtain ⟨p, hp, hi⟩ := List.mem_flatMap.1 hi
      obtain ⟨q, -, rfl⟩ := List.mem_map.1 hp
      obtain ⟨i', -, rfl⟩ := List.mem_map.1 hi
      refine ⟨Nat.le_add_left _ _, ?_⟩
      have hlt : ¬ (i' + H.nextE < H.nextE) := fun hh => Nat.not_lt.2 (Nat.le_add_left _ _) hh
      simp only [hlt, if_false]
      exact Nat.le_add_left _ _
    · intro l hl
      simp only [List.mem_map] at hl
      obtain ⟨l', -, rfl⟩ := hl
      exact Nat.le_add_left _ _
  · cases h

/-- what `rekey` does when it succeeds -/
theorem rekey_ok {c : SCirc} {els ls r c1} (h : rekey c els ls r = .ok c1) :
    c1.elements = els ∧ c1.loops = ls ∧
    List.Forall₂ (fun a b => r.comp a = .ok b) c.params c1.params ∧
    List.Forall₂ (fun a b => (r.elem a.2.1).map (fun i => (a.1, i, a.2.2)) = .ok b) c.junKeys c1.junKeys ∧
    List.Forall₂ (fun a b => (r.elem a.2.1).map (fun i => (a.1, i, a.2.2)) = .ok b) c.indKeys c1.indKeys ∧
    List.Forall₂ (fun a b => (r.elem a.1).map (fun i => (i, a.2)) = .ok b) c.opKeys c1.opKeys ∧
    c1.partials = c.partials.map (fun i => match r.elem i with
      | .ok j => j
      | .error _ => i) := by
  unfold rekey at h
  cases h1 : c.params.mapM r.comp with
  | error e => rw [h1] at h; cases h
  | ok ps =>
  cases h2 : c.junKeys.mapM (fun k => (r.elem k.2.1).map (fun i => (k.1, i, k.2.2))) with
  | error e => rw [h1, h2] at h; cases h
  | ok js =>
  cases h3 : c.indKeys.mapM (fun k => (r.elem k.2.1).map (fun i => (k.1, i, k.2.2))) with
  | error e => rw [h1, h2, h3] at h; cases h
  | ok is =>
  cases h4 : c.opKeys.mapM (fun k => (r.elem k.1).map (fun i => (i, k.2))) with
  | error e => rw [h1, h2, h3, h4] at h; cases h
  | ok os =>
    rw [h1, h2, h3, h4] at h
    have h := Except.ok.inj h
    subst h
    exact ⟨rfl, rfl, mapM_ok.1 h1, mapM_ok.1 h2, mapM_ok.1 h3, mapM_ok.1 h4, rfl⟩

theorem safecopy_ok {torch : Bool} {H H' : SHeap} {c c' : SCirc} (hb : Built H c)
    (h : safecopy torch H c = .ok (H', c')) :
    ∃ H1 c1, deepCopy torch H1 c1 = .ok (H', c') ∧ view H1 c1 = view H c ∧ H.nextE ≤ H1.nextE ∧
      H.nextL ≤ H1.nextL ∧ (∀ i, i < H.nextE → H1.elem i = H.elem i) ∧
      (∀ l, l < H.nextL → H1.loopValue l = H.loopValue l) := by
  cases torch with
  | false => exact ⟨H, c, h, rfl, le_rfl, le_rfl, fun _ _ => rfl, fun _ _ => rfl⟩
  | true =>
    obtain ⟨els, ls, r, H1, s, hs⟩ := stage_exists hb
    rw [hs] at h
    cases hr : rekey c els ls r with
    | error e => rw [hr] at h; cases h
    | ok c1 =>
      rw [hr] at h
      obtain ⟨k1, k2, -⟩ := rekey_ok hr
      exact ⟨H1, c1, h, stage_view s hb c1 k1 k2, by rw [s.nextE]; exact Nat.le_add_right _ _,
        by rw [s.nextL]; exact Nat.le_add_right _ _, s.old, fun l hl => (s.oldL l hl).1⟩

/-! ## C52 -/

/-- A copy shows the same edges with elements of the same class, value, attached capacitance and loops,
and loops of the same values. -/
theorem C52_values (torch : Bool) (H H' : SHeap) (c c' : SCirc) (hb : Built H c)
    (h : safecopy torch H c = .ok (H', c')) : view H' c' = view H c := by
  obtain ⟨H1, c1, h1, h2, -⟩ := safecopy_ok hb h
  rw [deepCopy_view h1, h2]

/-- Copying changes no existing element or loop, and whatever is done later to the objects that
existed before, the copy stays the same. -/
theorem C52_independent (torch : Bool) (H H' : SHeap) (c c' : SCirc) (hb : Built H c)
    (h : safecopy torch H c = .ok (H', c')) :
    (∀ i, i < H.nextE → H'.elem i = H.elem i) ∧ (∀ l, l < H.nextL → H'.loopValue l = H.loopValue l) ∧
    ∀ H2 : SHeap, (∀ i, H.nextE ≤ i → H2.elem i = H'.elem i) →
      (∀ l, H.nextL ≤ l → H2.loopValue l = H'.loopValue l) → view H2 c' = view H' c' := by
  obtain ⟨H1, c1, h1, h2, h3, h4, h5, h6⟩ := safecopy_ok hb h
  obtain ⟨d1, d2, d3, d4⟩ := deepCopy_next h1
  refine ⟨fun i hi => by rw [d1 i (lt_of_lt_of_le hi h3), h5 i hi],
    fun l hl => by rw [d2 l (lt_of_lt_of_le hl h4), h6 l hl], fun H2 he hl => ?_⟩
  unfold view
  refine Prod.ext ?_ ?_
  · simp only
    apply List.map_congr_left
    intro p hp
    congr 1
    apply List.map_congr_left
    intro i hi
    obtain ⟨x, y⟩ := d3 i (List.mem_flatMap.2 ⟨p, hp, hi⟩)
    have e1 := he i (le_trans h3 x)
    unfold viewElem
    rw [e1, he _ (le_trans h3 y)]
  · simp only
    apply List.map_congr_left
    intro l hl'
    exact hl l (le_trans h4 (d4 l hl'))

theorem Stage.elem_mem {H c els ls r H1} (s : Stage H c els ls r H1) (i : ElemId)
    (hi : i ∈ placed c) : ∃ j, r.elem i = .ok j ∧ (i, j) ∈ (placed c).zip (els.flatMap Prod.snd) := by
  have hlen : (els.flatMap Prod.snd).length = (placed c).length := by
    rw [s.ids, List.length_range']
  have h1 : (r.elems.lookup i).isSome := by
    rw [lookup_isSome, s.relems, List.append_nil, List.map_reverse, List.mem_reverse,
      List.map_fst_zip (by omega)]
    exact hi
  obtain ⟨j, hj⟩ := Option.isSome_iff_exists.1 h1
  refine ⟨j, by unfold Repl.elem; rw [hj], ?_⟩
  have := lookup_mem hj
  rw [s.relems] at this
  simpa using this

theorem Stage.elem_not {H c els ls r H1} (s : Stage H c els ls r H1) (i : ElemId)
    (hi : i ∉ placed c) : r.elem i = .error .keyError := by
  have hlen : (els.flatMap Prod.snd).length = (placed c).length := by
    rw [s.ids, List.length_range']
  have h1 : ¬ (r.elems.lookup i).isSome := by
    rw [lookup_isSome, s.relems, List.append_nil, List.map_reverse, List.mem_reverse,
      List.map_fst_zip (by omega)]
    exact hi
  unfold Repl.elem
  cases h : r.elems.lookup i with
  | none => rfl
  | some j => simp [h] at h1

theorem Stage.loop_mem {H c els ls r H1} (s : Stage H c els ls r H1) (hb : Built H c) (l : LoopId)
    (hl : l ∈ c.loops) : ∃ l', r.loop l = .ok l' := by
  obtain ⟨k, hk, rfl⟩ := List.getElem_of_mem hl
  exact ⟨_, s.loop hb k hk⟩

/-- `safecopy()` raises KeyError under PyTorch whenever a parameter is an attached capacitor that is
not itself placed on an edge. -/
theorem C52_fails (H : SHeap) (c : SCirc) (hb : Built H c) (i : ElemId) (hi : Comp.elem i ∈ c.params)
    (hn : i ∉ placed c) : safecopy true H c = .error .keyError := by
  obtain ⟨els, ls, r, H1, s, hs⟩ := stage_exists hb
  have h1 : c.params.mapM r.comp = .error .keyError := by
    apply mapM_error
    · intro k _ e' he
      cases k with
      | elem i =>
        simp only [Repl.comp] at he
        cases h : r.elem i with
        | ok j => rw [h] at he; cases he
        | error e2 =>
          rw [h] at he
          have he : e2 = e' := by simpa [Except.map] using he
          unfold Repl.elem at h
          split at h <;> cases h
          exact he.symm
      | loop l =>
        simp only [Repl.comp] at he
        cases h : r.loop l with
        | ok j => rw [h] at he; cases he
        | error e2 =>
          rw [h] at he
          have he : e2 = e' := by simpa [Except.map] using he
          unfold Repl.loop at h
          split at h <;> cases h
          exact he.symm
    · exact ⟨_, hi, .keyError, by simp only [Repl.comp, s.elem_not i hn]; rfl⟩
  have h2 : rekey c els ls r = .error .keyError := by
    unfold rekey
    rw [h1]
    rfl
  rw [hs, h2]

theorem forall₂_of_exists {α β : Type*} {R : α → β → Prop} : ∀ {l : List α},
    (∀ a ∈ l, ∃ b, R a b) → ∃ l', List.Forall₂ R l l'
  | [], _ => ⟨[], .nil⟩
  | a :: l, h => by
    obtain ⟨b, hb⟩ := h a (by simp)
    obtain ⟨l', hl⟩ := forall₂_of_exists (fun x hx => h x (List.mem_cons_of_mem a hx))
    exact ⟨b :: l', .cons hb hl⟩

theorem rekey_succeeds {H c els ls r H1} (s : Stage H c els ls r H1) (hb : Built H c)
    (hp : ∀ i, Comp.elem i ∈ c.params → i ∈ placed c) : ∃ c1, rekey c els ls r = .ok c1 := by
  have hmap : ∀ {α β : Type} (f : α → Except PyErr β) (l : List α), (∀ a ∈ l, ∃ b, f a = .ok b) →
      ∃ l', l.mapM f = .ok l' := by
    intro α β f l h
    obtain ⟨l', hl⟩ := forall₂_of_exists h
    exact ⟨l', mapM_ok.2 hl⟩
  have hel : ∀ i ∈ placed c, ∃ j, r.elem i = .ok j := fun i hi => by
    obtain ⟨j, hj, -⟩ := s.elem_mem i hi
    exact ⟨j, hj⟩
  obtain ⟨a1, h1⟩ := hmap r.comp c.params (by
    intro k hk
    cases k with
    | elem i =>
      obtain ⟨j, hj⟩ := hel i (hp i hk)
      exact ⟨.elem j, by simp only [Repl.comp, hj]; rfl⟩
    | loop l =>
      obtain ⟨j, hj⟩ := s.loop_mem hb l (hb.param_loop l hk)
      exact ⟨.loop j, by simp only [Repl.comp, hj]; rfl⟩)
  obtain ⟨a2, h2⟩ := hmap (fun k => (r.elem k.2.1).map (fun i => (k.1, i, k.2.2))) c.junKeys (by
    intro k hk
    obtain ⟨j, hj⟩ := hel _ (hb.jun_placed k hk)
    exact ⟨(k.1, j, k.2.2), by simp only [hj]; rfl⟩)
  obtain ⟨a3, h3⟩ := hmap (fun k => (r.elem k.2.1).map (fun i => (k.1, i, k.2.2))) c.indKeys (by
    intro k hk
    obtain ⟨j, hj⟩ := hel _ (hb.ind_placed k hk)
    exact ⟨(k.1, j, k.2.2), by simp only [hj]; rfl⟩)
  obtain ⟨a4, h4⟩ := hmap (fun k => (r.elem k.1).map (fun i => (i, k.2))) c.opKeys (by
    intro k hk
    obtain ⟨j, hj⟩ := hel _ (hb.op_placed k hk)
    exact ⟨(j, k.2), by simp only [hj]; rfl⟩)
  unfold rekey
  rw [h1, h2, h3, h4]
  exact ⟨_, rfl⟩

theorem deepCopy_succeeds {H : SHeap} {c : SCirc} (h1 : ∀ i ∈ c.reach H, (H.elem i).isLeaf = true)
    (h2 : ∀ l ∈ c.loops, H.loopIsLeaf l = true) : ∃ q, deepCopy true H c = .ok q := by
  unfold deepCopy
  rw [if_pos]
  · exact ⟨_, rfl⟩
  · simp only [Bool.not_true, Bool.false_or, Bool.and_eq_true, List.all_eq_true]
    exact ⟨h1, h2⟩

/-- the copies are leaf tensors, so is everything reachable if the attached capacitors are -/
theorem stage_leaf {H c els ls r H1} (s : Stage H c els ls r H1) (hb : Built H c) {c1 : SCirc}
    (hr : rekey c els ls r = .ok c1)
    (hc : ∀ i ∈ placed c, (H.elem i).kind ≠ .cap → (H.elem (H.elem i).cap).isLeaf = true) :
    (∀ i ∈ c1.reach H1, (H1.elem i).isLeaf = true) ∧ (∀ l ∈ c1.loops, H1.loopIsLeaf l = true) := by
  obtain ⟨k1, k2, -, -, -, -, k7⟩ := rekey_ok hr
  have hnew : ∀ j ∈ els.flatMap Prod.snd, ∃ i ∈ placed c, CopyOf r H H1 i j := by
    intro j hj
    obtain ⟨k, hk, rfl⟩ := List.getElem_of_mem hj
    have h3 := List.forall₂_iff_get.1 s.copies
    exact ⟨_, List.getElem_mem _, h3.2 k (by rw [h3.1]; exact hk) hk⟩
  have hcap : ∀ i ∈ placed c, (H.elem i).kind ≠ .cap → (H1.elem (H.elem i).cap).isLeaf = true := by
    intro i hi hk
    rw [s.old _ (hb.cap_lt i hi hk)]
    exact hc i hi hk
  have hleaf : ∀ j ∈ els.flatMap Prod.snd, (H1.elem j).isLeaf = true := by
    intro j hj
    obtain ⟨i, -, ls', -, he⟩ := hnew j hj
    rw [he]
  refine ⟨fun i hi => ?_, fun l hl => ?_⟩
  · unfold SCirc.reach at hi
    rw [k1, List.mem_append] at hi
    rcases hi with hi | hi
    · obtain ⟨j, hj, hi⟩ := List.mem_flatMap.1 hi
      split at hi
      · rename_i hind
        simp only [List.mem_cons, List.not_mem_nil, or_false] at hi
        rcases hi with rfl | rfl
        · exact hleaf _ hj
        · obtain ⟨i, hi, ls', -, he⟩ := hnew j hj
          rw [he] at hind ⊢
          exact hcap i hi ((inductive_iff _).1 hind)
      · simp only [List.mem_cons, List.not_mem_nil, or_false] at hi
        subst hi
        exact hleaf _ hj
    · rw [k7] at hi
      obtain ⟨i', hi', rfl⟩ := List.mem_map.1 hi
      by_cases hpl : i' ∈ placed c
      · obtain ⟨j, hj, hm⟩ := s.elem_mem i' hpl
        rw [hj]
        exact hleaf j (List.of_mem_zip hm).2
      · rw [s.elem_not i' hpl]
        rcases hb.partial_ok i' hi' with h | ⟨j, hj, hk, rfl⟩
        · exact absurd h hpl
        · exact hcap j hj hk
  · rw [k2] at hl
    obtain ⟨k, hk, rfl⟩ := List.getElem_of_mem hl
    have h3 := List.forall₂_iff_get.1 s.lcopies
    exact (h3.2 k (by rw [h3.1]; exact hk) hk).2

/-- The part of the claim about success that holds: under PyTorch, if every element among the
parameters is placed on an edge and the attached capacitors are leaf tensors; under NumPy always. -/
theorem C52_succeeds_partial (H : SHeap) (c : SCirc) (hb : Built H c) :
    (∃ q, safecopy false H c = .ok q) ∧
    ((∀ i, Comp.elem i ∈ c.params → i ∈ placed c) →
      (∀ i ∈ placed c, (H.elem i).kind ≠ .cap → (H.elem (H.elem i).cap).isLeaf = true) →
      ∃ q, safecopy true H c = .ok q) := by
  refine ⟨?_, fun hp hc => ?_⟩
  · unfold safecopy deepCopy
    simp
  · obtain ⟨els, ls, r, H1, s, hs⟩ := stage_exists hb
    obtain ⟨c1, hr⟩ := rekey_succeeds s hb hp
    obtain ⟨l1, l2⟩ := stage_leaf s hb hr hc
    obtain ⟨q, hq⟩ := deepCopy_succeeds l1 l2
    exact ⟨q, by rw [hs, hr]; exact hq⟩

theorem Stage.elem_at {H c els ls r H1} (s : Stage H c els ls r H1) (hn : (placed c).Nodup) (k : ℕ)
    (hk : k < (placed c).length) : r.elem (placed c)[k] = .ok (H.nextE + k) := by
  have hl : (els.flatMap Prod.snd).length = (placed c).length := by rw [s.ids]; simp
  unfold Repl.elem
  rw [s.relems, lookup_zip hl hn k hk]
  simp [s.ids]

/-- facts about the deep copy as a renaming -/
theorem deepCopy_renamed {torch : Bool} {H H' : SHeap} {c c' : SCirc}
    (h : deepCopy torch H c = .ok (H', c')) :
    Renamed (fun i => i + H.nextE) (fun l => l + H.nextL) c c' ∧
    ∀ i, H'.elem (i + H.nextE) = { H.elem i with
      cap := (H.elem i).cap + H.nextE, loops := (H.elem i).loops.map (fun l => l + H.nextL) } := by
  unfold deepCopy at h
  split at h
  · simp only [Except.ok.injEq, Prod.mk.injEq] at h
    obtain ⟨rfl, rfl⟩ := h
    have hlt : ∀ i n : ℕ, ¬ (i + n < n) := fun i n => by omega
    refine ⟨⟨rfl, rfl, ?_, rfl, rfl, rfl⟩, fun i => ?_⟩
    · apply List.map_congr_left
      intro k _
      cases k <;> rfl
    · simp only [hlt, if_false, Nat.add_sub_cancel]
  · cases h

/-- What happens to sharing under PyTorch: in the copy no element is placed twice, whatever the
original. (The claim is that sharing is preserved.) -/
theorem C52_sharing (H H' : SHeap) (c c' : SCirc) (hb : Built H c)
    (h : safecopy true H c = .ok (H', c')) : (placed c').Nodup := by
  obtain ⟨els, ls, r, H1, s, hs⟩ := stage_exists hb
  rw [hs] at h
  cases hr : rekey c els ls r with
  | error e => rw [hr] at h; cases h
  | ok c1 =>
    rw [hr] at h
    obtain ⟨k1, k2, -⟩ := rekey_ok hr
    obtain ⟨rn, -⟩ := deepCopy_renamed h
    have : placed c' = (els.flatMap Prod.snd).map (fun i => i + H1.nextE) := by
      unfold placed
      rw [rn.elements, k1, List.flatMap_map, List.map_flatMap]
    rw [this]
    refine List.Nodup.map (fun a b hab => Nat.add_right_cancel hab) ?_
    rw [s.ids]
    exact List.nodup_range' ..

theorem forall₂_map {α β : Type*} {R : α → β → Prop} {f : α → β} {l : List α} {l' : List β}
    (h : List.Forall₂ R l l') (hf : ∀ a ∈ l, ∀ b, R a b → f a = b) : l' = l.map f := by
  induction h with
  | nil => rfl
  | cons h t ih =>
    rename_i a b l1 l2
    rw [List.map_cons, hf a (by simp) b h, ← ih (fun x hx => hf x (by simp [hx]))]

theorem mapM_rename {f : LoopId → Except PyErr LoopId} {g : LoopId → LoopId} {l l' : List LoopId}
    (h : l.mapM f = .ok l') (hg : ∀ x ∈ l, ∀ y, f x = .ok y → g x = y) : l' = l.map g :=
  forall₂_map (mapM_ok.1 h) hg

theorem edges_map (f : ElemId → ElemId) : ∀ {es es' : Elements},
    List.Forall₂ (fun p q => q.1 = p.1 ∧ q.2.length = p.2.length) es es' →
    es'.flatMap Prod.snd = (es.flatMap Prod.snd).map f →
    es' = es.map (fun p => (p.1, p.2.map f)) := by
  intro es es' h he
  have := edges_view (V := ElemId) f id h (by simpa using he)
  simpa using this

/-- If every element object is placed once, the copy under PyTorch is the original with all elements
and loops replaced one-to-one by new objects, in its edges, loops, parameters and keys, and in the
elements' own references to loops and (shared) attached capacitors. -/
theorem C52_sharing_partial (H H' : SHeap) (c c' : SCirc) (hb : Built H c) (hn : (placed c).Nodup)
    (h : safecopy true H c = .ok (H', c')) :
    ∃ fe fl, Renamed fe fl c c' ∧
      (∀ i ∈ placed c, ∀ j ∈ placed c, fe i = fe j → i = j) ∧
      (∀ l ∈ c.loops, ∀ m ∈ c.loops, fl l = fl m → l = m) ∧
      (∀ i ∈ placed c, (H.elem i).kind ≠ .cap → (H'.elem (fe i)).loops = (H.elem i).loops.map fl) ∧
      (∀ i ∈ placed c, ∀ j ∈ placed c, (H.elem i).kind ≠ .cap → (H.elem j).kind ≠ .cap →
        ((H'.elem (fe i)).cap = (H'.elem (fe j)).cap ↔ (H.elem i).cap = (H.elem j).cap)) := by
  obtain ⟨els, ls, r, H1, s, hs⟩ := stage_exists hb
  rw [hs] at h
  cases hr : rekey c els ls r with
  | error e => rw [hr] at h; cases h
  | ok c1 =>
    rw [hr] at h
    obtain ⟨k1, k2, k3, k4, k5, k6, -⟩ := rekey_ok hr
    obtain ⟨rn, hel⟩ := deepCopy_renamed h
    set ge : ElemId → ElemId := fun i => (r.elems.lookup i).getD 0 with hge
    set gl : LoopId → LoopId := fun l => (r.loops.lookup l).getD 0 with hgl
    have hge' : ∀ i j, r.elem i = .ok j → ge i = j := by
      intro i j hij
      unfold Repl.elem at hij
      split at hij
      · rename_i x hx
        injection hij with hij
        simp [hge, hx, hij]
      · cases hij
    have hgl' : ∀ l m, r.loop l = .ok m → gl l = m := by
      intro l m hlm
      unfold Repl.loop at hlm
      split at hlm
      · rename_i x hx
        injection hlm with hlm
        simp [hgl, hx, hlm]
      · cases hlm
    have hgek : ∀ k (hk : k < (placed c).length), ge (placed c)[k] = H.nextE + k :=
      fun k hk => hge' _ _ (s.elem_at hn k hk)
    have hglk : ∀ k (hk : k < c.loops.length), gl c.loops[k] = H.nextL + k :=
      fun k hk => hgl' _ _ (s.loop hb k hk)
    have hids : els.flatMap Prod.snd = (placed c).map ge := by
      rw [s.ids]
      apply List.ext_getElem
      · simp
      · intro k a1 a2
        simp only [List.getElem_map]
        rw [hgek k (by simpa using a2)]
        simp
    have hels : els = c.elements.map (fun p => (p.1, p.2.map ge)) := edges_map ge s.shape hids
    have hls : ls = c.loops.map gl := by
      rw [s.lids]
      apply List.ext_getElem
      · simp
      · intro k a1 a2
        simp only [List.getElem_map]
        rw [hglk k (by simpa using a2)]
        simp
    have hcopy : ∀ i ∈ placed c, CopyOf r H H1 i (ge i) := by
      intro i hi
      obtain ⟨k, hk, rfl⟩ := List.getElem_of_mem hi
      have h3 := (List.forall₂_iff_get.1 s.copies)
      have := h3.2 k hk (by rw [← h3.1]; exact hk)
      simp only [List.get_eq_getElem] at this
      rw [hgek k hk]
      simpa [s.ids] using this
    refine ⟨fun i => ge i + H1.nextE, fun l => gl l + H1.nextL, ?_, ?_, ?_, ?_, ?_⟩
    · refine ⟨?_, ?_, ?_, ?_, ?_, ?_⟩
      · rw [rn.elements, k1, hels, List.map_map]
        apply List.map_congr_left
        intro p _
        simp [Function.comp_def]
      · rw [rn.loops, k2, hls, List.map_map]
        rfl
      · rw [rn.params, forall₂_map (f := fun k => match k with
          | .elem i => Comp.elem (ge i)
          | .loop l => Comp.loop (gl l)) k3, List.map_map]
        · apply List.map_congr_left
          intro k _
          cases k <;> rfl
        · intro a _ b hab
          cases a with
          | elem i =>
            simp only [Repl.comp] at hab
            cases hi : r.elem i with
            | error e => rw [hi] at hab; cases hab
            | ok j =>
              rw [hi] at hab
              rw [← Except.ok.inj hab, ← hge' i j hi]
          | loop l =>
            simp only [Repl.comp] at hab
            cases hi : r.loop l with
            | error e => rw [hi] at hab; cases hab
            | ok j =>
              rw [hi] at hab
              rw [← Except.ok.inj hab, ← hgl' l j hi]
      · rw [rn.junKeys, forall₂_map (f := fun k => (k.1, ge k.2.1, k.2.2)) k4, List.map_map]
        · rfl
        · intro a _ b hab
          cases hi : r.elem a.2.1 with
          | error e => rw [hi] at hab; cases hab
          | ok j =>
            rw [hi] at hab
            rw [← Except.ok.inj hab, hge' _ j hi]
      · rw [rn.indKeys, forall₂_map (f := fun k => (k.1, ge k.2.1, k.2.2)) k5, List.map_map]
        · rfl
        · intro a _ b hab
          cases hi : r.elem a.2.1 with
          | error e => rw [hi] at hab; cases hab
          | ok j =>
            rw [hi] at hab
            rw [← Except.ok.inj hab, hge' _ j hi]
      · rw [rn.opKeys, forall₂_map (f := fun k => (ge k.1, k.2)) k6, List.map_map]
        · rfl
        · intro a _ b hab
          cases hi : r.elem a.1 with
          | error e => rw [hi] at hab; cases hab
          | ok j =>
            rw [hi] at hab
            rw [← Except.ok.inj hab, hge' _ j hi]
    · intro i hi j hj hij
      obtain ⟨k, hk, rfl⟩ := List.getElem_of_mem hi
      obtain ⟨k', hk', rfl⟩ := List.getElem_of_mem hj
      simp only [hgek k hk, hgek k' hk'] at hij
      have : k = k' := Nat.add_left_cancel (Nat.add_right_cancel hij)
      subst this
      rfl
    · intro l hl m hm hlm
      obtain ⟨k, hk, rfl⟩ := List.getElem_of_mem hl
      obtain ⟨k', hk', rfl⟩ := List.getElem_of_mem hm
      simp only [hglk k hk, hglk k' hk'] at hlm
      have : k = k' := Nat.add_left_cancel (Nat.add_right_cancel hlm)
      subst this
      rfl
    · intro i hi hk
      obtain ⟨ls', hl', he⟩ := hcopy i hi
      rw [if_pos ((inductive_iff _).2 hk)] at hl'
      simp only
      rw [hel, he]
      simp only
      rw [mapM_rename hl' (fun x _ y hxy => hgl' x y hxy), List.map_map]
      rfl
    · intro i hi j hj _ _
      obtain ⟨_, _, hei⟩ := hcopy i hi
      obtain ⟨_, _, hej⟩ := hcopy j hj
      simp only
      rw [hel, hel, hei, hej]
      simp only
      exact ⟨fun hh => Nat.add_right_cancel hh, fun hh => by rw [hh]⟩

/-! ### Circuits as the constructor leaves them -/

/-- objects of a heap, for the traversal -/
def SHeap.objs (H : SHeap) : Objs := ⟨H.elem, H.loopValue, H.loopReqGrad, H.loopIsLeaf⟩

theorem mem_placed_iff {c : SCirc} {i : ElemId} :
    i ∈ placed c ↔ ∃ q ∈ placements c.elements, q.2 = i := by
  simp only [placed, placements, List.mem_flatMap, List.mem_map]
  constructor
  · rintro ⟨p, hp, hi⟩
    exact ⟨(p.1, i), ⟨p, hp, i, hi, rfl⟩, rfl⟩
  · rintro ⟨q, ⟨p, hp, j, hj, rfl⟩, rfl⟩
    exact ⟨p, hp, hj⟩

/-- The circuit object after a traversal of its elements is `Built` (operators in memory and
sensitivities being those of its components). -/
theorem built_of_traverse {torch : Bool} {fd : FluxDist} {H : SHeap} {n : ℕ} {h : LoopId → LoopObj}
    {els : Elements} (hv : ValidElements n els) {a : Acc n}
    (ha : traverse torch fd H.objs n h els = .ok a)
    (hlt : ∀ q ∈ placements els, q.2 < H.nextE ∧ ((H.elem q.2).kind ≠ .cap →
      (H.elem q.2).cap < H.nextE ∧ ∀ l ∈ (H.elem q.2).loops, l < H.nextL))
    (opKeys : List (ElemId × ℕ)) (hop : ∀ k ∈ opKeys, ∃ q ∈ placements els, q.2 = k.1)
    (partials : List ElemId)
    (hpa : ∀ i ∈ partials, ∃ q ∈ placements els, Comp.elem i ∈ brings H.objs q.2) :
    Built H ⟨els, a.st.loops, a.st.params.map Prod.fst, a.st.junKeys, a.st.indKeys, opKeys,
      partials⟩ := by
  obtain ⟨hl1, hl2, -⟩ := C19_loop_membership torch fd H.objs n h els hv a ha
  obtain ⟨hi, -⟩ := traverse_inv hv ha
  have hind : ∀ q : APl, q ∈ indOf H.objs (annotate H.objs 0 els) → (q.1, q.2.1) ∈ placements els := by
    intro q hq
    rw [← annotate_forget H.objs 0 els]
    exact List.mem_map.2 ⟨q, List.mem_of_mem_filter hq, rfl⟩
  have hlm : ∀ l, l ∈ a.st.loops ↔ ∃ q ∈ placements els, (H.elem q.2).kind ≠ .cap ∧
      l ∈ (H.elem q.2).loops := by
    intro l
    rw [hl1, mem_firstUses]
    simp only [loopUses, numbered, List.mem_map, List.mem_flatMap]
    constructor
    · rintro ⟨u, ⟨q, hq, l', hl', rfl⟩, rfl⟩
      have hm : q.1 ∈ inductivePlacements H.objs els := by
        obtain ⟨q1, q2⟩ := q
        rw [List.mem_zipIdx_iff_getElem?] at hq
        exact List.mem_of_getElem? hq
      obtain ⟨h1, h2⟩ := List.mem_filter.1 hm
      exact ⟨q.1, h1, of_decide_eq_true h2, hl'⟩
    · rintro ⟨q, hq, hk, hl'⟩
      have hm : q ∈ inductivePlacements H.objs els :=
        List.mem_filter.2 ⟨hq, decide_eq_true hk⟩
      obtain ⟨k, hk', rfl⟩ := List.getElem_of_mem hm
      refine ⟨_, ⟨((inductivePlacements H.objs els)[k], k), ?_, l, hl', rfl⟩, rfl⟩
      rw [List.mem_zipIdx_iff_getElem?]
      simp [hk']
  have hbr : ∀ (q : Edge × ElemId) (i : ElemId), q ∈ placements els → Comp.elem i ∈ brings H.objs q.2 →
      i ∈ placed (⟨els, a.st.loops, a.st.params.map Prod.fst, a.st.junKeys, a.st.indKeys, opKeys,
        partials⟩ : SCirc) ∨ ∃ j ∈ placed (⟨els, a.st.loops, a.st.params.map Prod.fst, a.st.junKeys,
          a.st.indKeys, opKeys, partials⟩ : SCirc), (H.elem j).kind ≠ .cap ∧ i = (H.elem j).cap := by
    intro q i hq hb
    have hqp : q.2 ∈ placed (⟨els, a.st.loops, a.st.params.map Prod.fst, a.st.junKeys, a.st.indKeys,
        opKeys, partials⟩ : SCirc) := mem_placed_iff.2 ⟨q, hq, rfl⟩
    unfold brings at hb
    split at hb
    · simp only [List.mem_cons, Comp.elem.injEq, List.not_mem_nil, or_false] at hb
      subst hb
      exact Or.inl hqp
    · rename_i hk
      simp only [List.mem_cons, List.mem_append, List.mem_map, reduceCtorEq, and_false, exists_false,
        false_or, Comp.elem.injEq, List.not_mem_nil, or_false] at hb
      rcases hb with hb | hb
      · exact Or.inr ⟨q.2, hqp, hk, hb⟩
      · subst hb
        exact Or.inl hqp
  have hpar : ∀ k, k ∈ a.st.params.map Prod.fst → ∃ q ∈ placements els, k ∈ brings H.objs q.2 := by
    intro k hk
    cases torch with
    | false => rw [C50_parameters_numpy _ _ _ _ _ hv a ha] at hk; simp at hk
    | true => exact (((C50_parameters _ _ _ _ _ hv a ha).1 k).1 hk).2
  refine ⟨?_, ?_, ?_, ?_, hl2, ?_, ?_, ?_, ?_, ?_, ?_⟩
  · intro i hi'
    obtain ⟨q, hq, rfl⟩ := mem_placed_iff.1 hi'
    exact (hlt q hq).1
  · intro i hi' hk
    obtain ⟨q, hq, rfl⟩ := mem_placed_iff.1 hi'
    exact ((hlt q hq).2 hk).1
  · intro i hi' hk l hl
    obtain ⟨q, hq, rfl⟩ := mem_placed_iff.1 hi'
    exact (hlm l).2 ⟨q, hq, hk, hl⟩
  · intro l hl
    obtain ⟨q, hq, hk, hl'⟩ := (hlm l).1 hl
    exact ((hlt q hq).2 hk).2 l hl'
  · intro k hk
    simp only [hi.junKeys] at hk
    obtain ⟨q, hq, rfl⟩ := List.mem_map.1 hk
    obtain ⟨q1, q2⟩ := q
    have hq := List.mem_of_mem_filter hq
    rw [List.mem_zipIdx_iff_getElem?] at hq
    exact mem_placed_iff.2 ⟨_, hind _ (List.mem_of_getElem? hq), rfl⟩
  · intro k hk
    simp only [hi.indKeys] at hk
    obtain ⟨q, hq, rfl⟩ := List.mem_map.1 hk
    obtain ⟨q1, q2⟩ := q
    have hq := List.mem_of_mem_filter hq
    rw [List.mem_zipIdx_iff_getElem?] at hq
    exact mem_placed_iff.2 ⟨_, hind _ (List.mem_of_getElem? hq), rfl⟩
  · intro k hk
    exact mem_placed_iff.2 (hop k hk)
  · intro i hi'
    obtain ⟨q, hq, hb⟩ := hpar _ hi'
    exact hbr q i hq hb
  · intro l hl
    obtain ⟨q, hq, hb⟩ := hpar _ hl
    unfold brings at hb
    split at hb
    · simp at hb
    · rename_i hk
      simp only [List.mem_cons, List.mem_append, List.mem_map, reduceCtorEq, Comp.loop.injEq,
        exists_eq_right, false_or, or_false, List.not_mem_nil] at hb
      exact (hlm l).2 ⟨q, hq, hk, hb⟩
  · intro i hi'
    obtain ⟨q, hq, hb⟩ := hpa i hi'
    exact hbr q i hq hb

/-! ### Refutations -/

/-- A junction (0) with attached capacitor (1), the capacitor needing gradients if `rg`. -/
def cpHeap (rg : Bool) : SHeap where
  elem := fun i => if i = 0 then ⟨.jj, 1, 1, [], false, true⟩ else ⟨.cap, 1, 0, [], rg, true⟩
  loopValue := fun _ => 0
  loopReqGrad := fun _ => false
  loopIsLeaf := fun _ => true
  nextE := 2
  nextL := 0

theorem cp_traverse (rg : Bool) (els : Elements) (n : ℕ) (hv : ValidElements n els)
    (h : LoopId → LoopObj) : ∃ a, traverse true .junctions (cpHeap rg).objs n h els = .ok a := by
  refine buildEdges_succeeds true .junctions hv ?_ (initAcc n h)
  intro p _ i _ hk
  simp only [SHeap.objs, cpHeap] at hk
  split at hk <;> cases hk

/-- The circuit `{(0,1): [Junction(cap=Capacitor(..., requires_grad=True))]}`, as constructed under
PyTorch: `safecopy` raises KeyError. -/
theorem C52_refuted (h : LoopId → LoopObj) : ∃ a,
    traverse true .junctions (cpHeap true).objs 1 h [((0, 1), [0])] = .ok a ∧
    safecopy true (cpHeap true) ⟨[((0, 1), [0])], a.st.loops, a.st.params.map Prod.fst, a.st.junKeys,
      a.st.indKeys, [], []⟩ = .error .keyError := by
  have hv : ValidElements 1 [((0, 1), [0])] := by
    intro p hp
    simp at hp
    subst hp
    simp [ValidEdge]
  obtain ⟨a, ha⟩ := cp_traverse true _ 1 hv h
  refine ⟨a, ha, ?_⟩
  have hb := built_of_traverse hv ha (by simp [placements, cpHeap]) [] (by simp) [] (by simp)
  refine C52_fails _ _ hb 1 ?_ ?_
  · rw [(C50_parameters _ _ _ _ _ hv a ha).1]
    simp [placements, brings, Tracked, SHeap.objs, cpHeap]
  · simp [placed]

/-- The circuit `{(0,1): [J], (0,2): [J]}` with one junction object on both edges: the copy has two
junction objects. -/
theorem C52_sharing_refuted (h : LoopId → LoopObj) : ∃ a,
    traverse true .junctions (cpHeap false).objs 2 h [((0, 1), [0]), ((0, 2), [0])] = .ok a ∧
    ∃ H' c' i j, safecopy true (cpHeap false) ⟨[((0, 1), [0]), ((0, 2), [0])], a.st.loops,
      a.st.params.map Prod.fst, a.st.junKeys, a.st.indKeys, [], []⟩ = .ok (H', c') ∧
      c'.elements = [((0, 1), [i]), ((0, 2), [j])] ∧ i ≠ j := by
  have hv : ValidElements 2 [((0, 1), [0]), ((0, 2), [0])] := by
    intro p hp
    simp at hp
    rcases hp with rfl | rfl <;> simp [ValidEdge]
  obtain ⟨a, ha⟩ := cp_traverse false _ 2 hv h
  refine ⟨a, ha, ?_⟩
  have hb := built_of_traverse hv ha (by simp [placements, cpHeap]) [] (by simp) [] (by simp)
  obtain ⟨⟨H', c'⟩, hq⟩ := (C52_succeeds_partial _ _ hb).2 (by
    intro i hi
    have := ((C50_parameters _ _ _ _ _ hv a ha).1 _).1 hi
    obtain ⟨ht, q, hq, -⟩ := this
    exfalso
    simp only [Tracked, SHeap.objs, cpHeap] at ht
    split at ht <;> simp at ht) (by
    intro i _ _
    simp only [cpHeap]
    split <;> rfl)
  have hview := congrArg Prod.fst (C52_values true _ _ _ _ hb hq)
  have hsh := C52_sharing _ _ _ _ hb hq
  simp only [view, List.map_cons, List.map_nil] at hview
  refine ⟨H', c', ?_⟩
  rcases hc : c'.elements with _ | ⟨⟨e1, is1⟩, _ | ⟨⟨e2, is2⟩, _ | ⟨x, xs⟩⟩⟩
  · rw [hc] at hview; simp at hview
  · rw [hc] at hview; simp at hview
  · rw [hc] at hview
    simp only [List.map_cons, List.map_nil, List.cons.injEq, Prod.mk.injEq, and_true] at hview
    obtain ⟨⟨rfl, h1⟩, rfl, h2⟩ := hview
    rcases is1 with _ | ⟨i, _ | ⟨y, ys⟩⟩
    · simp at h1
    · rcases is2 with _ | ⟨j, _ | ⟨z, zs⟩⟩
      · simp at h2
      · refine ⟨i, j, hq, rfl, ?_⟩
        unfold placed at hsh
        rw [hc] at hsh
        simpa using hsh
      · simp at h2
    · simp at h1
  · rw [hc] at hview; simp at hview

/-- hypotheses of the theorems above: the constructed circuit with the junction on one edge -/
example (h : LoopId → LoopObj) : ∃ (a : Acc 1) (c : SCirc),
    traverse true .junctions (cpHeap false).objs 1 h [((0, 1), [0])] = .ok a ∧
    c.elements = [((0, 1), [0])] ∧ c.junKeys = a.st.junKeys ∧
    Built (cpHeap false) c ∧ (placed c).Nodup ∧ ∃ q, safecopy true (cpHeap false) c = .ok q := by
  have hv : ValidElements 1 [((0, 1), [0])] := by
    intro p hp
    simp at hp
    subst hp
    simp [ValidEdge]
  obtain ⟨a, ha⟩ := cp_traverse false _ 1 hv h
  have hb := built_of_traverse hv ha (by simp [placements, cpHeap]) [] (by simp) [] (by simp)
  refine ⟨a, _, ha, rfl, rfl, hb, by simp [placed], (C52_succeeds_partial _ _ hb).2 ?_ ?_⟩
  · intro i hi
    obtain ⟨ht, q, hq, -⟩ := ((C50_parameters _ _ _ _ _ hv a ha).1 _).1 hi
    exfalso
    simp only [Tracked, SHeap.objs, cpHeap] at ht
    split at ht <;> simp at ht
  · intro i _ _
    simp only [cpHeap]
    split <;> rfl

/-! ## C53 -/

theorem attrs_get_set {α : Type*} (d : Attrs α) (k k' : String) (v : PyVal α) :
    Attrs.get (Attrs.set d k v) k' = if k' = k then some v else Attrs.get d k' := by
  unfold Attrs.set Attrs.get
  by_cases h : (d.map Prod.fst).contains k = true
  · rw [if_pos h]
    replace h := List.contains_iff_mem.1 h
    induction d with
    | nil => simp at h
    | cons p d ih =>
      obtain ⟨x, y⟩ := p
      by_cases hx : x = k
      · subst hx
        by_cases hk : k' = x
        · subst hk; simp
        · rw [if_neg hk]
          simp only [List.map_cons, if_true]
          rw [List.lookup_cons, List.lookup_cons, beq_eq_false_iff_ne.2 hk]
          simp only
          by_cases hm : x ∈ d.map Prod.fst
          · have := ih hm
            rw [if_neg hk] at this
            exact this
          · congr 1
            have : ∀ p ∈ d, (fun p => if p.1 = x then (x, v) else p) p = id p := by
              intro p hp
              have : p.1 ≠ x := fun hh => hm (List.mem_map.2 ⟨p, hp, hh⟩)
              simp [this]
            rw [List.map_congr_left this, List.map_id]
      · have hm : k ∈ d.map Prod.fst := by
          simp only [List.map_cons, List.mem_cons] at h
          exact h.resolve_left (fun hh => hx hh.symm)
        simp only [List.map_cons, hx, if_false]
        rw [List.lookup_cons, List.lookup_cons]
        by_cases hk : k' = x
        · subst hk; simp [hx]
        · rw [beq_eq_false_iff_ne.2 hk]
          exact ih hm
  · rw [if_neg h]
    have h : k ∉ d.map Prod.fst := fun hh => h (List.contains_iff_mem.2 hh)
    rw [List.lookup_append]
    by_cases hk : k' = k
    · subst hk
      have : d.lookup k' = none := by
        by_contra hne
        exact h (lookup_isSome.1 (Option.ne_none_iff_isSome.1 hne))
      simp [this]
    · rw [if_neg hk]
      have : List.lookup k' [(k, v)] = none := by
        rw [List.lookup_cons, beq_eq_false_iff_ne.2 hk]; rfl
      rw [this]
      simp

theorem attrs_get_filter {α : Type*} (d : Attrs α) (avoid : List String) (k : String) :
    Attrs.get (d.filter (fun p => !avoid.contains p.1)) k =
      if k ∈ avoid then none else Attrs.get d k := by
  unfold Attrs.get
  induction d with
  | nil => simp
  | cons p d ih =>
    obtain ⟨x, y⟩ := p
    by_cases hx : x ∈ avoid
    · rw [List.filter_cons_of_neg (by simpa using hx), ih]
      by_cases hk : k ∈ avoid
      · simp [hk]
      · have : k ≠ x := fun h => hk (h ▸ hx)
        rw [if_neg hk, if_neg hk, List.lookup_cons, beq_eq_false_iff_ne.2 this]
    · rw [List.filter_cons_of_pos (by simpa using hx), List.lookup_cons, List.lookup_cons]
      by_cases hk : k = x
      · subst hk; simp [hx]
      · rw [beq_eq_false_iff_ne.2 hk]
        exact ih

/-- the attributes a reduced pickle leaves out -/
def cacheAttrs : List String := ["_memory_ops", "_LC_hamil"]

/-- Pickling a circuit itself keeps all attributes. -/
theorem C53_full {α : Type*} (d : Attrs α) (hf : d.get "_toggle_fullcopy" = some (.bool true)) :
    ∃ q, loadDumped d = .ok q ∧ ∀ k, Attrs.get q k = Attrs.get d k := by
  refine ⟨setState (d.filter (fun p => !([] : List String).contains p.1)), ?_, fun k => ?_⟩
  · unfold loadDumped getState
    rw [hf]
    rfl
  · unfold setState
    rw [attrs_get_set, attrs_get_filter]
    by_cases hk : k = "_toggle_fullcopy"
    · subst hk; simp [hf]
    · simp [hk]

/-- `picklecopy` has the attributes of the circuit, except that its flag is off; loaded from a pickle
it has all attributes (with the flag on again) except the operator caches; pickled once more it keeps
all it has. -/
theorem C53_picklecopy {α : Type*} (d : Attrs α)
    (hf : d.get "_toggle_fullcopy" = some (.bool true)) :
    ∃ p q q', picklecopy d = .ok p ∧
      (∀ k, Attrs.get p k = if k = "_toggle_fullcopy" then some (.bool false) else Attrs.get d k) ∧
      loadDumped p = .ok q ∧
      (∀ k, Attrs.get q k = if k ∈ cacheAttrs then none else Attrs.get d k) ∧
      loadDumped q = .ok q' ∧ ∀ k, Attrs.get q' k = Attrs.get q k := by
  obtain ⟨c, hc, hget⟩ := C53_full d hf
  have hp : ∀ k, Attrs.get (Attrs.set c "_toggle_fullcopy" (.bool false)) k =
      if k = "_toggle_fullcopy" then some (.bool false) else Attrs.get d k := by
    intro k
    rw [attrs_get_set, hget]
  have hq : ∀ k, Attrs.get (setState ((Attrs.set c "_toggle_fullcopy" (.bool false)).filter
      (fun p => !cacheAttrs.contains p.1))) k = if k ∈ cacheAttrs then none else Attrs.get d k := by
    intro k
    unfold setState
    rw [attrs_get_set, attrs_get_filter, hp]
    by_cases hk : k = "_toggle_fullcopy"
    · subst hk; simp [hf, cacheAttrs]
    · simp [hk]
  obtain ⟨q', h1, h2⟩ := C53_full (setState ((Attrs.set c "_toggle_fullcopy" (.bool false)).filter
      (fun p => !cacheAttrs.contains p.1))) (by rw [hq]; simp [cacheAttrs, hf])
  refine ⟨_, _, q', ?_, hp, ?_, hq, h1, h2⟩
  · unfold picklecopy copyObj
    unfold loadDumped at hc
    rw [hc]
    rfl
  · unfold loadDumped getState
    rw [hp]
    rfl

/-- a circuit with a cache -/
example : (Attrs.get ([("n", .other 1), ("_memory_ops", .other 2), ("_toggle_fullcopy", .bool true)] :
    Attrs ℕ) "_toggle_fullcopy") = some (.bool true) := by
  simp [Attrs.get, List.lookup]

/-- the circuit without `_memory_ops` and `_LC_hamil` -/
def World.withoutCaches {P : Phys} (w : World P) : World P :=
  { w with circ := { w.circ with mem := none, exp := none, lc := none, trig := none } }

/-- Calling `update()` on a circuit loaded without caches does what it does on the original: same
outcome and, if it succeeds, the same circuit, with all operators present. -/
theorem C53_update {P : Phys} (w : World P) :
    (update w.withoutCaches).1 = (update w).1 ∧
    ((update w).1 = .ok () → (update w.withoutCaches).2 = (update w).2 ∧
      (update w.withoutCaches).2.circ.mem.isSome ∧ (update w.withoutCaches).2.circ.exp.isSome ∧
      (update w.withoutCaches).2.circ.lc.isSome) := by
  unfold update
  simp only [World.withoutCaches]
  cases h : P.rebuild (P.nModes w.circ.bd) w.vals with
  | error e => simp
  | ok bd =>
    simp only
    unfold Circ.buildOps
    simp only
    split
    · rename_i e he
      split at he
      · simp
      · cases he
    · rename_i c hc
      refine ⟨trivial, fun _ => ⟨trivial, ?_⟩⟩
      split at hc
      · cases hc
      · have hc := Except.ok.inj hc
        subst hc
        simp

/-- Before that, anything that needs the operators raises AttributeError. -/
theorem C53_needs_update {P : Phys} (w : World P) (hm : w.circ.m ≠ []) (k : ℤ) :
    (hamiltonian w.withoutCaches).1 = .error .attributeError ∧
    (diag (some k) w.withoutCaches).1 = .error .attributeError := by
  have h1 : (hamiltonian w.withoutCaches) = (.error .attributeError, w.withoutCaches) := by
    unfold hamiltonian
    rw [if_neg (by simpa [World.withoutCaches] using hm)]
    rfl
  refine ⟨by rw [h1], ?_⟩
  unfold diag
  rw [if_neg (by simpa [World.withoutCaches] using hm)]
  simp only [diagNp, h1]

end SQ
