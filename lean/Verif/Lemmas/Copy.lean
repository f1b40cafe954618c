import Verif.Model.Copy
import Mathlib.Data.List.Nodup
import Mathlib.Data.List.Basic

/-! # Lemmas about `safecopy` -/

namespace SQ

/-- heap parts other than elements agree -/
def SameLoops (H H' : SHeap) : Prop :=
  H'.loopValue = H.loopValue ∧ H'.loopReqGrad = H.loopReqGrad ∧ H'.loopIsLeaf = H.loopIsLeaf ∧
    H'.nextL = H.nextL

/-- `j` is the copy of `i` made with loop replacements `r` -/
def CopyOf (r : Repl) (H H' : SHeap) (i j : ElemId) : Prop :=
  ∃ ls, (if (H.elem i).inductive then (H.elem i).loops.mapM r.loop else .ok (H.elem i).loops) = .ok ls ∧
    H'.elem j = { H.elem i with loops := ls, reqGrad := false, isLeaf := true }

theorem copyElem_spec {i : ElemId} {r : Repl} {H : SHeap} {j : ElemId} {r' : Repl} {H' : SHeap}
    (h : copyElem i r H = .ok (j, r', H')) :
    j = H.nextE ∧ r' = { r with elems := (i, H.nextE) :: r.elems } ∧ H'.nextE = H.nextE + 1 ∧
    SameLoops H H' ∧ (∀ k, k ≠ H.nextE → H'.elem k = H.elem k) ∧ CopyOf r H H' i j := by
  unfold copyElem at h
  simp only at h
  split at h
  · cases h
  · rename_i ls hls
    simp only [Except.ok.injEq, Prod.mk.injEq] at h
    obtain ⟨rfl, rfl, rfl⟩ := h
    refine ⟨rfl, rfl, rfl, ⟨rfl, rfl, rfl, rfl⟩, fun k hk => ?_, ls, hls, ?_⟩
    · simp [Function.update_of_ne hk]
    · simp

/-- the state after copying the elements `is` -/
structure CopiedAll (r : Repl) (H : SHeap) (is js : List ElemId) (r' : Repl) (H' : SHeap) : Prop where
  ids : js = List.range' H.nextE is.length
  loops : r'.loops = r.loops
  elems : r'.elems = (is.zip js).reverse ++ r.elems
  next : H'.nextE = H.nextE + is.length
  same : SameLoops H H'
  old : ∀ i, i < H.nextE → H'.elem i = H.elem i
  copies : (∀ i ∈ is, i < H.nextE) → List.Forall₂ (CopyOf r H H') is js

theorem copiedAll_append {r H is js r' H' is2 js2 r2 H2}
    (h1 : CopiedAll r H is js r' H') (h2 : CopiedAll r' H' is2 js2 r2 H2) :
    CopiedAll r H (is ++ is2) (js ++ js2) r2 H2 := by
  have hlen : js.length = is.length := by rw [h1.ids]; simp
  refine ⟨?_, h2.loops.trans h1.loops, ?_, ?_, ?_, ?_, ?_⟩
  · rw [h1.ids, h2.ids, h1.next, List.length_append]
    have := List.range'_append (s := H.nextE) (m := is.length) (n := is2.length) (step := 1)
    rw [Nat.one_mul] at this
    exact this
  · rw [h2.elems, h1.elems, List.zip_append hlen.symm]
    simp
  · rw [h2.next, h1.next, List.length_append, Nat.add_assoc]
  · obtain ⟨a, b, c, d⟩ := h1.same
    obtain ⟨a', b', c', d'⟩ := h2.same
    exact ⟨a'.trans a, b'.trans b, c'.trans c, d'.trans d⟩
  · intro i hi
    rw [h2.old i (by rw [h1.next]; exact Nat.lt_add_right _ hi), h1.old i hi]
  · intro hlt
    have hrl : r'.loop = r.loop := by
      funext l; unfold Repl.loop; rw [h1.loops]
    refine List.rel_append ?_ ?_
    · have := h1.copies (fun i hi => hlt i (List.mem_append_left _ hi))
      have hjs : ∀ j ∈ js, j < H'.nextE := by
        intro j hj
        rw [h1.ids, List.mem_range'_1] at hj
        rw [h1.next]; exact hj.2
      clear hlen
      have h3 := List.forall₂_iff_get.1 this
      refine List.forall₂_iff_get.2 ⟨h3.1, fun k hk1 hk2 => ?_⟩
      obtain ⟨ls, hl, he⟩ := h3.2 k hk1 hk2
      exact ⟨ls, hl, by rw [h2.old _ (hjs _ (List.get_mem _ _)), he]⟩
    · have := h2.copies (fun i hi => by
        have := hlt i (List.mem_append_right _ hi)
        rw [h1.next]; exact Nat.lt_add_right _ this)
      have h3 := List.forall₂_iff_get.1 this
      refine List.forall₂_iff_get.2 ⟨h3.1, fun k hk1 hk2 => ?_⟩
      obtain ⟨ls, hl, he⟩ := h3.2 k hk1 hk2
      have ho := h1.old _ (hlt _ (List.mem_append_right _ (List.get_mem is2 ⟨k, hk1⟩)))
      rw [ho, hrl] at hl
      rw [ho] at he
      exact ⟨ls, hl, he⟩

theorem copiedAll_nil (r : Repl) (H : SHeap) : CopiedAll r H [] [] r H :=
  ⟨rfl, rfl, rfl, rfl, ⟨rfl, rfl, rfl, rfl⟩, fun _ _ => rfl, fun _ => List.Forall₂.nil⟩

theorem copiedAll_single {i r H j r' H'} (h : copyElem i r H = .ok (j, r', H')) :
    CopiedAll r H [i] [j] r' H' := by
  obtain ⟨rfl, rfl, h3, h4, h5, h6⟩ := copyElem_spec h
  refine ⟨rfl, rfl, rfl, h3, h4, fun k hk => h5 k (Nat.ne_of_lt hk), fun _ => ?_⟩
  exact List.Forall₂.cons h6 List.Forall₂.nil

theorem copyElems_spec : ∀ (is : List ElemId) (r : Repl) (H : SHeap) {js r' H'},
    copyElems is r H = .ok (js, r', H') → CopiedAll r H is js r' H'
  | [], r, H, js, r', H', h => by
    simp only [copyElems, Except.ok.injEq, Prod.mk.injEq] at h
    obtain ⟨rfl, rfl, rfl⟩ := h
    exact copiedAll_nil _ _
  | i :: is, r, H, js, r', H', h => by
    simp only [copyElems] at h
    split at h
    · cases h
    · rename_i j r1 H1 h1
      split at h
      · cases h
      · rename_i js2 r2 H2 h2
        simp only [Except.ok.injEq, Prod.mk.injEq] at h
        obtain ⟨rfl, rfl, rfl⟩ := h
        exact copiedAll_append (copiedAll_single h1) (copyElems_spec is r1 H1 h2)

theorem copyEdges_spec : ∀ (es : Elements) (r : Repl) (H : SHeap) {es' r' H'},
    copyEdges es r H = .ok (es', r', H') →
    CopiedAll r H (es.flatMap Prod.snd) (es'.flatMap Prod.snd) r' H' ∧
    List.Forall₂ (fun p q => q.1 = p.1 ∧ q.2.length = p.2.length) es es'
  | [], r, H, es', r', H', h => by
    simp only [copyEdges, Except.ok.injEq, Prod.mk.injEq] at h
    obtain ⟨rfl, rfl, rfl⟩ := h
    exact ⟨copiedAll_nil _ _, List.Forall₂.nil⟩
  | (e, is) :: es, r, H, es', r', H', h => by
    simp only [copyEdges] at h
    split at h
    · cases h
    · rename_i js r1 H1 h1
      split at h
      · cases h
      · rename_i es2 r2 H2 h2
        simp only [Except.ok.injEq, Prod.mk.injEq] at h
        obtain ⟨rfl, rfl, rfl⟩ := h
        obtain ⟨a, b⟩ := copyEdges_spec es r1 H1 h2
        have c := copyElems_spec is r H h1
        refine ⟨?_, List.Forall₂.cons ⟨rfl, by rw [c.ids]; simp⟩ b⟩
        simp only [List.flatMap_cons]
        exact copiedAll_append c a

/-- copying succeeds when every loop of an inductive element has a replacement -/
theorem copyElems_succeeds : ∀ (is : List ElemId) (r : Repl) (H : SHeap),
    (∀ i ∈ is, i < H.nextE) →
    (∀ i ∈ is, (H.elem i).inductive = true → ∀ l ∈ (H.elem i).loops, ∃ l', r.loop l = .ok l') →
    ∃ q, copyElems is r H = .ok q
  | [], r, H, _, _ => ⟨_, rfl⟩
  | i :: is, r, H, hlt, h => by
    have h1 : ∃ q, copyElem i r H = .ok q := by
      unfold copyElem
      by_cases hi : (H.elem i).inductive = true
      · have hm : ∀ ls : List LoopId, (∀ l ∈ ls, ∃ l', r.loop l = .ok l') →
            ∃ ls', ls.mapM r.loop = .ok ls' := by
          intro ls
          induction ls with
          | nil => intro _; exact ⟨[], rfl⟩
          | cons l ls ih =>
            intro hl
            obtain ⟨l', hl'⟩ := hl l (by simp)
            obtain ⟨ls', hls'⟩ := ih (fun x hx => hl x (by simp [hx]))
            exact ⟨l' :: ls', by rw [List.mapM_cons, hl', hls']; rfl⟩
        obtain ⟨ls', hls'⟩ := hm _ (h i (by simp) hi)
        simp only [hi, if_true, hls']
        exact ⟨_, rfl⟩
      · simp only [hi]
        exact ⟨_, rfl⟩
    obtain ⟨⟨j, r1, H1⟩, h1⟩ := h1
    obtain ⟨rfl, hr, hn, hs, ho, -⟩ := copyElem_spec h1
    have hrl : r1.loop = r.loop := by rw [hr]; rfl
    obtain ⟨⟨js, r2, H2⟩, h2⟩ := copyElems_succeeds is r1 H1
      (fun k hk => by
        have := hlt k (by simp [hk])
        rw [hn]; exact Nat.lt_add_right _ this)
      (fun k hk => by
        have : k ≠ H.nextE := Nat.ne_of_lt (hlt k (by simp [hk]))
        rw [ho k this, hrl]
        exact h k (by simp [hk]))
    exact ⟨(H.nextE :: js, r2, H2), by simp only [copyElems, h1, h2]⟩

theorem copyEdges_succeeds : ∀ (es : Elements) (r : Repl) (H : SHeap),
    (∀ i ∈ es.flatMap Prod.snd, i < H.nextE) →
    (∀ i ∈ es.flatMap Prod.snd, (H.elem i).inductive = true →
      ∀ l ∈ (H.elem i).loops, ∃ l', r.loop l = .ok l') →
    ∃ q, copyEdges es r H = .ok q
  | [], r, H, _, _ => ⟨_, rfl⟩
  | (e, is) :: es, r, H, hlt, h => by
    simp only [List.flatMap_cons, List.mem_append] at hlt h
    obtain ⟨⟨js, r1, H1⟩, h1⟩ := copyElems_succeeds is r H (fun i hi => hlt i (Or.inl hi))
      (fun i hi => h i (Or.inl hi))
    have c := copyElems_spec is r H h1
    have hrl : r1.loop = r.loop := by
      funext l; unfold Repl.loop; rw [c.loops]
    obtain ⟨⟨es2, r2, H2⟩, h2⟩ := copyEdges_succeeds es r1 H1
      (fun k hk => by have := hlt k (Or.inr hk); rw [c.next]; exact Nat.lt_add_right _ this)
      (fun k hk => by
        rw [c.old k (hlt k (Or.inr hk)), hrl]
        exact h k (Or.inr hk))
    exact ⟨((e, js) :: es2, r2, H2), by simp only [copyEdges, h1, h2]⟩

/-! ### loops -/

theorem copyLoops_spec : ∀ (ls : List LoopId) (r : Repl) (H : SHeap) {ls' r' H'},
    copyLoops ls r H = (ls', r', H') →
    ls' = List.range' H.nextL ls.length ∧ r'.elems = r.elems ∧
    r'.loops = (ls.zip ls').reverse ++ r.loops ∧ H'.elem = H.elem ∧ H'.nextE = H.nextE ∧
    H'.nextL = H.nextL + ls.length ∧
    (∀ l, l < H.nextL → H'.loopValue l = H.loopValue l ∧ H'.loopReqGrad l = H.loopReqGrad l ∧
      H'.loopIsLeaf l = H.loopIsLeaf l) ∧
    ((∀ l ∈ ls, l < H.nextL) →
      List.Forall₂ (fun l l' => H'.loopValue l' = H.loopValue l ∧ H'.loopIsLeaf l' = true) ls ls')
  | [], r, H, ls', r', H', h => by
    simp only [copyLoops, Prod.mk.injEq] at h
    obtain ⟨rfl, rfl, rfl⟩ := h
    simp
  | l :: ls, r, H, ls', r', H', h => by
    simp only [copyLoops, Prod.mk.injEq] at h
    obtain ⟨rfl, h⟩ := h
    generalize hq : copyLoops ls { r with loops := (l, H.nextL) :: r.loops } (allocLoop l H) = q at h
    obtain ⟨ls2, r2, H2⟩ := q
    simp only [Prod.mk.injEq] at h
    obtain ⟨rfl, rfl⟩ := h
    obtain ⟨a, b, c, d, d', e, f, g⟩ := copyLoops_spec ls _ _ hq
    have hn : (allocLoop l H).nextL = H.nextL + 1 := rfl
    refine ⟨?_, b, ?_, d, d', ?_, ?_, ?_⟩
    · rw [a, hn]; rfl
    · rw [c]; simp
    · rw [e, hn, List.length_cons]; exact Nat.add_right_comm _ _ _
    · intro k hk
      obtain ⟨f1, f2, f3⟩ := f k (by rw [hn]; exact Nat.lt_add_right _ hk)
      have hne : k ≠ H.nextL := Nat.ne_of_lt hk
      refine ⟨f1.trans ?_, f2.trans ?_, f3.trans ?_⟩ <;>
        simp [allocLoop, Function.update_of_ne hne]
    · intro hlt
      refine List.Forall₂.cons ?_ ?_
      · obtain ⟨f1, f2, f3⟩ := f H.nextL (by rw [hn]; exact Nat.lt_succ_self _)
        rw [f1, f3]
        simp [allocLoop]
      · have hg := g (fun k hk => by
          have := hlt k (by simp [hk])
          rw [hn]; exact Nat.lt_add_right _ this)
        have h3 := List.forall₂_iff_get.1 hg
        refine List.forall₂_iff_get.2 ⟨h3.1, fun k hk1 hk2 => ?_⟩
        obtain ⟨x, y⟩ := h3.2 k hk1 hk2
        refine ⟨x.trans ?_, y⟩
        have hne : ls.get ⟨k, hk1⟩ ≠ H.nextL :=
          Nat.ne_of_lt (hlt _ (List.mem_cons_of_mem _ (List.get_mem ls ⟨k, hk1⟩)))
        simp only [allocLoop]
        exact Function.update_of_ne hne _ _

end SQ
