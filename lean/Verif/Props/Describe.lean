import Verif.Model.Describe
import Verif.Lemmas.Constructed
import Verif.Lemmas.BuildKeys
import Verif.Props.Traverse
import Verif.Props.Copy
import Verif.Props.Elements
import Verif.Props.Symbolic

/-! # C72, C79: the loop and element descriptions -/

namespace SQ
open Matrix Spec Real

theorem lastMatch_pairs {K : Type*} (bId : K → ℕ) (el : K → ElemId) (i : ℕ) (keys : List K)
    (s : Option ElemId) : lastMatch bId el i keys s =
      lastMatch Prod.fst Prod.snd i (keys.map fun k => (bId k, el k)) s := by
  unfold lastMatch
  rw [List.foldl_map]

theorem lastMatch_notMem (i : ℕ) (l : List (ℕ × ElemId)) (s : Option ElemId)
    (h : i ∉ l.map Prod.fst) : lastMatch Prod.fst Prod.snd i l s = s := by
  unfold lastMatch
  induction l generalizing s with
  | nil => rfl
  | cons a l ih =>
    rw [List.map_cons, List.mem_cons, not_or] at h
    rw [List.foldl_cons, if_neg h.1]
    exact ih s h.2

theorem lastMatch_mem (i : ℕ) (e : ElemId) (l : List (ℕ × ElemId)) (s : Option ElemId)
    (hn : (l.map Prod.fst).Nodup) (h : (i, e) ∈ l) :
    lastMatch Prod.fst Prod.snd i l s = some e := by
  induction l generalizing s with
  | nil => simp at h
  | cons a l ih =>
    rw [List.map_cons, List.nodup_cons] at hn
    rcases List.mem_cons.1 h with rfl | h
    · have := lastMatch_notMem i l (some e) hn.1
      unfold lastMatch at this ⊢
      rw [List.foldl_cons, if_pos rfl]
      exact this
    · unfold lastMatch at ih ⊢
      rw [List.foldl_cons]
      exact ih _ hn.2 h

theorem indKeysOf_pairs (n : ℕ) (l : List (Edge × ElemId × ℕ)) (h : ∀ k ∈ l, k.2.2 < n) :
    (indKeysOf n l).map (fun k => ((k.bId : ℕ), k.el)) = l.map (fun k => (k.2.2, k.2.1)) := by
  induction l with
  | nil => rfl
  | cons a l ih =>
    have ha := h a (by simp)
    have := ih (fun k hk => h k (by simp [hk]))
    unfold indKeysOf at this ⊢
    rw [List.filterMap_cons, dif_pos ha, List.map_cons, List.map_cons, this]

theorem junKeysOf_pairs (n m : ℕ) (l : List (Edge × ElemId × ℕ × ℕ))
    (h : ∀ k ∈ l, k.2.2.1 < n ∧ k.2.2.2 < m) :
    (junKeysOf n m l).map (fun k => ((k.bId : ℕ), k.el)) = l.map (fun k => (k.2.2.1, k.2.1)) := by
  induction l with
  | nil => rfl
  | cons a l ih =>
    have ha := h a (by simp)
    have := ih (fun k hk => h k (by simp [hk]))
    unfold junKeysOf at this ⊢
    rw [List.filterMap_cons, dif_pos ha, List.map_cons, List.map_cons, this]

theorem inductivePlacements_withVals (O : Objs) (v : ElemId → ℝ) (els : Elements) :
    inductivePlacements (O.withVals v) els = inductivePlacements O els := rfl

/-- pairs (branch number, element) of the keys of a constructed circuit -/
theorem build_pairs {c : CircSpec} {vals : ElemId → ℝ} {b : Build} (hs : NoSelfLoops c.els)
    (hb : buildCirc c vals = .ok b) :
    b.nB = (inductivePlacements c.O c.els).length ∧
    b.inds.map (fun k => ((k.bId : ℕ), k.el)) =
      ((numbered c.O c.els).filter (fun q => decide ((c.O.elem q.1.2).kind = .ind))).map
        (fun q => (q.2, q.1.2)) ∧
    b.juns.map (fun k => ((k.bId : ℕ), k.el)) =
      ((numbered c.O c.els).filter (fun q => decide ((c.O.elem q.1.2).kind = .jj))).map
        (fun q => (q.2, q.1.2)) ∧
    b.loops = firstUses ((loopUses c.O c.els).map Prod.fst) := by
  obtain ⟨n, a, B, t, hn, htr, hB, ht, rfl⟩ := buildCirc_stages hb
  have hv : ValidElements n c.els := by
    intro p hp
    have := buildEdges_nodes_le htr p hp
    exact ⟨hs p hp, this.1, this.2⟩
  obtain ⟨h1, h2, h3, h4, h5, h6⟩ := C18_branch_numbering _ _ _ _ _ _ hv a htr
  have hl := (C19_loop_membership _ _ _ _ _ _ hv a htr).1
  have hlen : a.st.kMat.length = (inductivePlacements c.O c.els).length := by
    rw [h6, List.length_map]; rfl
  have hlt : ∀ q ∈ numbered c.O c.els, q.2 < a.st.kMat.length := by
    intro q hq
    rw [hlen]
    obtain ⟨x, i⟩ := q
    have := List.mem_zipIdx hq
    omega
  refine ⟨hlen, ?_, ?_, hl⟩
  · rw [indKeysOf_pairs, h1, List.map_map]
    · rfl
    · intro k hk
      rw [h1] at hk
      obtain ⟨q, hq, rfl⟩ := List.mem_map.1 hk
      exact hlt q (List.mem_filter.1 hq).1
  · rw [junKeysOf_pairs]
    · have := congrArg (List.map fun k : Edge × ElemId × ℕ => (k.2.2, k.2.1)) h2
      rw [List.map_map, List.map_map] at this
      exact this
    · intro k hk
      constructor
      · have hm : (k.1, k.2.1, k.2.2.1) ∈ a.st.junKeys.map (fun k => (k.1, k.2.1, k.2.2.1)) :=
          List.mem_map.2 ⟨k, hk, rfl⟩
        rw [h2] at hm
        obtain ⟨q, hq, he⟩ := List.mem_map.1 hm
        have := hlt q (List.mem_filter.1 hq).1
        exact lt_of_eq_of_lt (Prod.ext_iff.1 (Prod.ext_iff.1 he).2).2.symm this
      · exact (List.getElem?_eq_some_iff.1 (h4 k hk).2).1

theorem numbered_nodup (O : Objs) (els : Elements) (p : (Edge × ElemId) × ℕ → Bool) :
    ((((numbered O els).filter p).map (fun q => (q.2, q.1.2))).map Prod.fst).Nodup := by
  rw [List.map_map]
  have hsub := (List.filter_sublist (p := p) (l := numbered O els)).map Prod.snd
  refine List.Nodup.sublist (by exact hsub) ?_
  unfold numbered
  rw [List.zipIdx_map_snd]
  exact List.nodup_range' ..

/-- the element shown in a row is the one of that branch -/
theorem rowElem_eq {c : CircSpec} {vals : ElemId → ℝ} {b : Build} (hs : NoSelfLoops c.els)
    (hb : buildCirc c vals = .ok b) (i : ℕ) (q : Edge × ElemId)
    (hq : (inductivePlacements c.O c.els)[i]? = some q) : b.rowElem i = some q.2 := by
  obtain ⟨-, h1, h2, -⟩ := build_pairs hs hb
  have hm : (q, i) ∈ numbered c.O c.els := List.mem_zipIdx_iff_getElem?.2 hq
  have hk : (c.O.elem q.2).kind ≠ .cap := by
    have : q ∈ inductivePlacements c.O c.els := List.mem_of_getElem? hq
    simpa using (List.mem_filter.1 this).2
  unfold Build.rowElem
  rw [lastMatch_pairs, lastMatch_pairs (keys := b.inds), h1, h2]
  rcases hkk : (c.O.elem q.2).kind with _ | _ | _
  · exact absurd hkk hk
  · rw [lastMatch_notMem]
    · refine lastMatch_mem i q.2 _ _ (numbered_nodup _ _ _) ?_
      exact List.mem_map.2 ⟨(q, i), List.mem_filter.2 ⟨hm, by simpa using hkk⟩, rfl⟩
    · intro h
      rw [List.map_map] at h
      obtain ⟨q', hq', he⟩ := List.mem_map.1 h
      obtain ⟨hq1, hq2⟩ := List.mem_filter.1 hq'
      obtain ⟨q', i'⟩ := q'
      simp only [Function.comp_apply] at he
      subst he
      have := List.mem_zipIdx_iff_getElem?.1 hq1
      rw [hq] at this
      have := Option.some.inj this
      subst this
      simp only [decide_eq_true_eq] at hq2
      rw [hkk] at hq2
      cases hq2
  · refine lastMatch_mem i q.2 _ _ (numbered_nodup _ _ _) ?_
    exact List.mem_map.2 ⟨(q, i), List.mem_filter.2 ⟨hm, by simpa using hkk⟩, rfl⟩

theorem mapM_of_ok {α β : Type*} {f : α → Except PyErr β} {g : α → β} {l : List α}
    (h : ∀ a ∈ l, f a = .ok (g a)) : l.mapM f = .ok (l.map g) := by
  refine mapM_ok.2 ?_
  rw [List.forall₂_map_right_iff, List.forall₂_same]
  exact h

/-- C72: `loop_description` of a constructed circuit has one row per placed inductor or junction;
row `i` names the element of branch `i` and lists the absolute entries of row `i` of `B`. -/
theorem C72_rows (c : CircSpec) (vals : ElemId → ℝ) (b : Build) (hs : NoSelfLoops c.els)
    (hb : buildCirc c vals = .ok b) :
    ∃ rows, b.loopRowsList = .ok rows ∧ rows.length = (inductivePlacements c.O c.els).length ∧
      ∀ (i : Fin b.nB), ∃ q, (inductivePlacements c.O c.els)[(i : ℕ)]? = some q ∧
        rows[(i : ℕ)]? = some ⟨q.2, i + 1, (List.finRange b.loops.length).map (fun j => |b.B i j|)⟩ := by
  obtain ⟨hlen, -⟩ := build_pairs hs hb
  have hget : ∀ i : Fin b.nB, ∃ q, (inductivePlacements c.O c.els)[(i : ℕ)]? = some q := fun i =>
    ⟨_, List.getElem?_eq_getElem (by rw [← hlen]; exact i.2)⟩
  choose q hq using hget
  have := mapM_of_ok (l := List.finRange b.nB) (f := fun i : Fin b.nB =>
    match b.rowElem i with
    | none => .error .attributeError
    | some e => .ok (⟨e, (i : ℕ) + 1, (List.finRange b.loops.length).map (fun j => |b.B i j|)⟩ : LoopRow))
    (g := fun i => ⟨(q i).2, i + 1, (List.finRange b.loops.length).map (fun j => |b.B i j|)⟩) (by
      intro i _
      simp only [rowElem_eq hs hb i (q i) (hq i)])
  refine ⟨_, this, by simp [hlen], fun i => ⟨q i, hq i, ?_⟩⟩
  simp

/-! ## the text -/

theorem pyMax_ok {l : List ℕ} (h : l ≠ []) : ∃ m, pyMax l = .ok m ∧ ∀ x ∈ l, x ≤ m := by
  cases l with
  | nil => exact absurd rfl h
  | cons a l =>
    refine ⟨_, rfl, ?_⟩
    generalize a :: l = m
    intro x hx
    induction m with
    | nil => simp at hx
    | cons y l ih =>
      rw [List.foldr_cons]
      rcases List.mem_cons.1 hx with h | h
      · rw [h]; exact le_max_left _ _
      · exact (ih h).trans (le_max_right _ _)

theorem padTo_length {s : List Char} {n : ℕ} (h : s.length ≤ n) : (padTo s n).length = n := by
  simp [padTo]; omega

theorem drop_flatten_blocks (w : ℕ) : ∀ (l : List (List Char)) (j : ℕ),
    (∀ s ∈ l, s.length = w) → l.flatten.drop (j * w) = (l.drop j).flatten
  | l, 0, _ => by simp
  | [], j + 1, _ => by simp
  | s :: l, j + 1, h => by
    have hs := h s (by simp)
    rw [List.flatten_cons, List.drop_succ_cons, ← drop_flatten_blocks w l j (fun t ht => h t (by simp [ht])),
      show (j + 1) * w = s.length + j * w by rw [hs]; ring, List.drop_append]
    simp

/-- the intercalated header from its `j`-th name on -/
theorem drop_intercalate (sp : List Char) (w : ℕ) : ∀ (l : List (List Char)) (j : ℕ), j < l.length →
    (∀ s ∈ l, s.length = w) →
    (List.intercalate sp l).drop (j * (w + sp.length)) = List.intercalate sp (l.drop j)
  | l, 0, _, _ => by simp
  | [], j + 1, h, _ => by simp at h
  | [s], j + 1, h, _ => by simp at h
  | s :: t :: l, j + 1, hj, h => by
    have hs := h s (by simp)
    rw [List.drop_succ_cons, ← drop_intercalate sp w (t :: l) j (by simpa using hj)
      (fun u hu => h u (by simp [hu])), List.intercalate_cons_cons,
      show (j + 1) * (w + sp.length) = (s ++ sp).length + j * (w + sp.length) by
        rw [List.length_append, hs]; ring, List.append_assoc, ← List.append_assoc, List.drop_append]
    simp

theorem prefix_intercalate (sp s : List Char) (l : List (List Char)) :
    s <+: List.intercalate sp (s :: l) := by
  cases l with
  | nil => simp
  | cons t l => rw [List.intercalate_cons_cons, List.append_assoc]; exact List.prefix_append _ _

/-- C72: the printed table of a constructed circuit with loops. Below the two header lines there is
one line per placed inductor or junction; line `i` starts with the name of the element of branch `i`
followed by its label; and in the column where the header names loop `j` it shows `|B i j|`, as long
as labels have at most six digits and numbers fit their column. -/
theorem C72_text (c : CircSpec) (vals : ElemId → ℝ) (b : Build) (hs : NoSelfLoops c.els)
    (hb : buildCirc c vals = .ok b) (hl : b.loops ≠ []) (elName : ElemId → List Char)
    (loopName : LoopId → List Char) (fmt : ℝ → List Char)
    (hfmt : ∀ i j, (fmt |b.B i j|).length ≤ 10) :
    ∃ (lines : List (List Char)) (width : ℕ) (column : ℕ → ℕ), StrictMono column ∧
      b.loopDescription elName loopName fmt = .ok lines ∧
      lines.length = 2 + (inductivePlacements c.O c.els).length ∧
      (∀ j : Fin b.loops.length, ∃ header, lines[0]? = some header ∧
        loopName (b.loops.get j) <+: header.drop (column j)) ∧
      ∀ i : Fin b.nB, ∃ q line, (inductivePlacements c.O c.els)[(i : ℕ)]? = some q ∧
        lines[2 + (i : ℕ)]? = some line ∧ elName q.2 <+: line ∧
        (", b".toList ++ (toString ((i : ℕ) + 1)).toList ++ [':']) <+: line.drop width ∧
        ((toString ((i : ℕ) + 1)).length ≤ 6 → ∀ j : Fin b.loops.length,
          fmt |b.B i j| <+: line.drop (column j)) := by
  obtain ⟨rows, hrows, hlen, hrow⟩ := C72_rows c vals b hs hb
  obtain ⟨hnB, h1, h2, h3⟩ := build_pairs hs hb
  -- both maxima exist
  have hne : b.juns.map (fun k => (elName k.el).length) ++ b.inds.map (fun k => (elName k.el).length) ≠ [] := by
    intro h
    obtain ⟨hj, hi⟩ := List.append_eq_nil_iff.1 h
    have hj' : b.juns = [] := List.map_eq_nil_iff.1 hj
    have hi' : b.inds = [] := List.map_eq_nil_iff.1 hi
    rw [hi'] at h1
    rw [hj'] at h2
    have hnum : numbered c.O c.els = [] := by
      rw [List.eq_nil_iff_forall_not_mem]
      intro q hq
      have hk : (c.O.elem q.1.2).kind ≠ .cap := by
        obtain ⟨q, i⟩ := q
        have : q ∈ inductivePlacements c.O c.els :=
          List.mem_of_getElem? (List.mem_zipIdx_iff_getElem?.1 hq)
        simpa using (List.mem_filter.1 this).2
      rcases hkk : (c.O.elem q.1.2).kind with _ | _ | _
      · exact hk hkk
      · have := List.map_eq_nil_iff.1 h1.symm
        exact List.eq_nil_iff_forall_not_mem.1 this q (List.mem_filter.2 ⟨hq, by simpa using hkk⟩)
      · have := List.map_eq_nil_iff.1 h2.symm
        exact List.eq_nil_iff_forall_not_mem.1 this q (List.mem_filter.2 ⟨hq, by simpa using hkk⟩)
    apply hl
    rw [h3]
    unfold loopUses
    rw [hnum]
    rfl
  obtain ⟨nr, hnr, hnr'⟩ := pyMax_ok hne
  obtain ⟨nh, hnh, hnh'⟩ := pyMax_ok (l := b.loops.map (fun l => (loopName l).length)) (by simpa using hl)
  have hw : b.widths elName loopName = .ok (nr, nh) := by
    unfold Build.widths
    rw [hnr]
    simp only
    rw [hnh]
  set header := headerLine nr nh (b.loops.map loopName) with hheader
  refine ⟨header :: List.replicate header.length '-' :: rows.map (rowLine elName fmt nr nh), nr,
    fun j => nr + 10 + j * (nh + 10), ?_, ?_, ?_, ?_, ?_⟩
  · intro j j' h
    have : j * (nh + 10) < j' * (nh + 10) := Nat.mul_lt_mul_of_pos_right h (by omega)
    simp only
    omega
  · unfold Build.loopDescription
    rw [hw]
    simp only
    rw [hrows]
  · simp [hlen]; omega
  · intro j
    refine ⟨header, rfl, ?_⟩
    have hnames : ∀ s ∈ (b.loops.map loopName).map (fun s => padTo s nh), s.length = nh := by
      intro s hs
      simp only [List.mem_map] at hs
      obtain ⟨_, ⟨l, hl, rfl⟩, rfl⟩ := hs
      exact padTo_length (hnh' _ (List.mem_map.2 ⟨l, hl, rfl⟩))
    rw [hheader]
    unfold headerLine
    rw [List.drop_append, List.length_replicate, List.drop_eq_nil_of_le (by simp only [List.length_replicate]; omega),
      List.nil_append, show nr + 10 + (j : ℕ) * (nh + 10) - (nr + 5 + 5) =
        (j : ℕ) * (nh + (List.replicate 10 ' ').length) by simp only [List.length_replicate]; omega,
      drop_intercalate _ nh _ j (by simp) hnames,
      List.drop_eq_getElem_cons (by simp)]
    refine List.IsPrefix.trans ?_ (prefix_intercalate _ _ _)
    simp only [List.getElem_map]
    exact List.prefix_append _ _
  · intro i
    obtain ⟨q, hq, hr⟩ := hrow i
    have hnm : (elName q.2).length ≤ nr := by
      apply hnr'
      have hm : (q, (i : ℕ)) ∈ numbered c.O c.els := List.mem_zipIdx_iff_getElem?.2 hq
      have hk : (c.O.elem q.2).kind ≠ .cap := by
        have : q ∈ inductivePlacements c.O c.els := List.mem_of_getElem? hq
        simpa using (List.mem_filter.1 this).2
      have e1 := congrArg (List.map fun p : ℕ × ElemId => (elName p.2).length) h1
      have e2 := congrArg (List.map fun p : ℕ × ElemId => (elName p.2).length) h2
      rw [List.map_map, List.map_map] at e1 e2
      rw [List.mem_append]
      rcases hkk : (c.O.elem q.2).kind with _ | _ | _
      · exact absurd hkk hk
      · right
        refine e1 ▸ List.mem_map.2 ⟨(q, (i : ℕ)), List.mem_filter.2 ⟨hm, by simpa using hkk⟩, rfl⟩
      · left
        refine e2 ▸ List.mem_map.2 ⟨(q, (i : ℕ)), List.mem_filter.2 ⟨hm, by simpa using hkk⟩, rfl⟩
    refine ⟨q, rowLine elName fmt nr nh
        ⟨q.2, i + 1, (List.finRange b.loops.length).map (fun j => |b.B i j|)⟩, hq, ?_, ?_, ?_, ?_⟩
    · rw [add_comm, List.getElem?_cons_succ, List.getElem?_cons_succ, List.getElem?_map, hr]
      rfl
    · unfold rowLine padTo
      simp only [List.append_assoc]
      exact List.prefix_append _ _
    · unfold rowLine
      simp only [List.append_assoc]
      rw [List.drop_append, List.drop_eq_nil_of_le (by rw [padTo_length hnm]), padTo_length hnm, Nat.sub_self,
        List.nil_append, List.drop_zero]
      unfold padTo
      simp only [List.append_assoc]
      simp
    · intro hdig j
      have hlab : (", b".toList ++ (toString ((i : ℕ) + 1)).toList ++ [':']).length ≤ 5 + 5 := by
        simp only [List.length_append, String.length_toList] at hdig ⊢
        have : (", b" : String).length = 3 := rfl
        simp only [List.length_cons, List.length_nil]
        omega
      have hblk : ∀ s ∈ ((List.finRange b.loops.length).map (fun j => |b.B i j|)).map
          (fun x => padTo (fmt x) (nh + 10)), s.length = nh + 10 := by
        intro s hs
        simp only [List.mem_map] at hs
        obtain ⟨_, ⟨l, hl, rfl⟩, rfl⟩ := hs
        exact padTo_length ((hfmt i l).trans (by omega))
      unfold rowLine
      rw [List.drop_append, List.drop_eq_nil_of_le (by
          rw [List.length_append, padTo_length hnm, padTo_length hlab]; simp only; omega), List.nil_append,
        List.length_append, padTo_length hnm, padTo_length hlab,
        show nr + 10 + (j : ℕ) * (nh + 10) - (nr + (5 + 5)) = (j : ℕ) * (nh + 10) by omega,
        drop_flatten_blocks _ _ _ hblk, List.drop_eq_getElem_cons (by simp), List.flatten_cons]
      refine List.IsPrefix.trans ?_ (List.prefix_append _ _)
      simp only [List.getElem_map, List.getElem_finRange]
      exact List.prefix_append _ _

/-- Without loops (for instance for a transmon or an LC circuit) `loop_description` raises
`ValueError` instead of printing an empty table. -/
theorem C72_no_loops (b : Build) (hl : b.loops = []) (elName : ElemId → List Char)
    (loopName : LoopId → List Char) (fmt : ℝ → List Char) :
    b.loopDescription elName loopName fmt = .error .valueError := by
  unfold Build.loopDescription Build.widths
  rw [hl]
  cases h : pyMax (b.juns.map (fun k => (elName k.el).length) ++
      b.inds.map (fun k => (elName k.el).length)) with
  | error e =>
    cases hj : (b.juns.map (fun k => (elName k.el).length) ++
      b.inds.map (fun k => (elName k.el).length)) with
    | nil => rw [hj] at h; cases h; rfl
    | cons x l => rw [hj] at h; cases h
  | ok m => rfl

/-- the two-mode circuit of the examples has no loops -/
example (torch : Bool) (elName : ElemId → List Char) (loopName : LoopId → List Char)
    (fmt : ℝ → List Char) :
    (lcBuild torch).loopDescription elName loopName fmt = .error .valueError :=
  C72_no_loops _ rfl elName loopName fmt

/-! ## C79 element description -/

theorem capF (v : ℝ) : capGetValue "F" ⟨v, 0⟩ = .ok v := by
  unfold capGetValue
  rw [show faradList.has "F" = true by decide, show faradList.get "F" = .ok 1 from rfl]
  simp [pyDiv]

theorem indH (v : ℝ) : indGetValue "H" ⟨v, 0⟩ = .ok v := by
  unfold indGetValue
  rw [show henryList.has "H" = true by decide, show henryList.get "H" = .ok 1 from rfl]
  simp [pyDiv]

/-- C79, the layout: one block per edge in dictionary order, one line per placed element in the order of its
list; each line carries the class name of that element, its unit and its stored value. -/
theorem C79_lines (O : Objs) (els : Elements) :
    ∃ blocks, elDescription O els = .ok blocks ∧ blocks.map Prod.fst = els.map Prod.fst ∧
      List.Forall₂ (fun p (q : Edge × List ElLine) => List.Forall₂ (fun i (l : ElLine) =>
        ((O.elem i).kind = .cap → l.name = "C" ∧ l.unit = "F") ∧
        ((O.elem i).kind = .ind → l.name = "L" ∧ l.unit = "H") ∧
        ((O.elem i).kind = .jj → l.name = "JJ" ∧ l.unit = "Hz") ∧ l.number = (O.elem i).value) p.2 q.2) els blocks := by
  have inner : ∀ l : List ElemId, (l.mapM fun i => (do
      let x ← kindGetValue (O.elem i).kind (valueUnit (O.elem i).kind) ⟨(O.elem i).value, 0⟩
      pure (⟨kindName (O.elem i).kind, x, valueUnit (O.elem i).kind⟩ : ElLine) : Except PyErr ElLine)) =
      .ok (l.map fun i => ⟨kindName (O.elem i).kind, (O.elem i).value, valueUnit (O.elem i).kind⟩) := by
    intro l
    refine mapM_of_ok ?_
    intro i _
    cases hk : (O.elem i).kind
    · simp only [kindGetValue, valueUnit, capF]; rfl
    · simp only [kindGetValue, valueUnit, indH]; rfl
    · simp only [kindGetValue, valueUnit, jjHz]; rfl
  have outer : elDescription O els = .ok (els.map fun p => (p.1, p.2.map fun i =>
      (⟨kindName (O.elem i).kind, (O.elem i).value, valueUnit (O.elem i).kind⟩ : ElLine))) := by
    unfold elDescription
    refine mapM_of_ok ?_
    intro p _
    rw [inner]
    rfl
  refine ⟨_, outer, by rw [List.map_map]; rfl, ?_⟩
  rw [List.forall₂_map_right_iff, List.forall₂_same]
  intro p _
  rw [List.forall₂_map_right_iff, List.forall₂_same]
  intro i _
  refine ⟨fun h => by simp [h, kindName, valueUnit], fun h => by simp [h, kindName, valueUnit],
    fun h => by simp [h, kindName, valueUnit], rfl⟩

/-- C79 (partial): for capacitors and inductors the printed number with its unit denotes the capacitance (farad)
and inductance (henry) of the element.  Missing: junctions, see `C79_refuted`. -/
theorem C79_partial (O : Objs) (els : Elements) :
    ∃ blocks, elDescription O els = .ok blocks ∧
      List.Forall₂ (fun p (q : Edge × List ElLine) => p.1 = q.1 ∧ List.Forall₂ (fun i (l : ElLine) =>
        ((O.elem i).kind = .cap → CapMeans l.number l.unit (O.elem i).value) ∧
        ((O.elem i).kind = .ind → IndMeans l.number l.unit (O.elem i).value)) p.2 q.2) els blocks := by
  obtain ⟨blocks, hb, hfst, hall⟩ := C79_lines O els
  refine ⟨blocks, hb, ?_⟩
  clear hb
  induction hall with
  | nil => exact .nil
  | cons hp _ ih =>
    simp only [List.map_cons, List.cons.injEq] at hfst
    refine .cons ⟨hfst.1.symm, hp.imp ?_⟩ (ih hfst.2)
    rintro i l ⟨h1, h2, -, h4⟩
    refine ⟨fun h => ?_, fun h => ?_⟩
    · rw [(h1 h).2, h4]
      have := CapMeans.farad (v := (O.elem i).value) FaradUnit.F
      rwa [mul_one] at this
    · rw [(h2 h).2, h4]
      have := IndMeans.henry (v := (O.elem i).value) HenryUnit.H
      rwa [mul_one] at this

/-- C79 fails for junctions: whatever value `v ≠ 0` (in Hz) a junction was given, its line in the description reads
`2πv` Hz. -/
theorem C79_refuted (O : Objs) (e : Edge) (i : ElemId) (hk : (O.elem i).kind = .jj) (z v : ℝ) (hv : v ≠ 0)
    (hset : ∃ el el', jjSetValue z v (some "Hz") 0 el = (.ok (), el') ∧ (O.elem i).value = el'.value) :
    elDescription O [(e, [i])] = .ok [(e, [⟨"JJ", 2 * π * v, "Hz"⟩])] ∧ 2 * π * v ≠ v := by
  obtain ⟨el, el', h1, h2⟩ := hset
  obtain ⟨el'', h3, h4⟩ := C07_junction_roundtrip_partial z v "Hz" "Hz" 1 1 el .Hz .Hz
  rw [h1] at h3
  have he : el' = el'' := (Prod.mk.inj h3).2
  subst he
  have hval : el'.value = 2 * π * v := by
    have h5 : jjGetValue "Hz" el' = .ok el'.value := jjHz el'.value
    rw [h5] at h4
    have := Except.ok.inj h4
    rw [this]; ring
  refine ⟨?_, ?_⟩
  · unfold elDescription
    refine (mapM_of_ok (g := fun p => (p.1, p.2.map fun _ => (⟨"JJ", 2 * π * v, "Hz"⟩ : ElLine))) ?_).trans rfl
    intro p hp
    rw [List.mem_singleton] at hp
    subst hp
    simp [hk, kindGetValue, valueUnit, jjHz, h2, hval, kindName]
  · intro h
    have : (2 * π - 1) * v = 0 := by linarith
    rcases mul_eq_zero.1 this with h0 | h0
    · have := Real.two_le_pi; linarith
    · exact hv h0

/-- the junction of the fluxonium given 10 Hz -/
example : ∃ O : Objs, elDescription O [((0, 1), [2])] = .ok [((0, 1), [⟨"JJ", 2 * π * 10, "Hz"⟩])] := by
  obtain ⟨el', h, -⟩ := C07_junction_roundtrip_partial 0 10 "Hz" "Hz" 1 1 ⟨0, 0⟩ .Hz .Hz
  exact ⟨exObjs.withVals (fun _ => el'.value), (C79_refuted _ (0, 1) 2 (by rfl) 0 10 (by norm_num)
    ⟨_, _, h, rfl⟩).1⟩

end SQ
