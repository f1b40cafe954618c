import Verif.Lemmas.CircuitState

/-! # Keys of constructed circuits -/

namespace SQ
open Matrix Spec

/-- kinds and branch numbers of the recorded keys -/
structure KeysOK (c : CircSpec) (b : Build) : Prop where
  indKind : ∀ key ∈ b.inds, (c.O.elem key.el).kind = .ind
  junKind : ∀ key ∈ b.juns, (c.O.elem key.el).kind = .jj
  nodup : (b.juns.map (·.bId)).Nodup

theorem nodup_of_map {α β γ : Type*} {l : List α} (f : α → Option β) (g : β → γ) (k : α → γ)
    (hk : (l.map k).Nodup) (h : ∀ a ∈ l, ∀ y, f a = some y → g y = k a) :
    ((l.filterMap f).map g).Nodup := by
  induction l with
  | nil => simp
  | cons a l ih =>
    rw [List.map_cons, List.nodup_cons] at hk
    have ih' := ih hk.2 (fun x hx => h x (by simp [hx]))
    rw [List.filterMap_cons]
    split
    · exact ih'
    · rename_i y hy
      rw [List.map_cons, List.nodup_cons]
      refine ⟨?_, ih'⟩
      rw [h a (by simp) y hy]
      intro hm
      obtain ⟨z, hz, hz2⟩ := List.mem_map.1 hm
      obtain ⟨w, hw, hw2⟩ := List.mem_filterMap.1 hz
      exact hk.1 (List.mem_map.2 ⟨w, hw, by rw [← h w (by simp [hw]) z hw2, hz2]⟩)

theorem buildWith_keys {c : CircSpec} (hs : NoSelfLoops c.els) {n : ℕ} {v : ElemId → ℝ}
    {finish : ∀ {nJ : ℕ}, Trans nJ n → Modes nJ n} {b : Build}
    (h : buildWith c n v finish = .ok b) : KeysOK c b := by
  rw [buildWith_eq] at h
  split at h
  · cases h
  · rename_i a htr
    have hv : ValidElements n c.els := by
      intro p hp
      have := buildEdges_nodes_le htr p hp
      exact ⟨hs p hp, this.1, this.2⟩
    have hinv := (traverse_inv hv htr).1
    have hik : ∀ x ∈ a.st.indKeys, ((c.O.withVals v).elem x.2.1).kind = .ind := by
      intro x hx
      rw [hinv.indKeys] at hx
      obtain ⟨q, hq, rfl⟩ := List.mem_map.1 hx
      simpa using (List.mem_filter.1 hq).2
    have hjk : ∀ x ∈ a.st.junKeys, ((c.O.withVals v).elem x.2.1).kind = .jj := by
      intro x hx
      rw [hinv.junKeys] at hx
      obtain ⟨q, hq, rfl⟩ := List.mem_map.1 hx
      simpa using (List.mem_filter.1 hq).2
    have hnd : (a.st.junKeys.map (fun k => k.2.2.1)).Nodup := by
      rw [hinv.junKeys, List.map_map]
      have hsub := (List.filter_sublist (p := fun q : APl × ℕ => decide (((c.O.withVals v).elem q.1.2.1).kind = .jj))
        (l := (indOf (c.O.withVals v) (annotate (c.O.withVals v) 0 c.els)).zipIdx)).map Prod.snd
      refine List.Nodup.sublist (by exact hsub) ?_
      rw [List.zipIdx_map_snd]
      exact List.nodup_range' ..
    unfold afterTraverse afterFields at h
    split at h
    · cases h
    · split at h
      · cases h
      · split at h
        · cases h
        · cases h
        · rename_i t _
          injection h with h
          subst h
          refine ⟨?_, ?_, ?_⟩
          · intro key hkey
            simp only [indKeysOf, List.mem_filterMap] at hkey
            obtain ⟨x, hx, hx2⟩ := hkey
            split at hx2
            · injection hx2 with hx2
              subst hx2
              exact hik x hx
            · cases hx2
          · intro key hkey
            simp only [junKeysOf, List.mem_filterMap] at hkey
            obtain ⟨x, hx, hx2⟩ := hkey
            split at hx2
            · injection hx2 with hx2
              subst hx2
              exact hjk x hx
            · cases hx2
          · have := nodup_of_map (l := a.st.junKeys)
              (fun k => if h : k.2.2.1 < a.st.kMat.length ∧ k.2.2.2 < a.wMat.length then
                some (⟨k.1, k.2.1, ⟨k.2.2.1, h.1⟩, ⟨k.2.2.2, h.2⟩⟩ : JunKey a.st.kMat.length a.wMat.length)
                else none) (fun key => (key.bId : ℕ)) (fun k => k.2.2.1) hnd (by
                intro k _ y hy
                split at hy
                · injection hy with hy; subst hy; rfl
                · cases hy)
            have h2 : ((junKeysOf a.st.kMat.length a.wMat.length a.st.junKeys).map
                (fun key => (key.bId : ℕ))).Nodup := this
            have h3 : (((junKeysOf a.st.kMat.length a.wMat.length a.st.junKeys).map (·.bId)).map
              Fin.val).Nodup := by rw [List.map_map]; exact h2
            exact List.Nodup.of_map _ h3

theorem build_keys {c : CircSpec} (hs : NoSelfLoops c.els) {v : ElemId → ℝ} {b : Build}
    (h : buildCirc c v = .ok b) : KeysOK c b := by
  unfold buildCirc at h
  cases hn : numNodes c.els with
  | error e => rw [hn] at h; cases h
  | ok n => rw [hn] at h; exact buildWith_keys hs h

end SQ
