import Verif.Spec.State

/-! # Frame lemmas for the circuit state machine -/

namespace SQ
open SQ.Spec

variable {P : Phys}

theorem hamiltonian_frame (w : World P) :
    (hamiltonian w).2 = w ∨
      ∃ t, (hamiltonian w).2 = { w with circ := { w.circ with trig := t } } := by
  unfold hamiltonian
  repeat' split
  all_goals first | exact Or.inl rfl | exact Or.inr ⟨_, rfl⟩

theorem diag_frame (k : Option ℤ) (w : World P) :
    ∃ t f v, (diag k w).2 = { w with circ := { w.circ with trig := t, efreqs := f, evecs := v } } := by
  unfold diag
  split
  · exact ⟨_, _, _, rfl⟩
  · cases k with
    | none => exact ⟨_, _, _, rfl⟩
    | some k =>
      simp only [diagNp]
      have hf := hamiltonian_frame w
      cases hH : hamiltonian w with
      | mk r w1 =>
        rw [hH] at hf
        simp only at hf
        have : ∃ t, w1 = { w with circ := { w.circ with trig := t } } := by
          rcases hf with h | ⟨t, h⟩
          · exact ⟨w.circ.trig, h⟩
          · exact ⟨t, h⟩
        obtain ⟨t, rfl⟩ := this
        cases r with
        | error e => exact ⟨_, _, _, rfl⟩
        | ok H =>
          simp only
          split <;> exact ⟨_, _, _, rfl⟩

/-- exact outcome of a successful `diag` -/
theorem diag_ok {k : Option ℤ} {w : World P} {fr : List ℝ} {vs : List P.Vec} {w' : World P}
    (h : diag k w = (.ok (fr, vs), w')) :
    ∃ H k' raw t, k = some k' ∧ (hamiltonian w).1 = .ok H ∧ P.eigs H k' = .ok raw ∧
      fr = (sortEigs P.argsort raw).1.map (fun f => f / (2 * Real.pi * w.unitFreq)) ∧
      vs = (sortEigs P.argsort raw).2 ∧
      w' = { w with circ := { w.circ with
        trig := t, efreqs := (sortEigs P.argsort raw).1, evecs := (sortEigs P.argsort raw).2 } } := by
  unfold diag at h
  split at h
  · cases h
  · cases k with
    | none => cases h
    | some k' =>
      simp only [diagNp] at h
      have hf := hamiltonian_frame w
      cases hH : hamiltonian w with
      | mk r w1 =>
        rw [hH] at h hf
        simp only at hf
        have : ∃ t, w1 = { w with circ := { w.circ with trig := t } } := by
          rcases hf with h | ⟨t, h⟩
          · exact ⟨w.circ.trig, h⟩
          · exact ⟨t, h⟩
        obtain ⟨t, rfl⟩ := this
        cases r with
        | error e => cases h
        | ok H =>
          simp only at h
          cases hraw : P.eigs H k' with
          | error e => rw [hraw] at h; cases h
          | ok raw =>
            rw [hraw] at h
            simp only [Prod.mk.injEq, Except.ok.injEq] at h
            obtain ⟨⟨h1, h2⟩, h3⟩ := h
            exact ⟨H, k', raw, t, rfl, rfl, hraw, h1.symm, h2.symm, h3.symm⟩

theorem dimsOf_length (bd : P.BD) (nums : List ℤ) : (dimsOf P bd nums).length = P.nModes bd := by
  simp [dimsOf]

theorem truncateCircuit_state (K : Option ℤ) (w : World P) :
    (truncateCircuit K w).2 = w ∨ ∃ l, (truncateCircuit K w).2 = (setTruncNums (.list l) w).2 := by
  unfold truncateCircuit
  cases K with
  | none => exact Or.inl rfl
  | some K =>
    simp only
    split
    · exact Or.inl rfl
    · split
      · exact Or.inl rfl
      · refine Or.inr ⟨truncChoice P w.circ.bd K, ?_⟩
        cases setTruncNums (.list (truncChoice P w.circ.bd K)) w with
        | mk x w' => cases x <;> rfl

theorem buildOps_ok {c c' : Circ P} (h : c.buildOps = .ok c') :
    ∃ mem, P.memOps c.bd c.m c.ng = .ok mem ∧
      c' = { c with mem := some mem, lc := some (P.lc c.bd mem), exp := some (P.expOps c.bd c.m) } := by
  unfold Circ.buildOps at h
  split at h
  · cases h
  · rename_i mem hmem
    injection h with h
    exact ⟨mem, hmem, h.symm⟩

/-- outcome of `set_trunc_nums` -/
theorem setTruncNums_cases (a : NumsArg) (w : World P) :
    (setTruncNums a w = (.error .valueError, w) ∧
      ∀ nums, a = .list nums → nums.length ≠ P.nModes w.circ.bd) ∨
    ∃ nums, a = .list nums ∧ nums.length = P.nModes w.circ.bd ∧
      ((∃ e, (setTruncNums a w).1 = .error e ∧ (setTruncNums a w).2 = { w with circ := { w.circ with
          m := dimsOf P w.circ.bd nums, ms := (dimsOf P w.circ.bd nums).filter (fun x => x ≠ 1) } }) ∨
       (∃ mem, P.memOps w.circ.bd (dimsOf P w.circ.bd nums) w.circ.ng = .ok mem ∧
        (setTruncNums a w).1 = .ok () ∧ (setTruncNums a w).2 = { w with circ := { w.circ with
          m := dimsOf P w.circ.bd nums, ms := (dimsOf P w.circ.bd nums).filter (fun x => x ≠ 1),
          mem := some mem, lc := some (P.lc w.circ.bd mem),
          exp := some (P.expOps w.circ.bd (dimsOf P w.circ.bd nums)) } })) := by
  unfold setTruncNums
  cases a with
  | other => exact Or.inl ⟨rfl, by rintro _ ⟨⟩⟩
  | list nums =>
    simp only
    by_cases hl : nums.length = P.nModes w.circ.bd
    · refine Or.inr ⟨nums, rfl, hl, ?_⟩
      rw [if_neg (not_not.2 hl)]
      split
      · exact Or.inl ⟨_, rfl, rfl⟩
      · rename_i c' hc'
        obtain ⟨mem, hmem, rfl⟩ := buildOps_ok hc'
        exact Or.inr ⟨mem, hmem, rfl, rfl⟩
    · rw [if_pos hl]
      exact Or.inl ⟨rfl, by rintro _ ⟨⟩; exact hl⟩

theorem setTruncNums_eigs (a : NumsArg) (w : World P) :
    (setTruncNums a w).2.circ.efreqs = w.circ.efreqs ∧ (setTruncNums a w).2.circ.evecs = w.circ.evecs ∧
    (setTruncNums a w).2.vals = w.vals ∧ (setTruncNums a w).2.flux = w.flux ∧
    (setTruncNums a w).2.unitFreq = w.unitFreq := by
  rcases setTruncNums_cases a w with ⟨h, -⟩ | ⟨nums, -, -, ⟨e, -, h⟩ | ⟨mem, -, -, h⟩⟩ <;>
    (rw [h]; exact ⟨rfl, rfl, rfl, rfl, rfl⟩)

/-- outcome of `update` -/
theorem update_cases (w : World P) :
    (∃ e, update w = (.error e, w)) ∨
    ∃ bd, P.rebuild (P.nModes w.circ.bd) w.vals = .ok bd ∧
      ((∃ e, update w = (.error e, { w with circ :=
          { bd := bd, islands := w.circ.islands, m := w.circ.m, ms := w.circ.ms,
            mem := none, exp := none, lc := none, trig := none,
            efreqs := w.circ.efreqs, evecs := w.circ.evecs } })) ∨
       (∃ mem, P.memOps bd w.circ.m w.circ.ng = .ok mem ∧
        update w = (.ok (), { w with circ :=
          { bd := bd, islands := w.circ.islands, m := w.circ.m, ms := w.circ.ms,
            mem := some mem, exp := some (P.expOps bd w.circ.m), lc := some (P.lc bd mem), trig := none,
            efreqs := [], evecs := [] } }))) := by
  unfold update
  split
  · exact Or.inl ⟨_, rfl⟩
  · rename_i bd hbd
    refine Or.inr ⟨bd, hbd, ?_⟩
    simp only
    split
    · exact Or.inl ⟨_, rfl⟩
    · rename_i c' hc'
      obtain ⟨mem, hmem, rfl⟩ := buildOps_ok hc'
      exact Or.inr ⟨mem, hmem, rfl⟩

/-- no call but the two that set truncation numbers changes the dimensions -/
theorem exec_m (a : Act) (w : World P)
    (h : (∀ x, a ≠ .setTruncNums x) ∧ (∀ x, a ≠ .truncateCircuit x)) :
    (a.exec w).2.circ.m = w.circ.m := by
  cases a with
  | setTruncNums x => exact absurd rfl (h.1 x)
  | truncateCircuit x => exact absurd rfl (h.2 x)
  | setChargeOffset mode ng =>
    simp only [Act.exec, setChargeOffset]
    repeat' split
    all_goals rfl
  | setChargeNoise mode amp =>
    simp only [Act.exec, setChargeNoise]
    split <;> rfl
  | setFlux l v => rfl
  | setValue i v => rfl
  | setUnitFreq u => rfl
  | hamiltonian =>
    rcases hamiltonian_frame w with h | ⟨t, h⟩ <;> (simp only [Act.exec]; rw [h])
  | diag k =>
    obtain ⟨t, f, v, h⟩ := diag_frame k w
    simp only [Act.exec]; rw [h]
  | update =>
    simp only [Act.exec]
    rcases update_cases w with ⟨e, h⟩ | ⟨bd, -, ⟨e, h⟩ | ⟨mem, -, h⟩⟩ <;> rw [h]

/-- no call but `diag` and `update` changes the stored eigenpairs -/
theorem exec_eigs (a : Act) (w : World P) (h : (∀ x, a ≠ .diag x) ∧ a ≠ .update) :
    (a.exec w).2.circ.efreqs = w.circ.efreqs ∧ (a.exec w).2.circ.evecs = w.circ.evecs := by
  cases a with
  | setTruncNums x =>
    exact ⟨(setTruncNums_eigs x w).1, (setTruncNums_eigs x w).2.1⟩
  | truncateCircuit x =>
    simp only [Act.exec]
    rcases truncateCircuit_state x w with h | ⟨l, h⟩
    · rw [h]; exact ⟨rfl, rfl⟩
    · rw [h]; exact ⟨(setTruncNums_eigs _ w).1, (setTruncNums_eigs _ w).2.1⟩
  | setChargeOffset mode ng =>
    simp only [Act.exec, setChargeOffset]
    repeat' split
    all_goals exact ⟨rfl, rfl⟩
  | setChargeNoise mode amp =>
    simp only [Act.exec, setChargeNoise]
    split <;> exact ⟨rfl, rfl⟩
  | setFlux l v => exact ⟨rfl, rfl⟩
  | setValue i v => exact ⟨rfl, rfl⟩
  | setUnitFreq u => exact ⟨rfl, rfl⟩
  | hamiltonian =>
    rcases hamiltonian_frame w with h | ⟨t, h⟩ <;> (simp only [Act.exec]; rw [h]; exact ⟨rfl, rfl⟩)
  | diag k => exact absurd rfl (h.1 k)
  | update => exact absurd rfl h.2

/-- `update` clears the eigenpairs or leaves them alone -/
theorem update_eigs (w : World P) :
    ((update w).2.circ.efreqs = w.circ.efreqs ∧ (update w).2.circ.evecs = w.circ.evecs) ∨
    ((update w).2.circ.efreqs = [] ∧ (update w).2.circ.evecs = []) := by
  rcases update_cases w with ⟨e, h⟩ | ⟨bd, -, ⟨e, h⟩ | ⟨mem, -, h⟩⟩ <;> rw [h]
  · exact Or.inl ⟨rfl, rfl⟩
  · exact Or.inl ⟨rfl, rfl⟩
  · exact Or.inr ⟨rfl, rfl⟩

theorem diag_of_eigs {w : World P} {H : P.Op} {k : ℤ} {raw : List (ℂ × P.Vec)}
    (hm : w.circ.m ≠ []) (hH : (hamiltonian w).1 = .ok H) (hr : P.eigs H k = .ok raw) :
    ∃ t, diag (some k) w = (.ok ((sortEigs P.argsort raw).1.map
        (fun f => f / (2 * Real.pi * w.unitFreq)), (sortEigs P.argsort raw).2),
      { w with circ := { w.circ with trig := t, efreqs := (sortEigs P.argsort raw).1,
                                     evecs := (sortEigs P.argsort raw).2 } }) := by
  unfold diag
  rw [if_neg (by rw [List.length_eq_zero_iff]; exact hm)]
  simp only [diagNp]
  have hfr := hamiltonian_frame w
  cases hx : hamiltonian w with
  | mk r w1 =>
    rw [hx] at hH hfr
    simp only at hH hfr
    subst hH
    simp only
    rw [hr]
    simp only
    rcases hfr with h1 | ⟨t, h1⟩
    · subst h1; exact ⟨_, rfl⟩
    · subst h1; exact ⟨t, rfl⟩

theorem setTruncNums_ok {w : World P} {nums : List ℤ} {mem} (hl : nums.length = P.nModes w.circ.bd)
    (hm : P.memOps w.circ.bd (dimsOf P w.circ.bd nums) w.circ.ng = .ok mem) :
    setTruncNums (.list nums) w = (.ok (), { w with circ := { w.circ with
      m := dimsOf P w.circ.bd nums
      ms := (dimsOf P w.circ.bd nums).filter (fun x => x ≠ 1)
      mem := some mem, lc := some (P.lc w.circ.bd mem)
      exp := some (P.expOps w.circ.bd (dimsOf P w.circ.bd nums)) } }) := by
  unfold setTruncNums
  simp only
  rw [if_neg (by simpa using hl)]
  unfold Circ.buildOps
  unfold Circ.ng at hm ⊢
  simp only
  rw [hm]

theorem setChargeOffset_ok {w : World P} {mode : Option ℤ} {ng : ℝ} {i : ℕ} {o : ChargeObj} {mem}
    (hi : islandOf w.circ mode = some (i, o)) (hm0 : w.circ.m ≠ [])
    (hm : P.memOps w.circ.bd w.circ.m (w.circ.setIsland i (o.setOffset ng)).ng = .ok mem) :
    setChargeOffset mode ng w = (.ok (), { w with circ :=
      { w.circ.setIsland i (o.setOffset ng) with
          mem := some mem, lc := some (P.lc w.circ.bd mem) } }) := by
  unfold setChargeOffset
  rw [hi]
  simp only
  rw [if_neg (by rw [List.length_eq_zero_iff]; exact hm0), hm]

theorem update_ok {w : World P} {bd : P.BD} {mem : P.Mem bd}
    (h : P.rebuild (P.nModes w.circ.bd) w.vals = .ok bd)
    (hm : P.memOps bd w.circ.m w.circ.ng = .ok mem) :
    update w = (.ok (), { w with circ :=
          { bd := bd, islands := w.circ.islands, m := w.circ.m, ms := w.circ.ms,
            mem := some mem, lc := some (P.lc bd mem),
            exp := some (P.expOps bd w.circ.m), trig := none,
            efreqs := [], evecs := [] } }) := by
  unfold update
  rw [h]
  simp only [Circ.buildOps]
  unfold Circ.ng at hm ⊢
  rw [hm]

/-- The operators stored by the circuit are those for its build data, dimensions and offsets; the
build data have the property `Q`. -/
def Coherent (w : World P) (Q : P.BD → Prop) : Prop :=
  Q w.circ.bd ∧
  (w.circ.m = [] ∨ ∃ mem, P.memOps w.circ.bd w.circ.m w.circ.ng = .ok mem ∧ w.circ.mem = some mem ∧
    w.circ.lc = some (P.lc w.circ.bd mem) ∧ w.circ.exp = some (P.expOps w.circ.bd w.circ.m))

theorem coherent_setTruncNums {w : World P} {Q : P.BD → Prop} (hc : Coherent w Q) (a : NumsArg)
    (h : (setTruncNums a w).1 = .ok () ∨ (setTruncNums a w).2 = w) :
    Coherent (setTruncNums a w).2 Q := by
  rcases h with h | h
  · rcases setTruncNums_cases a w with ⟨h1, -⟩ | ⟨nums, -, -, ⟨e, h1, -⟩ | ⟨mem, hmem, -, h2⟩⟩
    · rw [h1]; exact hc
    · rw [h1] at h; cases h
    · rw [h2]
      exact ⟨hc.1, Or.inr ⟨mem, hmem, rfl, rfl, rfl⟩⟩
  · rw [h]; exact hc

theorem coherent_setChargeOffset {w : World P} {Q : P.BD → Prop} (hc : Coherent w Q)
    (mode : Option ℤ) (ng : ℝ)
    (h : (setChargeOffset mode ng w).1 = .ok () ∨ (setChargeOffset mode ng w).2 = w) :
    Coherent (setChargeOffset mode ng w).2 Q := by
  rcases h with h | h
  · unfold setChargeOffset at h ⊢
    cases hi : islandOf w.circ mode with
    | none => rw [hi] at h; cases h
    | some p =>
      obtain ⟨i, o⟩ := p
      rw [hi] at h
      simp only at h ⊢
      by_cases h0 : w.circ.m.length = 0
      · rw [if_pos h0]
        exact ⟨hc.1, Or.inl (List.length_eq_zero_iff.1 h0)⟩
      · rw [if_neg h0] at h ⊢
        cases hm : P.memOps w.circ.bd w.circ.m (w.circ.setIsland i (o.setOffset ng)).ng with
        | error e => rw [hm] at h; cases h
        | ok mem =>
          refine ⟨hc.1, Or.inr ⟨mem, hm, rfl, rfl, ?_⟩⟩
          rcases hc.2 with hm | ⟨mem, -, -, -, hx⟩
          · exact absurd (List.length_eq_zero_iff.2 hm) h0
          · exact hx
  · rw [h]; exact hc

theorem coherent_update {w : World P} {Q : P.BD → Prop}
    (hre : ∀ bd, P.rebuild (P.nModes w.circ.bd) w.vals = .ok bd → Q bd) (h : (update w).1 = .ok ()) :
    Coherent (update w).2 Q := by
  rcases update_cases w with ⟨e, h1⟩ | ⟨bd, hbd, ⟨e, h1⟩ | ⟨mem, hmem, h1⟩⟩
  · rw [h1] at h; cases h
  · rw [h1] at h; cases h
  · rw [h1]
    exact ⟨hre _ hbd, Or.inr ⟨mem, hmem, rfl, rfl, rfl⟩⟩

theorem coherent_construct {vals : ElemId → ℝ} {flux : LoopId → ℝ} {u : ℝ} {w : World P}
    (hw : construct P vals flux u = .ok w) {Q : P.BD → Prop}
    (hQ : ∀ bd, P.build vals = .ok bd → Q bd) : Coherent w Q := by
  unfold construct at hw
  split at hw
  · cases hw
  · rename_i bd hbd
    injection hw with hw
    subst hw
    exact ⟨hQ _ hbd, Or.inl rfl⟩

/-- histories preserve coherence; `Q v` is what building from the values `v` guarantees -/
theorem coherent_run (Q : (ElemId → ℝ) → P.BD → Prop) : ∀ (h : List Act) (w : World P)
    (v0 : ElemId → ℝ), Coherent w (Q v0) → Orderly w h →
    (∀ h1 h2, h = h1 ++ .update :: h2 → ∀ bd,
      P.rebuild (P.nModes (run w h1).circ.bd) (run w h1).vals = .ok bd → Q (run w h1).vals bd) →
    Coherent (run w h) (Q (lastBuilt v0 w h)) := by
  intro h
  induction h with
  | nil => intro w v0 hc _ _; exact hc
  | cons a h ih =>
    intro w v0 hc ho hre
    obtain ⟨hm, ho⟩ := ho
    have hre' : ∀ h1 h2, h = h1 ++ .update :: h2 →
        ∀ bd, P.rebuild (P.nModes (run (a.exec w).2 h1).circ.bd) (run (a.exec w).2 h1).vals = .ok bd →
          Q (run (a.exec w).2 h1).vals bd := by
      intro h1 h2 he
      exact hre (a :: h1) h2 (by rw [he]; rfl)
    change Coherent (run (a.exec w).2 h) _
    cases a with
    | setTruncNums x => exact ih _ _ (coherent_setTruncNums hc x (hm rfl)) ho hre'
    | setChargeOffset mode ng => exact ih _ _ (coherent_setChargeOffset hc mode ng (hm rfl)) ho hre'
    | truncateCircuit K =>
      refine ih _ _ ?_ ho hre'
      have hm' := hm rfl
      simp only [Act.exec] at hm' ⊢
      rcases truncateCircuit_state K w with h1 | ⟨l, h1⟩
      · rw [h1]; exact hc
      · rcases hm' with h2 | h2
        · cases K with
          | none => simp [truncateCircuit, Except.map] at h2
          | some K =>
            unfold truncateCircuit at h2 ⊢
            simp only at h2 ⊢
            split at h2
            · cases h2
            · rename_i hK
              rw [if_neg hK]
              split at h2
              · cases h2
              · rename_i hn
                rw [if_neg hn]
                revert h2
                cases hs : setTruncNums (.list (truncChoice P w.circ.bd K)) w with
                | mk x w' =>
                  have hw' : (setTruncNums (.list (truncChoice P w.circ.bd K)) w).2 = w' := by rw [hs]
                  cases x with
                  | error e => intro h2; cases h2
                  | ok x =>
                    intro _
                    have := coherent_setTruncNums hc (.list (truncChoice P w.circ.bd K))
                      (Or.inl (by rw [hs]))
                    rwa [hw'] at this
        · rw [h2]; exact hc
    | setChargeNoise mode amp =>
      refine ih _ _ ?_ ho hre'
      have : (setChargeNoise mode amp w).2 = w := by unfold setChargeNoise; split <;> rfl
      simp only [Act.exec]; rw [this]; exact hc
    | setFlux l v => exact ih _ _ hc ho hre'
    | setValue i v => exact ih _ _ hc ho hre'
    | setUnitFreq v => exact ih _ _ hc ho hre'
    | hamiltonian =>
      refine ih _ _ ?_ ho hre'
      simp only [Act.exec]
      rcases hamiltonian_frame w with h1 | ⟨t, h1⟩ <;> (rw [h1]; exact hc)
    | diag k =>
      refine ih _ _ ?_ ho hre'
      obtain ⟨t, f, v, h1⟩ := diag_frame k w
      simp only [Act.exec]; rw [h1]; exact hc
    | update =>
      simp only [lastBuilt]
      have hr := hre [] h rfl
      cases hu : (Act.exec .update w).1 with
      | ok x => exact ih _ _ (coherent_update hr hu) ho hre'
      | error e =>
        refine ih _ _ ?_ ho hre'
        rcases hm rfl with h1 | h1
        · rw [h1] at hu; cases hu
        · rw [h1]; exact hc

end SQ
