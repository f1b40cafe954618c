import Verif.Model.CircuitPhys

/-!
# Two circuits that differ only in how they are built
-/

namespace SQ

/-- the same numerical content with other construction functions -/
def Phys.rebased (P : Phys) (b : (ElemId → ℝ) → Except PyErr P.BD) (r : ℕ → (ElemId → ℝ) → Except PyErr P.BD) : Phys :=
  { P with build := b, rebuild := r }

variable {P : Phys} {b : (ElemId → ℝ) → Except PyErr P.BD} {r : ℕ → (ElemId → ℝ) → Except PyErr P.BD}

def Circ.rebase (c : Circ (P.rebased b r)) : Circ P :=
  { bd := c.bd, islands := c.islands, m := c.m, ms := c.ms, mem := c.mem, exp := c.exp, lc := c.lc, trig := c.trig
    efreqs := c.efreqs, evecs := c.evecs }

def World.rebase (w : World (P.rebased b r)) : World P :=
  { circ := w.circ.rebase, vals := w.vals, flux := w.flux, unitFreq := w.unitFreq }

theorem rebase_buildOps (c : Circ (P.rebased b r)) : c.rebase.buildOps = c.buildOps.map Circ.rebase := by
  unfold Circ.buildOps
  have h : (P.rebased b r).memOps c.bd c.m c.ng = P.memOps c.rebase.bd c.rebase.m c.rebase.ng := rfl
  rcases h' : P.memOps c.rebase.bd c.rebase.m c.rebase.ng with e | mem
  · rw [h'] at h
    rw [h]
    rfl
  · rw [h'] at h
    rw [h]
    rfl

theorem rebase_setTruncNums (a : NumsArg) (w : World (P.rebased b r)) :
    setTruncNums a w.rebase = ((setTruncNums a w).1, (setTruncNums a w).2.rebase) := by
  cases a with
  | other => rfl
  | list nums =>
    unfold setTruncNums
    by_cases h : nums.length ≠ P.nModes w.circ.bd
    · have h' : nums.length ≠ (P.rebased b r).nModes w.circ.bd := h
      simp only
      rw [if_pos h', if_pos (show nums.length ≠ P.nModes w.rebase.circ.bd from h)]
    · have h' : ¬ nums.length ≠ (P.rebased b r).nModes w.circ.bd := h
      simp only
      rw [if_neg h', if_neg (show ¬ nums.length ≠ P.nModes w.rebase.circ.bd from h)]
      have hc := rebase_buildOps ({ w.circ with
        m := dimsOf (P.rebased b r) w.circ.bd nums
        ms := (dimsOf (P.rebased b r) w.circ.bd nums).filter (fun x => x ≠ 1) } : Circ (P.rebased b r))
      have hd : dimsOf (P.rebased b r) w.circ.bd nums = dimsOf P w.rebase.circ.bd nums := rfl
      rcases ho : Circ.buildOps ({ w.circ with
        m := dimsOf (P.rebased b r) w.circ.bd nums
        ms := (dimsOf (P.rebased b r) w.circ.bd nums).filter (fun x => x ≠ 1) } : Circ (P.rebased b r)) with e | c
      · rw [ho] at hc
        have hc' : Circ.buildOps ({ w.rebase.circ with
          m := dimsOf P w.rebase.circ.bd nums
          ms := (dimsOf P w.rebase.circ.bd nums).filter (fun x => x ≠ 1) } : Circ P) = .error e := hc
        rw [hc']
        rfl
      · rw [ho] at hc
        have hc' : Circ.buildOps ({ w.rebase.circ with
          m := dimsOf P w.rebase.circ.bd nums
          ms := (dimsOf P w.rebase.circ.bd nums).filter (fun x => x ≠ 1) } : Circ P) = .ok c.rebase := hc
        rw [hc']
        rfl

theorem rebase_setChargeOffset (mode : Option ℤ) (g : ℝ) (w : World (P.rebased b r)) :
    setChargeOffset mode g w.rebase = ((setChargeOffset mode g w).1, (setChargeOffset mode g w).2.rebase) := by
  unfold setChargeOffset
  have h1 : islandOf w.rebase.circ mode = islandOf w.circ mode := rfl
  rw [h1]
  rcases islandOf w.circ mode with _ | ⟨i, o⟩
  · rfl
  · simp only
    by_cases hm : w.circ.m.length = 0
    · rw [if_pos hm, if_pos (show w.rebase.circ.m.length = 0 from hm)]
      rfl
    · rw [if_neg hm, if_neg (show ¬ w.rebase.circ.m.length = 0 from hm)]
      have h2 : P.memOps w.rebase.circ.bd w.rebase.circ.m (w.rebase.circ.setIsland i (o.setOffset g)).ng =
        (P.rebased b r).memOps w.circ.bd w.circ.m (w.circ.setIsland i (o.setOffset g)).ng := rfl
      rw [h2]
      rcases (P.rebased b r).memOps w.circ.bd w.circ.m (w.circ.setIsland i (o.setOffset g)).ng with e | mem
      · rfl
      · rfl

theorem rebase_setChargeNoise (mode : Option ℤ) (g : ℝ) (w : World (P.rebased b r)) :
    setChargeNoise mode g w.rebase = ((setChargeNoise mode g w).1, (setChargeNoise mode g w).2.rebase) := by
  unfold setChargeNoise
  have h1 : islandOf w.rebase.circ mode = islandOf w.circ mode := rfl
  rw [h1]
  rcases islandOf w.circ mode with _ | ⟨i, o⟩ <;> rfl

theorem rebase_hamiltonian (w : World (P.rebased b r)) :
    hamiltonian w.rebase = ((hamiltonian w).1, (hamiltonian w).2.rebase) := by
  unfold hamiltonian
  by_cases hm : w.circ.m.length = 0
  · rw [if_pos hm, if_pos (show w.rebase.circ.m.length = 0 from hm)]
    rfl
  · rw [if_neg hm, if_neg (show ¬ w.rebase.circ.m.length = 0 from hm)]
    rcases w with ⟨⟨bd, isl, m, ms, mem, ex, lc, tr, ef, ev⟩, v, f, u⟩
    rcases mem with _ | mem
    · rfl
    rcases ex with _ | ex
    · rfl
    rcases lc with _ | lc
    · rfl
    show (match P.ham bd mem ex lc v f with
      | .error e => _
      | .ok H => _) = _
    simp only [World.rebase, Circ.rebase]
    have h2 : (P.rebased b r).ham bd mem ex lc v f = P.ham bd mem ex lc v f := rfl
    rw [h2]
    rcases P.ham bd mem ex lc v f with e | H <;> rfl

theorem rebase_diag (k : Option ℤ) (w : World (P.rebased b r)) :
    diag k w.rebase = ((diag k w).1, (diag k w).2.rebase) := by
  unfold diag
  by_cases hm : w.circ.m.length = 0
  · rw [if_pos hm, if_pos (show w.rebase.circ.m.length = 0 from hm)]
    rfl
  · rw [if_neg hm, if_neg (show ¬ w.rebase.circ.m.length = 0 from hm)]
    cases k with
    | none => rfl
    | some k =>
      simp only
      unfold diagNp
      rw [rebase_hamiltonian]
      rcases hamiltonian w with ⟨e | H, w'⟩
      · rfl
      · simp only
        have h2 : (P.rebased b r).eigs H k = P.eigs H k := rfl
        rw [h2]
        rcases P.eigs H k with e | raw <;> rfl

theorem rebase_update (hr : ∀ n v, r n v = P.rebuild n v) (w : World (P.rebased b r)) :
    update w.rebase = ((update w).1, (update w).2.rebase) := by
  unfold update
  have h1 : (P.rebased b r).rebuild ((P.rebased b r).nModes w.circ.bd) w.vals =
      P.rebuild (P.nModes w.rebase.circ.bd) w.rebase.vals := hr _ _
  rw [h1]
  rcases P.rebuild (P.nModes w.rebase.circ.bd) w.rebase.vals with e | bd
  · rfl
  · simp only
    have hc := rebase_buildOps ({ bd := bd, islands := w.circ.islands, m := w.circ.m, ms := w.circ.ms, mem := none, exp := none, lc := none, trig := none, efreqs := w.circ.efreqs, evecs := w.circ.evecs } : Circ (P.rebased b r))
    have hc' : Circ.buildOps ({ bd := bd, islands := w.rebase.circ.islands, m := w.rebase.circ.m, ms := w.rebase.circ.ms, mem := none, exp := none, lc := none, trig := none, efreqs := w.rebase.circ.efreqs, evecs := w.rebase.circ.evecs } : Circ P) = _ := hc
    rw [hc']
    rcases Circ.buildOps ({ bd := bd, islands := w.circ.islands, m := w.circ.m, ms := w.circ.ms, mem := none, exp := none, lc := none, trig := none, efreqs := w.circ.efreqs, evecs := w.circ.evecs } : Circ (P.rebased b r)) with e | c <;> rfl

theorem rebase_truncateCircuit (K : Option ℤ) (w : World (P.rebased b r)) :
    truncateCircuit K w.rebase = ((truncateCircuit K w).1, (truncateCircuit K w).2.rebase) := by
  unfold truncateCircuit
  cases K with
  | none => rfl
  | some K =>
    simp only
    by_cases h1 : K < 1
    · rw [if_pos h1, if_pos h1]
    rw [if_neg h1, if_neg h1]
    by_cases h2 : P.nModes w.circ.bd = 0
    · rw [if_pos (show P.nModes w.rebase.circ.bd = 0 from h2), if_pos (show (P.rebased b r).nModes w.circ.bd = 0 from h2)]
    rw [if_neg (show ¬ P.nModes w.rebase.circ.bd = 0 from h2), if_neg (show ¬ (P.rebased b r).nModes w.circ.bd = 0 from h2)]
    have h3 : truncChoice P w.rebase.circ.bd K = truncChoice (P.rebased b r) w.circ.bd K := rfl
    rw [h3, rebase_setTruncNums]
    rcases setTruncNums (.list (truncChoice (P.rebased b r) w.circ.bd K)) w with ⟨e | x, w'⟩ <;> rfl

theorem rebase_exec (hr : ∀ n v, r n v = P.rebuild n v) (a : Act) (w : World (P.rebased b r)) :
    a.exec w.rebase = ((a.exec w).1, (a.exec w).2.rebase) := by
  cases a with
  | setTruncNums a => exact rebase_setTruncNums a w
  | setChargeOffset mode g => exact rebase_setChargeOffset mode g w
  | setChargeNoise mode g => exact rebase_setChargeNoise mode g w
  | truncateCircuit K => simp only [Act.exec, rebase_truncateCircuit]
  | setFlux l v => rfl
  | setValue i v => rfl
  | setUnitFreq u => rfl
  | hamiltonian => simp only [Act.exec, rebase_hamiltonian]; rfl
  | diag k => simp only [Act.exec, rebase_diag]; rfl
  | update => exact rebase_update hr w

theorem rebase_run (hr : ∀ n v, r n v = P.rebuild n v) : ∀ (h : List Act) (w : World (P.rebased b r)),
    run w.rebase h = (run w h).rebase
  | [], _ => rfl
  | a :: h, w => by
    show run ((a.exec w.rebase).2) h = (run ((a.exec w).2) h).rebase
    rw [rebase_exec hr]
    exact rebase_run hr h _

end SQ
