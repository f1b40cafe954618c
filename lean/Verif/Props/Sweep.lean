import Mathlib.Data.List.GetD
import Verif.Props.Converge
import Verif.Props.CircuitState

/-! # Property C69: sweeps -/

namespace SQ
open Spec

variable {P : Phys}

/-- one grid point: set the parameter, then diagonalise -/
noncomputable def gridPoint (set : ℝ → World P → Call (World P) Unit) (numEig : ℕ) (v : ℝ) (w : World P) :
    Call (World P) (List ℝ) :=
  match set v w with
  | (.error e, w) => (.error e, w)
  | (.ok _, w) =>
    match diag (some numEig) w with
    | (.error e, w) => (.error e, w)
    | (.ok (ev, _), w) => (.ok ev, w)

theorem gridPoint_ok {set : ℝ → World P → Call (World P) Unit} {numEig : ℕ} {v : ℝ} {w w1 : World P}
    (h : set v w = (.ok (), w1)) :
    gridPoint set numEig v w = ((diag (some (numEig : ℤ)) w1).1.map Prod.fst, (diag (some (numEig : ℤ)) w1).2) := by
  unfold gridPoint
  rw [h]
  simp only
  rcases diag (some (numEig : ℤ)) w1 with ⟨_ | ⟨_, _⟩, _⟩ <;> rfl

theorem gridPoint_err {set : ℝ → World P → Call (World P) Unit} {numEig : ℕ} {v : ℝ} {w w1 : World P} {e : PyErr}
    (h : set v w = (.error e, w1)) : gridPoint set numEig v w = (.error e, w1) := by
  unfold gridPoint
  rw [h]

theorem setParams_one (set : ℕ → ℝ → World P → Call (World P) Unit) (g : List ℝ) (i : ℕ) (w : World P) :
    setParams set [g] (([i] : List ℕ).zipIdx.map Prod.swap) w = set 0 (g.getD i 0) w := by
  show setParams set [g] [(0, i)] w = _
  rw [setParams]
  simp only [List.getD_cons_zero]
  rcases set 0 (g.getD i 0) w with ⟨_ | _, _⟩ <;> rfl

theorem gridIndices_one (n : ℕ) : gridIndices [n] = (List.range n).map fun i => [i] := by
  exact (List.map_eq_flatMap (f := fun i => [i]) (l := List.range n)).symm

theorem assign_one {numEig n : ℕ} (tab : ℕ → List ℕ → ℝ) {i : ℕ} (hi : i < n) {ev : List ℝ}
    (hev : ev.length = numEig) :
    ∃ tab', assignEfreq numEig [n] tab [i] ev = .ok tab' ∧ (∀ e, tab' e [i] = ev.getD e 0) ∧
      ∀ e j, j ≠ i → tab' e [j] = tab e [j] := by
  unfold assignEfreq
  dsimp only
  rw [if_neg (by simp; omega), if_neg (by simp [hev])]
  refine ⟨_, rfl, ?_, ?_⟩
  · intro e
    simp [rowMajor]
  · intro e j hj
    have : (List.range [i].length).filter (fun p => decide ([i].getD p 0 = j)) = [] := by
      simp [Ne.symm hj]
    simp only [this]
    rfl

theorem loop_one (set : ℕ → ℝ → World P → Call (World P) Unit) (numEig : ℕ) (g : List ℝ) (w0 : World P)
    (R : World P → Prop)
    (hstep : ∀ w, R w → ∀ v, (gridPoint (set 0) numEig v w).1 = (gridPoint (set 0) numEig v w0).1 ∧
      R (gridPoint (set 0) numEig v w).2)
    (hok : ∀ i < g.length, ∃ ev, (gridPoint (set 0) numEig (g.getD i 0) w0).1 = .ok ev ∧ ev.length = numEig)
    (is : List ℕ) (his : ∀ i ∈ is, i < g.length) (hnd : is.Nodup) (tab : ℕ → List ℕ → ℝ) (w : World P) (hw : R w) :
    ∃ tab' w', sweepLoop set numEig [g] (is.map fun i => [i]) tab w = (.ok tab', w') ∧ R w' ∧
      (∀ i ∈ is, ∀ ev, (gridPoint (set 0) numEig (g.getD i 0) w0).1 = .ok ev → ∀ e, tab' e [i] = ev.getD e 0) ∧
      (∀ j, j ∉ is → ∀ e, tab' e [j] = tab e [j]) := by
  induction is generalizing tab w with
  | nil => exact ⟨tab, w, rfl, hw, by simp, fun _ _ _ => rfl⟩
  | cons i is ih =>
    obtain ⟨h1, h2⟩ := hstep w hw (g.getD i 0)
    obtain ⟨ev, hev, hlen⟩ := hok i (his i (by simp))
    rw [hev] at h1
    rw [List.map_cons, sweepLoop]
    rw [setParams_one]
    unfold gridPoint at h1 h2
    rcases hs : set 0 (g.getD i 0) w with ⟨_ | _, w1⟩
    · rw [hs] at h1; cases h1
    · rw [hs] at h1 h2
      simp only at h1 h2 ⊢
      rcases hd : diag (some (numEig : ℤ)) w1 with ⟨_ | ⟨ev', vs⟩, w2⟩
      · rw [hd] at h1; cases h1
      · rw [hd] at h1 h2
        simp only at h1 h2 ⊢
        injection h1 with h1
        subst h1
        obtain ⟨tab1, ht, ht1, ht2⟩ := assign_one tab (his i (by simp)) hlen
        have ht' : assignEfreq numEig (List.map List.length [g]) tab [i] ev' = .ok tab1 := ht
        rw [ht']
        obtain ⟨tab', w', ha, hb, hc, hd'⟩ := ih (fun j hj => his j (by simp [hj])) (List.nodup_cons.1 hnd).2 tab1 w2 h2
        refine ⟨tab', w', ha, hb, ?_, ?_⟩
        · intro j hj ev'' hev'' e
          rcases List.mem_cons.1 hj with rfl | hj'
          · rw [hd' j (List.nodup_cons.1 hnd).1 e, ht1]
            rw [hev] at hev''
            injection hev'' with hev''
            rw [hev'']
          · exact hc j hj' ev'' hev'' e
        · intro j hj e
          rw [hd' j (fun h => hj (by simp [h])) e, ht2 e j (fun h => hj (by simp [h]))]

/-- the circuit up to what diagonalisation stores -/
def SameUpToEigs (c c' : Circ P) : Prop := ∃ t f v, c' = { c with trig := t, efreqs := f, evecs := v }

theorem diag_same {w w' : World P} (hc : SameUpToEigs w.circ w'.circ) (hv : w'.vals = w.vals) (hf : w'.flux = w.flux)
    (hu : w'.unitFreq = w.unitFreq) (k : Option ℤ) :
    (diag k w').1 = (diag k w).1 ∧ SameUpToEigs w.circ (diag k w').2.circ ∧ (diag k w').2.vals = w'.vals ∧
    (diag k w').2.flux = w'.flux ∧ (diag k w').2.unitFreq = w'.unitFreq := by
  obtain ⟨⟨bd, isl, m, ms, mem, exp, lc, trig, ef, evs⟩, vals, flux, unit⟩ := w
  obtain ⟨c', vals', flux', unit'⟩ := w'
  obtain ⟨t, f, v, h⟩ := hc
  simp only at h hv hf hu
  subst h hv hf hu
  unfold diag
  by_cases hm : m.length = 0
  · simp only [hm, if_true]
    exact ⟨trivial, ⟨_, _, _, rfl⟩, trivial, trivial, trivial⟩
  · simp only [hm, if_false]
    cases k with
    | none => exact ⟨rfl, ⟨_, _, _, rfl⟩, rfl, rfl, rfl⟩
    | some k =>
      unfold diagNp hamiltonian
      simp only [hm, if_false]
      rcases mem with _ | mem
      · exact ⟨rfl, ⟨_, _, _, rfl⟩, rfl, rfl, rfl⟩
      rcases exp with _ | exp
      · exact ⟨rfl, ⟨_, _, _, rfl⟩, rfl, rfl, rfl⟩
      rcases lc with _ | lc
      · exact ⟨rfl, ⟨_, _, _, rfl⟩, rfl, rfl, rfl⟩
      simp only
      rcases P.ham bd mem exp lc vals' flux' with e | H
      · exact ⟨rfl, ⟨_, _, _, rfl⟩, rfl, rfl, rfl⟩
      · simp only
        rcases P.eigs H k with e | raw
        · exact ⟨rfl, ⟨_, _, _, rfl⟩, rfl, rfl, rfl⟩
        · exact ⟨rfl, ⟨_, _, _, rfl⟩, rfl, rfl, rfl⟩

/-- C69 for one-dimensional flux sweeps: if the circuit can be diagonalised at every grid point, the
entry of the table at grid index j is the spectrum obtained by setting the loop to grid point j (in the
circuit as it was before the sweep) and diagonalising. Missing: grids of two or more dimensions, where
the sweep always fails (`C69_refuted`). -/
theorem C69_flux_partial (l : LoopId) (ls : List LoopId) (numEig : ℕ) (g : List ℝ) (w : World P)
    (spectrum : ℕ → List ℝ)
    (hok : ∀ j < g.length,
      (∃ vs, (diag (some numEig) ((Act.setFlux l (g.getD j 0)).exec w).2).1 = .ok (spectrum j, vs)) ∧
      (spectrum j).length = numEig) :
    ∃ tab w', sweepFlux (l :: ls) numEig [g] w = (.ok tab, w') ∧
      (∀ j < g.length, ∀ e < numEig, tab e [j] = (spectrum j).getD e 0) ∧
      w'.vals = w.vals ∧ w'.circ.m = w.circ.m ∧ w'.circ.islands = w.circ.islands ∧
      (∀ l', l' ≠ l → w'.flux l' = w.flux l') := by
  classical
  let R : World P → Prop := fun w' => SameUpToEigs w.circ w'.circ ∧ w'.vals = w.vals ∧ w'.unitFreq = w.unitFreq ∧
    ∃ x, w'.flux = Function.update w.flux l x
  have hset : ∀ (v : ℝ) (w' : World P), setLoop (l :: ls) 0 v w' = (Act.setFlux l v).exec w' := fun v w' => rfl
  have hstep : ∀ w', R w' → ∀ v, (gridPoint (setLoop (l :: ls) 0) numEig v w').1
      = (gridPoint (setLoop (l :: ls) 0) numEig v w).1 ∧ R (gridPoint (setLoop (l :: ls) 0) numEig v w').2 := by
    rintro w' ⟨h1, h2, h3, x, h4⟩ v
    have key := diag_same (w := ((Act.setFlux l v).exec w).2) (w' := ((Act.setFlux l v).exec w').2) h1 h2
      (by show Function.update w'.flux l _ = Function.update w.flux l _; rw [h4, Function.update_idem]) h3 (some numEig)
    obtain ⟨k1, k2, k3, k4, k5⟩ := key
    have hfl : ((Act.setFlux l v).exec w').2.flux = Function.update w.flux l (v * 2 * Real.pi) := by
      show Function.update w'.flux l _ = _
      rw [h4, Function.update_idem]
    have e1 := gridPoint_ok (numEig := numEig) (hset v w')
    have e2 := gridPoint_ok (numEig := numEig) (hset v w)
    rw [e1, e2]
    refine ⟨congrArg (Except.map Prod.fst) k1, k2, ?_, ?_, v * 2 * Real.pi, ?_⟩
    · exact k3.trans h2
    · exact k5.trans h3
    · exact k4.trans hfl
  have hgp : ∀ j < g.length, (gridPoint (setLoop (l :: ls) 0) numEig (g.getD j 0) w).1 = .ok (spectrum j) := by
    intro j hj
    obtain ⟨⟨vs, hd⟩, -⟩ := hok j hj
    have hd' : (diag (some (numEig : ℤ)) ((Act.setFlux l (g.getD j 0)).exec w).2).1 = _ := hd
    rw [gridPoint_ok (numEig := numEig) (hset (g.getD j 0) w)]
    exact congrArg (Except.map Prod.fst) hd'
  obtain ⟨tab', w', h1, ⟨h2, h3, h4, x, h5⟩, h6, -⟩ := loop_one (setLoop (l :: ls)) numEig g w R hstep
    (fun i hi => ⟨spectrum i, hgp i hi, (hok i hi).2⟩) (List.range g.length) (by simp) List.nodup_range (fun _ _ => 0) w
    ⟨⟨_, _, _, rfl⟩, rfl, rfl, w.flux l, (Function.update_eq_self _ _).symm⟩
  refine ⟨tab', w', ?_, ?_, h3, ?_, ?_, ?_⟩
  · unfold sweepFlux sweep
    rw [List.map_singleton, gridIndices_one]
    exact h1
  · intro j hj e he
    exact h6 j (by simpa using hj) _ (hgp j hj) e
  · obtain ⟨_, _, _, h⟩ := h2; rw [h]
  · obtain ⟨_, _, _, h⟩ := h2; rw [h]
  · intro l' hl'
    rw [h5, Function.update_of_ne hl']

/-- the circuit up to the charge offset of island `i`, the operators that depend on it, and what
diagonalisation stores -/
def SameUpToOffset (i : ℕ) (o : ChargeObj) (c c' : Circ P) : Prop :=
  ∃ x mem lc t f v, c' = { c with
    islands := Function.update c.islands i (some (o.setOffset x)), mem := mem, lc := lc, trig := t, efreqs := f, evecs := v }

theorem offset_step {i : ℕ} {o : ChargeObj} {mode : Option ℤ} {w w' : World P}
    (hi : islandOf w.circ mode = some (i, o)) (hc : SameUpToOffset i o w.circ w'.circ) (hv : w'.vals = w.vals)
    (hf : w'.flux = w.flux) (hu : w'.unitFreq = w.unitFreq) (v : ℝ) (numEig : ℕ) :
    (gridPoint (fun v => setChargeOffset mode v) numEig v w').1 = (gridPoint (fun v => setChargeOffset mode v) numEig v w).1 ∧
    SameUpToOffset i o w.circ (gridPoint (fun v => setChargeOffset mode v) numEig v w').2.circ ∧
    (gridPoint (fun v => setChargeOffset mode v) numEig v w').2.vals = w.vals ∧
    (gridPoint (fun v => setChargeOffset mode v) numEig v w').2.flux = w.flux ∧
    (gridPoint (fun v => setChargeOffset mode v) numEig v w').2.unitFreq = w.unitFreq := by
  obtain ⟨⟨bd, isl, m, ms, mem, exp, lc, trig, ef, evs⟩, vals, flux, unit⟩ := w
  obtain ⟨c', vals', flux', unit'⟩ := w'
  obtain ⟨x, mem', lc', t, f, vv, h⟩ := hc
  simp only at h hv hf hu
  subst h hv hf hu
  have hi' : islandOf (P := P) ⟨bd, Function.update isl i (some (o.setOffset x)), m, ms, mem', exp, lc', t, f, vv⟩ mode
      = some (i, o.setOffset x) := by
    unfold islandOf at hi ⊢
    rcases mode with _ | k
    · exact absurd hi (by simp)
    · simp only at hi ⊢
      by_cases hk : k - 1 < 0
      · rw [if_pos hk] at hi; exact absurd hi (by simp)
      · rw [if_neg hk] at hi ⊢
        obtain ⟨o', h1, h2⟩ := Option.map_eq_some_iff.1 hi
        injection h2 with h2 h3
        rw [h2, Function.update_self]
        rfl
  have hii : ∀ y : ℝ, Function.update (Function.update isl i (some (o.setOffset x))) i (some ((o.setOffset x).setOffset y))
      = Function.update isl i (some (o.setOffset y)) := fun y => Function.update_idem _ _ _
  by_cases hm : m = []
  · have s1 : ∀ w : World P, w.circ.m = [] → ∀ {i o}, islandOf w.circ mode = some (i, o) →
        gridPoint (fun v => setChargeOffset mode v) numEig v w = (.error .circuitState, { w with circ := w.circ.setIsland i (o.setOffset v) }) := by
      intro w hw i o h
      rw [gridPoint_ok (w1 := { w with circ := w.circ.setIsland i (o.setOffset v) })]
      · unfold diag
        rw [if_pos (by show w.circ.m.length = 0; rw [hw]; rfl)]
        rfl
      · unfold setChargeOffset
        rw [h]
        simp only
        rw [if_pos (by rw [hw]; rfl)]
    rw [s1 _ hm hi', s1 _ hm hi]
    refine ⟨rfl, ⟨v, mem', lc', t, f, vv, ?_⟩, rfl, rfl, rfl⟩
    unfold Circ.setIsland
    simp only
    rw [hii]
  · have hng : (Circ.setIsland (P := P) ⟨bd, Function.update isl i (some (o.setOffset x)), m, ms, mem', exp, lc', t, f, vv⟩
        i ((o.setOffset x).setOffset v)).ng
        = (Circ.setIsland (P := P) ⟨bd, isl, m, ms, mem, exp, lc, trig, ef, evs⟩ i (o.setOffset v)).ng := by
      unfold Circ.setIsland Circ.ng
      simp only
      rw [hii]
    cases hmo : P.memOps bd m (Circ.setIsland (P := P) ⟨bd, isl, m, ms, mem, exp, lc, trig, ef, evs⟩ i (o.setOffset v)).ng with
    | error e =>
      have s1 : ∀ w : World P, w.circ.m ≠ [] → ∀ {i o}, islandOf w.circ mode = some (i, o) →
          P.memOps w.circ.bd w.circ.m (w.circ.setIsland i (o.setOffset v)).ng = .error e →
          gridPoint (fun v => setChargeOffset mode v) numEig v w = (.error e, { w with circ := w.circ.setIsland i (o.setOffset v) }) := by
        intro w hw i o h h'
        refine gridPoint_err ?_
        unfold setChargeOffset
        rw [h]
        simp only
        rw [if_neg (by rw [List.length_eq_zero_iff]; exact hw), h']
      rw [s1 _ hm hi' (by rw [hng]; exact hmo), s1 _ hm hi hmo]
      refine ⟨rfl, ⟨v, mem', lc', t, f, vv, ?_⟩, rfl, rfl, rfl⟩
      unfold Circ.setIsland
      simp only
      rw [hii]
    | ok mm =>
      have e1 := gridPoint_ok (numEig := numEig) (set := fun v => setChargeOffset mode v)
        (setChargeOffset_ok (w := ⟨⟨bd, isl, m, ms, mem, exp, lc, trig, ef, evs⟩, vals', flux', unit'⟩) hi hm hmo)
      have e2 := gridPoint_ok (numEig := numEig) (set := fun v => setChargeOffset mode v)
        (setChargeOffset_ok (w := ⟨⟨bd, Function.update isl i (some (o.setOffset x)), m, ms, mem', exp, lc', t, f, vv⟩, vals', flux', unit'⟩)
          (ng := v) hi' hm (by rw [hng]; exact hmo))
      rw [e1, e2]
      simp only [Circ.setIsland, hii]
      obtain ⟨k1, ⟨t', f', v', k2⟩, k3, k4, k5⟩ := diag_same (P := P)
        (w := ⟨⟨bd, Function.update isl i (some (o.setOffset v)), m, ms, some mm, exp, some (P.lc bd mm), trig, ef, evs⟩, vals', flux', unit'⟩)
        (w' := ⟨⟨bd, Function.update isl i (some (o.setOffset v)), m, ms, some mm, exp, some (P.lc bd mm), t, f, vv⟩, vals', flux', unit'⟩)
        ⟨_, _, _, rfl⟩ rfl rfl rfl (some numEig)
      exact ⟨congrArg (Except.map Prod.fst) k1, ⟨v, some mm, some (P.lc bd mm), t', f', v', k2⟩, k3, k4, k5⟩

/-- C69 for one-dimensional charge sweeps: if the offset can be set to every grid point and the circuit
then diagonalised, the entry of the table at grid index j is the spectrum obtained by setting the offset
of the mode to grid point j (in the circuit as it was before the sweep) and diagonalising. Missing: grids
of two or more dimensions, where the sweep always fails (`C69_refuted`). -/
theorem C69_charge_partial (mode : Option ℤ) (ms : List (Option ℤ)) (numEig : ℕ) (g : List ℝ) (w : World P)
    (spectrum : ℕ → List ℝ)
    (hset : ∀ j < g.length, ((Act.setChargeOffset mode (g.getD j 0)).exec w).1 = .ok ())
    (hok : ∀ j < g.length,
      (∃ vs, (diag (some numEig) ((Act.setChargeOffset mode (g.getD j 0)).exec w).2).1 = .ok (spectrum j, vs)) ∧
      (spectrum j).length = numEig) :
    ∃ tab w', sweepCharge (mode :: ms) numEig [g] w = (.ok tab, w') ∧
      (∀ j < g.length, ∀ e < numEig, tab e [j] = (spectrum j).getD e 0) ∧
      w'.vals = w.vals ∧ w'.flux = w.flux ∧ w'.circ.m = w.circ.m := by
  by_cases hg : g = []
  · subst hg
    exact ⟨_, w, rfl, by simp, rfl, rfl, rfl⟩
  cases hi : islandOf w.circ mode with
  | none =>
    have := hset 0 (List.length_pos_iff.2 hg)
    simp only [Act.exec, setChargeOffset, hi] at this
    exact absurd this (by simp)
  | some io =>
  obtain ⟨i, o⟩ := io
  let R : World P → Prop := fun w' => SameUpToOffset i o w.circ w'.circ ∧ w'.vals = w.vals ∧ w'.flux = w.flux ∧
    w'.unitFreq = w.unitFreq
  have hsm : setMode (mode :: ms) 0 = fun v => setChargeOffset (P := P) mode v := rfl
  have hstep : ∀ w', R w' → ∀ v, (gridPoint (setMode (mode :: ms) 0) numEig v w').1
      = (gridPoint (setMode (mode :: ms) 0) numEig v w).1 ∧ R (gridPoint (setMode (mode :: ms) 0) numEig v w').2 := by
    rintro w' ⟨h1, h2, h3, h4⟩ v
    rw [hsm]
    obtain ⟨k1, k2, k3, k4, k5⟩ := offset_step hi h1 h2 h3 h4 v numEig
    exact ⟨k1, k2, k3, k4, k5⟩
  have hgp : ∀ j < g.length, (gridPoint (setMode (mode :: ms) 0) numEig (g.getD j 0) w).1 = .ok (spectrum j) := by
    intro j hj
    obtain ⟨⟨vs, hd⟩, -⟩ := hok j hj
    have h1 := hset j hj
    have h2 : setMode (mode :: ms) 0 (g.getD j 0) w = (.ok (), ((Act.setChargeOffset mode (g.getD j 0)).exec w).2) :=
      Prod.ext h1 rfl
    rw [gridPoint_ok (numEig := numEig) h2]
    exact congrArg (Except.map Prod.fst) hd
  have hw0 : SameUpToOffset i o w.circ w.circ := by
    refine ⟨o.chValue, w.circ.mem, w.circ.lc, w.circ.trig, w.circ.efreqs, w.circ.evecs, ?_⟩
    have : Function.update w.circ.islands i (some (o.setOffset o.chValue)) = w.circ.islands := by
      rw [Function.update_eq_iff]
      refine ⟨?_, fun _ _ => rfl⟩
      unfold islandOf at hi
      rcases mode with _ | k
      · exact absurd hi (by simp)
      · simp only at hi
        by_cases hk : k - 1 < 0
        · rw [if_pos hk] at hi; exact absurd hi (by simp)
        · rw [if_neg hk] at hi
          obtain ⟨o', h1, h2⟩ := Option.map_eq_some_iff.1 hi
          injection h2 with h2 h3
          rw [← h2, h1, h3]
          rfl
    rw [this]
  obtain ⟨tab', w', h1, ⟨⟨_, _, _, _, _, _, h2⟩, h3, h4, -⟩, h6, -⟩ := loop_one (setMode (mode :: ms)) numEig g w R hstep
    (fun i hi => ⟨spectrum i, hgp i hi, (hok i hi).2⟩) (List.range g.length) (by simp) List.nodup_range (fun _ _ => 0) w
    ⟨hw0, rfl, rfl, rfl⟩
  refine ⟨tab', w', ?_, ?_, h3, h4, ?_⟩
  · unfold sweepCharge sweep
    rw [List.map_singleton, gridIndices_one]
    exact h1
  · intro j hj e he
    exact h6 j (by simpa using hj) _ (hgp j hj) e
  · rw [h2]

/-- C69 fails for grids of two or more dimensions: whatever the circuit, parameters and (nonempty) grid,
if the first grid point can be set and diagonalised with `numEig` ≥ 1 frequencies, the sweep raises
ValueError. -/
theorem C69_refuted (set : ℕ → ℝ → World P → Call (World P) Unit) (numEig : ℕ) (hn : 0 < numEig)
    (g1 g2 : List ℝ) (gs : List (List ℝ)) (hg : ∀ g ∈ g1 :: g2 :: gs, g ≠ []) (w w1 w2 : World P) (ev : List ℝ)
    (vs : List P.Vec)
    (hset : setParams set (g1 :: g2 :: gs) (((g1 :: g2 :: gs).map fun _ => 0).zipIdx.map Prod.swap) w = (.ok (), w1))
    (hd : diag (some numEig) w1 = (.ok (ev, vs), w2)) (hev : ev.length = numEig) :
    (sweep set numEig (g1 :: g2 :: gs) w).1 = .error .valueError := by
  have hfirst : ∀ gs : List (List ℝ), (∀ g ∈ gs, g ≠ []) → ∃ rest, gridIndices (gs.map List.length)
      = gs.map (fun _ => 0) :: rest := by
    intro gs
    induction gs with
    | nil => intro _; exact ⟨[], rfl⟩
    | cons g gs ih =>
      intro h
      obtain ⟨rest, hr⟩ := ih (fun g' hg' => h g' (by simp [hg']))
      obtain ⟨x, g', rfl⟩ := List.exists_cons_of_ne_nil (h g (by simp))
      rw [List.map_cons, gridIndices, hr, List.length_cons, List.range_succ_eq_map]
      exact ⟨_, rfl⟩
  obtain ⟨rest, hr⟩ := hfirst _ hg
  unfold sweep
  rw [hr, sweepLoop, hset]
  simp only
  rw [hd]
  simp only
  have : assignEfreq numEig ((g1 :: g2 :: gs).map List.length) (fun _ _ => 0) ((g1 :: g2 :: gs).map fun _ => 0) ev
      = .error .valueError := by
    have hprod : ∀ gs : List (List ℝ), (∀ g ∈ gs, g ≠ []) → 1 ≤ (gs.map List.length).prod := by
      intro gs h
      apply Nat.one_le_iff_ne_zero.2
      intro h0
      rw [List.prod_eq_zero_iff] at h0
      obtain ⟨g, hg, h0⟩ := List.mem_map.1 h0
      exact h g hg (List.length_eq_zero_iff.1 h0)
    have hp := hprod (g2 :: gs) (fun g h => hg g (by simp only [List.mem_cons] at h ⊢; tauto))
    have hl1 : 1 ≤ g1.length := List.length_pos_iff.2 (hg g1 (by simp))
    rw [List.map_cons, assignEfreq, if_neg, if_pos]
    · rw [hev]
      intro h
      have h2 : 2 ≤ (((g1 :: g2 :: gs).map fun _ => 0).length * ((g2 :: gs).map List.length).prod) := by
        simp only [List.length_map, List.length_cons]
        nlinarith
      nlinarith
    · rintro ⟨i, hi, hle⟩
      obtain ⟨_, _, rfl⟩ := List.mem_map.1 hi
      omega
  rw [this]

/-- C69 with an empty list of parameters: IndexError. -/
theorem C69_no_parameters (set : ℕ → ℝ → World P → Call (World P) Unit) (numEig : ℕ) (w w2 : World P) (ev : List ℝ)
    (vs : List P.Vec) (hd : diag (some numEig) w = (.ok (ev, vs), w2)) :
    (sweep set numEig [] w).1 = .error .indexError := by
  unfold sweep
  simp [gridIndices, sweepLoop, setParams, hd, assignEfreq]

/-! ### on actual circuits -/

theorem orderly_snoc {w : World P} {h : List Act} (hh : Orderly w h) {a : Act}
    (ha : modifies a = true → (a.exec (run w h)).1 = .ok ()) : Orderly w (h ++ [a]) := by
  induction h generalizing w with
  | nil => exact ⟨fun h => .inl (ha h), trivial⟩
  | cons b h ih => exact ⟨hh.1, ih hh.2 ha⟩

theorem run_snoc (w : World P) (h : List Act) (a : Act) : run w (h ++ [a]) = (a.exec (run w h)).2 := by
  simp [run, List.foldl_append]

theorem getD_map_mono {α : Type*} {pairs : List (ℝ × α)} (hsort : (pairs.map Prod.fst).Pairwise (· ≤ ·)) {c : ℝ} (hc : 0 < c)
    {e e' : ℕ} (hee : e ≤ e') (he' : e' < pairs.length) :
    (pairs.map fun p => p.1 / c).getD e 0 ≤ (pairs.map fun p => p.1 / c).getD e' 0 := by
  rw [List.getD_eq_getElem _ _ (by simp; omega), List.getD_eq_getElem _ _ (by simp; omega), List.getElem_map, List.getElem_map]
  apply div_le_div_of_nonneg_right _ hc.le
  rcases hee.lt_or_eq with h | h
  · have := List.pairwise_iff_getElem.1 hsort e e' (by simp; omega) (by simpa using he') h
    simpa using this
  · subst h; exact le_rfl

/-- the spectrum of a circuit after one more call, as `diag` reports it -/
theorem point_spectrum {c : CircSpec} {eigs : EigsFn} {as : List ℂ → List ℕ}
    (he : EigsSpec eigs) (ha : CArgsortSpec as) (hs : NoSelfLoops c.els) (vals : ElemId → ℝ) (flux : LoopId → ℝ) (u : ℝ)
    (w0 : World (circPhys c eigs as)) (hw : construct (circPhys c eigs as) vals flux u = .ok w0) (h : List Act)
    (hh : Orderly w0 h) (a : Act) (hok : (a.exec (run w0 h)).1 = .ok ()) (hm : (a.exec (run w0 h)).2.circ.m ≠ [])
    (hu : 0 < (a.exec (run w0 h)).2.unitFreq) (num : ℕ) (h1 : 1 ≤ num)
    (hdim : ∀ H, (hamiltonian (run w0 (h ++ [a]))).1 = .ok H → (num : ℤ) < (Fintype.card (Idx H.2.1) : ℤ) - 1) :
    ∃ sp : List ℝ, ∃ H, (hamiltonian (run w0 (h ++ [a]))).1 = .ok H ∧
      (∃ vs, (diag (some num) (a.exec (run w0 h)).2).1 = .ok (sp, vs)) ∧ sp.length = num ∧
      (∀ e e', e ≤ e' → e' < num → sp.getD e 0 ≤ sp.getD e' 0) ∧
      ∀ e < num, IsEigenvalue H ((2 * Real.pi * (a.exec (run w0 h)).2.unitFreq * sp.getD e 0 : ℝ) : ℂ) := by
  have hrs := run_snoc w0 h a
  generalize (a.exec (run w0 h)).2 = wa at hrs hm hu ⊢
  subst hrs
  obtain ⟨k, d, H, hH, hp⟩ := C45_eigenpairs he ha hs vals flux u w0 hw (h ++ [a]) (orderly_snoc hh fun _ => hok) hm num
    (by exact_mod_cast h1)
  have hdim' : (num : ℤ) < (Fintype.card (Idx d) : ℤ) - 1 := hdim ⟨k, d, H⟩ hH
  obtain ⟨pairs, w', hd, hp1⟩ := hp hdim'
  obtain ⟨-, -, hlen, hsort, hpair⟩ := hp1
  have hlen' : pairs.length = num := by exact_mod_cast hlen
  have hpos : 0 < 2 * Real.pi * (run w0 (h ++ [a])).unitFreq := mul_pos (mul_pos two_pos Real.pi_pos) hu
  refine ⟨pairs.map fun p => p.1 / (2 * Real.pi * (run w0 (h ++ [a])).unitFreq), ⟨k, d, H⟩, hH,
    ⟨pairs.map fun p => ⟨k, d, p.2⟩, congrArg Prod.fst hd⟩, (List.length_map _).trans hlen',
    fun e e' hee he' => getD_map_mono hsort hpos hee (by omega), fun e he => ?_⟩
  have hel : e < pairs.length := by omega
  refine ⟨pairs[e].2, ?_⟩
  rw [List.getD_eq_getElem _ _ (by simpa using hel), List.getElem_map, mul_div_cancel₀ _ hpos.ne']
  exact hpair _ (List.getElem_mem _)

/-- C69 on circuits: take any circuit, any history of calls that leaves it truncated, any loop and any
one-dimensional grid of fluxes. If at each grid point the Hilbert space is large enough for the number
of eigenvalues asked, the sweep succeeds, and its column j lists in increasing order eigenvalues (in
units of 2π times the frequency unit) of the Hamiltonian the circuit has when the loop is set to grid
point j. Missing: grids of more dimensions (`C69_refuted`). -/
theorem C69_circuit_flux_partial {c : CircSpec} {eigs : EigsFn} {as : List ℂ → List ℕ}
    (he : EigsSpec eigs) (ha : CArgsortSpec as) (hs : NoSelfLoops c.els) (vals : ElemId → ℝ) (flux : LoopId → ℝ) (u : ℝ)
    (w0 : World (circPhys c eigs as)) (hw : construct (circPhys c eigs as) vals flux u = .ok w0) (h : List Act)
    (hh : Orderly w0 h) (hm : (run w0 h).circ.m ≠ []) (hu : 0 < (run w0 h).unitFreq)
    (l : LoopId) (ls : List LoopId) (num : ℕ) (h1 : 1 ≤ num) (g : List ℝ)
    (hdim : ∀ j < g.length, ∀ H, (hamiltonian (run w0 (h ++ [.setFlux l (g.getD j 0)]))).1 = .ok H →
      (num : ℤ) < (Fintype.card (Idx H.2.1) : ℤ) - 1) :
    ∃ tab w', sweepFlux (l :: ls) num [g] (run w0 h) = (.ok tab, w') ∧ ∀ j < g.length,
      ∃ H, (hamiltonian (run w0 (h ++ [.setFlux l (g.getD j 0)]))).1 = .ok H ∧
        (∀ e e', e ≤ e' → e' < num → tab e [j] ≤ tab e' [j]) ∧
        ∀ e < num, IsEigenvalue H ((2 * Real.pi * (run w0 h).unitFreq * tab e [j] : ℝ) : ℂ) := by
  have key : ∀ j, ∃ sp : List ℝ, j < g.length → ∃ H, (hamiltonian (run w0 (h ++ [.setFlux l (g.getD j 0)]))).1 = .ok H ∧
      (∃ vs, (diag (some num) ((Act.setFlux l (g.getD j 0)).exec (run w0 h)).2).1 = .ok (sp, vs)) ∧ sp.length = num ∧
      (∀ e e', e ≤ e' → e' < num → sp.getD e 0 ≤ sp.getD e' 0) ∧
      ∀ e < num, IsEigenvalue H ((2 * Real.pi * (run w0 h).unitFreq * sp.getD e 0 : ℝ) : ℂ) := by
    intro j
    by_cases hj : j < g.length
    · obtain ⟨sp, H, hH⟩ := point_spectrum he ha hs vals flux u w0 hw h hh (.setFlux l (g.getD j 0)) rfl hm hu num h1
        (hdim j hj)
      exact ⟨sp, fun _ => ⟨H, hH⟩⟩
    · exact ⟨[], fun h => absurd h hj⟩
  choose sp hsp using key
  obtain ⟨tab, w', h2, h3, -⟩ := C69_flux_partial l ls num g (run w0 h) sp
    (fun j hj => by obtain ⟨H, -, h4, h5, -⟩ := hsp j hj; exact ⟨h4, h5⟩)
  refine ⟨tab, w', h2, fun j hj => ?_⟩
  obtain ⟨H, hH, -, -, h6, h7⟩ := hsp j hj
  refine ⟨H, hH, ?_, ?_⟩
  · intro e e' hee he'
    rw [h3 j hj e (by omega), h3 j hj e' he']
    exact h6 e e' hee he'
  · intro e he
    rw [h3 j hj e he]
    exact h7 e he

/-- The same for charge sweeps of a mode with a charge island. -/
theorem C69_circuit_charge_partial {c : CircSpec} {eigs : EigsFn} {as : List ℂ → List ℕ}
    (he : EigsSpec eigs) (ha : CArgsortSpec as) (hs : NoSelfLoops c.els) (vals : ElemId → ℝ) (flux : LoopId → ℝ) (u : ℝ)
    (w0 : World (circPhys c eigs as)) (hw : construct (circPhys c eigs as) vals flux u = .ok w0) (h : List Act)
    (hh : Orderly w0 h) (hm : (run w0 h).circ.m ≠ []) (hu : 0 < (run w0 h).unitFreq)
    (mode : Option ℤ) (ms : List (Option ℤ)) (num : ℕ) (h1 : 1 ≤ num) (g : List ℝ)
    (hset : ∀ j < g.length, ((Act.setChargeOffset mode (g.getD j 0)).exec (run w0 h)).1 = .ok ())
    (hdim : ∀ j < g.length, ∀ H, (hamiltonian (run w0 (h ++ [.setChargeOffset mode (g.getD j 0)]))).1 = .ok H →
      (num : ℤ) < (Fintype.card (Idx H.2.1) : ℤ) - 1) :
    ∃ tab w', sweepCharge (mode :: ms) num [g] (run w0 h) = (.ok tab, w') ∧ ∀ j < g.length,
      ∃ H, (hamiltonian (run w0 (h ++ [.setChargeOffset mode (g.getD j 0)]))).1 = .ok H ∧
        (∀ e e', e ≤ e' → e' < num → tab e [j] ≤ tab e' [j]) ∧
        ∀ e < num, IsEigenvalue H ((2 * Real.pi * (run w0 h).unitFreq * tab e [j] : ℝ) : ℂ) := by
  have hsame : ∀ v, ((Act.setChargeOffset mode v).exec (run w0 h)).2.circ.m = (run w0 h).circ.m ∧
      ((Act.setChargeOffset mode v).exec (run w0 h)).2.unitFreq = (run w0 h).unitFreq := by
    intro v
    simp only [Act.exec, setChargeOffset]
    split
    · exact ⟨rfl, rfl⟩
    · split
      · exact ⟨rfl, rfl⟩
      · split <;> exact ⟨rfl, rfl⟩
  have key : ∀ j, ∃ sp : List ℝ, j < g.length →
      ∃ H, (hamiltonian (run w0 (h ++ [.setChargeOffset mode (g.getD j 0)]))).1 = .ok H ∧
      (∃ vs, (diag (some num) ((Act.setChargeOffset mode (g.getD j 0)).exec (run w0 h)).2).1 = .ok (sp, vs)) ∧ sp.length = num ∧
      (∀ e e', e ≤ e' → e' < num → sp.getD e 0 ≤ sp.getD e' 0) ∧
      ∀ e < num, IsEigenvalue H ((2 * Real.pi * (run w0 h).unitFreq * sp.getD e 0 : ℝ) : ℂ) := by
    intro j
    by_cases hj : j < g.length
    · obtain ⟨hs1, hs2⟩ := hsame (g.getD j 0)
      obtain ⟨sp, H, hH⟩ := point_spectrum he ha hs vals flux u w0 hw h hh (.setChargeOffset mode (g.getD j 0)) (hset j hj)
        (by rw [hs1]; exact hm) (by rw [hs2]; exact hu) num h1 (hdim j hj)
      rw [hs2] at hH
      exact ⟨sp, fun _ => ⟨H, hH⟩⟩
    · exact ⟨[], fun h => absurd h hj⟩
  choose sp hsp using key
  obtain ⟨tab, w', h2, h3, -⟩ := C69_charge_partial mode ms num g (run w0 h) sp hset
    (fun j hj => by obtain ⟨H, -, h4, h5, -⟩ := hsp j hj; exact ⟨h4, h5⟩)
  refine ⟨tab, w', h2, fun j hj => ?_⟩
  obtain ⟨H, hH, -, -, h6, h7⟩ := hsp j hj
  refine ⟨H, hH, ?_, ?_⟩
  · intro e e' hee he'
    rw [h3 j hj e (by omega), h3 j hj e' he']
    exact h6 e e' hee he'
  · intro e he
    rw [h3 j hj e he]
    exact h7 e he

/-- the hypotheses of `C69_circuit_charge_partial` are met: the circuit of `C49_refuted`, with its mode
truncated at 2, any grid -/
example {sv : SvdFn} {argsort : ArgsortFn} {argmax} {eigs : EigsFn} {as : List ℂ → List ℕ} (hsv : SvdSpec sv)
    (ha : ArgsortSpec argsort) (he : EigsSpec eigs) (hs : CArgsortSpec as) (flux : LoopId → ℝ) (g : List ℝ) :
    ∃ w0, construct (circPhys (lcSpec false sv argsort argmax) eigs as) (fun i => if i = 2 then 0 else lcVals i) flux 1e9 = .ok w0 ∧
      ∃ tab w', sweepCharge [some 1] 1 [g] (run w0 [.setTruncNums (.list [2])]) = (.ok tab, w') := by
  set v : ElemId → ℝ := fun i => if i = 2 then 0 else lcVals i with hvdef
  have hv : ∀ i, i ≠ 2 → v i = lcVals i := by intro i hi; simp [hvdef, hi]
  have hv2 : v 2 = 0 := by simp [hvdef]
  obtain ⟨w0, hw, -⟩ := lc_construct (eigs := eigs) (as := as) (argmax := argmax) hsv ha v hv false flux 1e9
  obtain ⟨hi, hvv, hbd, hm0⟩ := lc_islands hsv ha v hv flux 1e9 w0 hw
  obtain ⟨ht1, ht2, ht3⟩ := lc_trunc hsv ha v hv flux 1e9 w0 hw
  refine ⟨w0, hw, ?_⟩
  have ho1 : Orderly w0 [.setTruncNums (.list [2])] := ⟨fun _ => .inl ht1, trivial⟩
  have hw0 : w0.unitFreq = 1e9 := by
    unfold construct at hw
    split at hw
    · cases hw
    · injection hw with hw; rw [← hw]
  have hsame : (run w0 [.setTruncNums (.list [2])]).vals = v ∧ (run w0 [.setTruncNums (.list [2])]).unitFreq = 1e9 := by
    rw [← hvv, ← hw0]
    change (setTruncNums _ w0).2.vals = _ ∧ (setTruncNums _ w0).2.unitFreq = _
    rcases setTruncNums_cases (.list [2]) w0 with ⟨h, -⟩ | ⟨nums, -, -, ⟨e, -, h⟩ | ⟨mem, -, -, h⟩⟩ <;> rw [h] <;> exact ⟨rfl, rfl⟩
  have hm1 : (run w0 [.setTruncNums (.list [2])]).circ.m = [3] := ht2
  set w1 := run w0 [.setTruncNums (.list [2])] with hw1
  have hbd1 : w1.circ.bd = lcBuild false := (exec_bd _ w0 (by simp)).trans hbd
  have hio : islandOf w1.circ (some 1) = some (0, ChargeObj.init 0 1e-4) := by
    have : w1.circ.islands 0 = some (ChargeObj.init 0 1e-4) := (congrFun ht3 0).trans hi
    simp [islandOf, this]
  have hset : ∀ x : ℝ, ∃ mem, Act.exec (.setChargeOffset (some 1) x) w1 = (.ok (), { w1 with circ :=
      { w1.circ.setIsland 0 ((ChargeObj.init 0 1e-4).setOffset x) with
          mem := some mem, lc := some ((circPhys (lcSpec false sv argsort argmax) eigs as).lc w1.circ.bd mem) } }) := by
    intro x
    obtain ⟨mem, hmem⟩ := lc_memOps (w1.circ.setIsland 0 ((ChargeObj.init 0 1e-4).setOffset x)).ng
      (by simp [Circ.ng, Circ.setIsland])
    have hmem' : ∃ mem, (circPhys (lcSpec false sv argsort argmax) eigs as).memOps w1.circ.bd w1.circ.m
        (w1.circ.setIsland 0 ((ChargeObj.init 0 1e-4).setOffset x)).ng = .ok mem := by
      rw [hm1, hbd1]; exact ⟨mem, hmem⟩
    obtain ⟨mem', hm'⟩ := hmem'
    exact ⟨mem', setChargeOffset_ok hio (by rw [hm1]; simp) hm'⟩
  obtain ⟨tab, w', h, -⟩ := C69_circuit_charge_partial he hs (lc_noSelf false) v flux 1e9 w0 hw [.setTruncNums (.list [2])] ho1
    (by rw [← hw1, hm1]; simp) (by rw [← hw1, hsame.2]; norm_num) (some 1) [] 1 le_rfl g
    (fun j _ => by obtain ⟨mem, h⟩ := hset (g.getD j 0); rw [← hw1, h])
    (fun j _ H hH => by
      obtain ⟨mem, h⟩ := hset (g.getD j 0)
      have hrun : run w0 ([.setTruncNums (.list [2])] ++ [.setChargeOffset (some 1) (g.getD j 0)])
          = (Act.exec (.setChargeOffset (some 1) (g.getD j 0)) w1).2 := run_snoc _ _ _
      have hH1 := lc_ham_run hsv ha v hv hv2 flux 1e9 w0 hw
        ([.setTruncNums (.list [2])] ++ [.setChargeOffset (some 1) (g.getD j 0)])
        (orderly_snoc ho1 fun _ => by rw [← hw1, h]) (by simp) (by rw [hrun, h]; exact hsame.1) rfl (by rw [hrun, h]; exact hm1)
      rw [hH] at hH1
      injection hH1 with hH1
      rw [hH1, lc_card]
      norm_num)
  exact ⟨tab, w', h⟩

end SQ
