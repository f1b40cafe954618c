import Verif.Model.SweepLoss
import Verif.Props.Sweep
import Verif.Props.GoldenRule
import Verif.Props.DephasingLevels
import Verif.Props.LevelsSession

/-! # Property C112: sweeps with the 'loss' property -/

namespace SQ
open Spec

variable {P : Phys}

theorem fillDec_ok (rate : String → World P → Except PyErr Rate) (ind : List ℕ) (w : World P) (r : String → Rate) :
    ∀ (l : List String) (dec : String → List ℕ → Rate), (∀ ty ∈ l, rate ty w = .ok (r ty)) →
    ∃ dec', fillDec rate ind w l dec = .ok dec' ∧ (∀ ty ∈ l, dec' ty ind = r ty) ∧
      (∀ ty ∉ l, dec' ty ind = dec ty ind) ∧ ∀ ty i, i ≠ ind → dec' ty i = dec ty i := by
  intro l
  induction l with
  | nil => intro dec _; exact ⟨dec, rfl, by simp, fun _ _ => rfl, fun _ _ _ => rfl⟩
  | cons ty l ih =>
    intro dec h
    obtain ⟨dec', h1, h2, h3, h4⟩ := ih (Function.update dec ty (Function.update (dec ty) ind (r ty)))
      (fun t ht => h t (by simp [ht]))
    refine ⟨dec', ?_, ?_, ?_, ?_⟩
    · rw [fillDec, h ty (by simp)]
      exact h1
    · intro t ht
      by_cases htl : t ∈ l
      · exact h2 t htl
      · rw [h3 t htl]
        have : t = ty := by simpa [htl] using ht
        subst this
        simp
    · intro t ht
      rw [h3 t (fun h => ht (by simp [h]))]
      have : t ≠ ty := fun h => ht (by simp [h])
      simp [this]
    · intro t i hi
      rw [h4 t i hi]
      by_cases htt : t = ty
      · subst htt; simp [hi]
      · simp [htt]

theorem loss_one (rate : String → World P → Except PyErr Rate) (set : ℕ → ℝ → World P → Call (World P) Unit)
    (numEig : ℕ) (g : List ℝ) (w0 : World P) (R : World P → Prop) (sp : ℕ → List ℝ) (pt : ℕ → World P)
    (rates : ℕ → String → Rate)
    (hstep : ∀ w, R w → ∀ i < g.length, gridPoint (set 0) numEig (g.getD i 0) w = (.ok (sp i), pt i))
    (hok : ∀ i < g.length, (sp i).length = numEig ∧ R (pt i) ∧ ∀ ty ∈ sweepTypes, rate ty (pt i) = .ok (rates i ty))
    (is : List ℕ) (his : ∀ i ∈ is, i < g.length) (hnd : is.Nodup) (tab : ℕ → List ℕ → ℝ)
    (dec : String → List ℕ → Rate) (w : World P) (hw : R w) :
    ∃ tab' dec' w', lossLoop rate set numEig [g] (is.map fun i => [i]) tab dec w = (.ok (tab', dec'), w') ∧ R w' ∧
      (∀ i ∈ is, ∀ e, tab' e [i] = (sp i).getD e 0) ∧
      (∀ i ∈ is, ∀ ty ∈ sweepTypes, dec' ty [i] = rates i ty) ∧
      (∀ j, j ∉ is → (∀ e, tab' e [j] = tab e [j]) ∧ ∀ ty, dec' ty [j] = dec ty [j]) := by
  induction is generalizing tab dec w with
  | nil => exact ⟨tab, dec, w, rfl, hw, by simp, by simp, fun _ _ => ⟨fun _ => rfl, fun _ => rfl⟩⟩
  | cons i is ih =>
    have hi := his i (by simp)
    have h1 := hstep w hw i hi
    obtain ⟨hlen, hR, hrate⟩ := hok i hi
    rw [List.map_cons, lossLoop, setParams_one]
    unfold gridPoint at h1
    rcases hs : set 0 (g.getD i 0) w with ⟨_ | _, w1⟩
    · rw [hs] at h1; cases h1
    · rw [hs] at h1
      simp only at h1 ⊢
      rcases hd : diag (some (numEig : ℤ)) w1 with ⟨_ | ⟨ev', vs⟩, w2⟩
      · rw [hd] at h1; cases h1
      · rw [hd] at h1
        simp only at h1 ⊢
        injection h1 with h1 h2
        injection h1 with h1
        subst h1 h2
        obtain ⟨tab1, ht, ht1, ht2⟩ := assign_one tab hi hlen
        have ht' : assignEfreq numEig (List.map List.length [g]) tab [i] (sp i) = .ok tab1 := ht
        rw [ht']
        obtain ⟨dec1, hd1, hd2, -, hd3⟩ := fillDec_ok rate [i] (pt i) (rates i) sweepTypes dec hrate
        simp only
        rw [hd1]
        obtain ⟨tab', dec', w', ha, hb, hc, hc', hd'⟩ :=
          ih (fun j hj => his j (by simp [hj])) (List.nodup_cons.1 hnd).2 tab1 dec1 (pt i) hR
        have hni := (List.nodup_cons.1 hnd).1
        refine ⟨tab', dec', w', ha, hb, ?_, ?_, ?_⟩
        · intro j hj e
          rcases List.mem_cons.1 hj with rfl | hj'
          · rw [(hd' j hni).1 e, ht1]
          · exact hc j hj' e
        · intro j hj ty hty
          rcases List.mem_cons.1 hj with rfl | hj'
          · rw [(hd' j hni).2 ty, hd2 ty hty]
          · exact hc' j hj' ty hty
        · intro j hj
          obtain ⟨k1, k2⟩ := hd' j (fun h => hj (by simp [h]))
          have hji : j ≠ i := fun h => hj (by simp [h])
          exact ⟨fun e => by rw [k1 e, ht2 e j hji], fun ty => by rw [k2 ty, hd3 ty [j] (by simpa using hji)]⟩

/-- after a successful diagonalisation nothing of what was stored before is left -/
theorem diag_same_state {w w' : World P} (hc : SameUpToEigs w.circ w'.circ) (hv : w'.vals = w.vals)
    (hf : w'.flux = w.flux) (hu : w'.unitFreq = w.unitFreq) {k : Option ℤ} {r} (h : (diag k w).1 = .ok r) :
    diag k w' = diag k w := by
  obtain ⟨⟨bd, isl, m, ms, mem, exp, lc, trig, ef, evs⟩, vals, flux, unit⟩ := w
  obtain ⟨c', vals', flux', unit'⟩ := w'
  obtain ⟨t, f, v, hc⟩ := hc
  simp only at hc hv hf hu
  subst hc hv hf hu
  unfold diag at h ⊢
  by_cases hm : m.length = 0
  · simp only [hm, if_true] at h; cases h
  · simp only [hm, if_false] at h ⊢
    cases k with
    | none => cases h
    | some k =>
      unfold diagNp hamiltonian at h ⊢
      simp only [hm, if_false] at h ⊢
      rcases mem with _ | mem
      · cases h
      rcases exp with _ | exp
      · cases h
      rcases lc with _ | lc
      · cases h
      simp only at h ⊢
      rcases hH : P.ham bd mem exp lc vals' flux' with e | H
      · rw [hH] at h; cases h
      · rw [hH] at h
        simp only at h ⊢
        rcases hE : P.eigs H k with e | raw
        · rw [hE] at h; cases h
        · rfl

/-- setting an offset and diagonalising leaves nothing of the previous offset -/
theorem offset_step_state {i : ℕ} {o : ChargeObj} {mode : Option ℤ} {w w' : World P}
    (hi : islandOf w.circ mode = some (i, o)) (hc : SameUpToOffset i o w.circ w'.circ) (hv : w'.vals = w.vals)
    (hf : w'.flux = w.flux) (hu : w'.unitFreq = w.unitFreq) {v : ℝ} {numEig : ℕ} {r : List ℝ × World P}
    (hok : gridPoint (fun v => setChargeOffset mode v) numEig v w = (.ok r.1, r.2)) :
    gridPoint (fun v => setChargeOffset mode v) numEig v w' = gridPoint (fun v => setChargeOffset mode v) numEig v w := by
  obtain ⟨⟨bd, isl, m, ms, mem, exp, lc, trig, ef, evs⟩, vals, flux, unit⟩ := w
  obtain ⟨c', vals', flux', unit'⟩ := w'
  obtain ⟨x, mem', lc', t, f, vv, h⟩ := hc
  simp only at h hv hf hu
  subst h hv hf hu
  have hi' : islandOf (P := P) ⟨bd, Function.update isl i (some (o.setOffset x)), m, ms, mem', exp, lc', t, f, vv⟩ mode
      = some (i, o.setOffset x) := by
    unfold islandOf at hi ⊢
    rcases mode with _ | k
    · exact absurd hi (by simp)
    · simp only at hi ⊢
      by_cases hk : k - 1 < 0
      · rw [if_pos hk] at hi; exact absurd hi (by simp)
      · rw [if_neg hk] at hi ⊢
        obtain ⟨o', h1, h2⟩ := Option.map_eq_some_iff.1 hi
        injection h2 with h2 h3
        rw [h2, Function.update_self]
        rfl
  have hii : ∀ y : ℝ, Function.update (Function.update isl i (some (o.setOffset x))) i (some ((o.setOffset x).setOffset y))
      = Function.update isl i (some (o.setOffset y)) := fun y => Function.update_idem _ _ _
  by_cases hm : m = []
  · exfalso
    rw [gridPoint_ok (w1 := ⟨Circ.setIsland ⟨bd, isl, m, ms, mem, exp, lc, trig, ef, evs⟩ i (o.setOffset v), vals', flux', unit'⟩)] at hok
    · have : diag (P := P) (some (numEig : ℤ)) ⟨Circ.setIsland ⟨bd, isl, m, ms, mem, exp, lc, trig, ef, evs⟩ i (o.setOffset v), vals', flux', unit'⟩
          = (.error .circuitState, ⟨Circ.setIsland ⟨bd, isl, m, ms, mem, exp, lc, trig, ef, evs⟩ i (o.setOffset v), vals', flux', unit'⟩) := by
        unfold diag
        rw [if_pos (by show m.length = 0; rw [hm]; rfl)]
      rw [this] at hok
      cases congrArg Prod.fst hok
    · unfold setChargeOffset
      rw [hi]
      simp only
      rw [if_pos (by rw [hm]; rfl)]
  · have hng : (Circ.setIsland (P := P) ⟨bd, Function.update isl i (some (o.setOffset x)), m, ms, mem', exp, lc', t, f, vv⟩
        i ((o.setOffset x).setOffset v)).ng
        = (Circ.setIsland (P := P) ⟨bd, isl, m, ms, mem, exp, lc, trig, ef, evs⟩ i (o.setOffset v)).ng := by
      unfold Circ.setIsland Circ.ng
      simp only
      rw [hii]
    cases hmo : P.memOps bd m (Circ.setIsland (P := P) ⟨bd, isl, m, ms, mem, exp, lc, trig, ef, evs⟩ i (o.setOffset v)).ng with
    | error e =>
      exfalso
      rw [gridPoint_err (e := e) (w1 := ⟨Circ.setIsland ⟨bd, isl, m, ms, mem, exp, lc, trig, ef, evs⟩ i (o.setOffset v), vals', flux', unit'⟩)] at hok
      · cases congrArg Prod.fst hok
      · unfold setChargeOffset
        rw [hi]
        simp only
        rw [if_neg (by rw [List.length_eq_zero_iff]; exact hm), hmo]
    | ok mm =>
      have e1 := gridPoint_ok (numEig := numEig) (set := fun v => setChargeOffset mode v)
        (setChargeOffset_ok (w := ⟨⟨bd, isl, m, ms, mem, exp, lc, trig, ef, evs⟩, vals', flux', unit'⟩) hi hm hmo)
      have e2 := gridPoint_ok (numEig := numEig) (set := fun v => setChargeOffset mode v)
        (setChargeOffset_ok (w := ⟨⟨bd, Function.update isl i (some (o.setOffset x)), m, ms, mem', exp, lc', t, f, vv⟩, vals', flux', unit'⟩)
          (ng := v) hi' hm (by rw [hng]; exact hmo))
      rw [e1] at hok
      rw [e1, e2]
      simp only [Circ.setIsland, hii] at hok ⊢
      have hd : ∃ r', (diag (P := P) (some (numEig : ℤ)) ⟨⟨bd, Function.update isl i (some (o.setOffset v)), m, ms, some mm,
          exp, some (P.lc bd mm), trig, ef, evs⟩, vals', flux', unit'⟩).1 = .ok r' := by
        have := congrArg Prod.fst hok
        simp only at this
        cases hx : (diag (P := P) (some (numEig : ℤ)) ⟨⟨bd, Function.update isl i (some (o.setOffset v)), m, ms, some mm,
          exp, some (P.lc bd mm), trig, ef, evs⟩, vals', flux', unit'⟩).1 with
        | error e => rw [hx] at this; cases this
        | ok r' => exact ⟨r', rfl⟩
      obtain ⟨r', hd⟩ := hd
      rw [diag_same_state (P := P)
        (w := ⟨⟨bd, Function.update isl i (some (o.setOffset v)), m, ms, some mm, exp, some (P.lc bd mm), trig, ef, evs⟩, vals', flux', unit'⟩)
        (w' := ⟨⟨bd, Function.update isl i (some (o.setOffset v)), m, ms, some mm, exp, some (P.lc bd mm), t, f, vv⟩, vals', flux', unit'⟩)
        ⟨_, _, _, rfl⟩ rfl rfl rfl hd]

/-- C112, flux sweeps: with 'loss' among the properties, a sweep of one loop over a one-dimensional grid fills, for
each of the six decoherence types, entry j with what `dec_rate(type, (1, 0))` returns in the state reached by setting
the loop to grid point j (in the circuit as it was before the sweep) and diagonalising; the frequencies are tabulated
as without 'loss'. `rate type w` stands for `dec_rate(type, (1, 0))` in state `w`, any function of the state. -/
theorem C112_flux (rate : String → World P → Except PyErr Rate) (l : LoopId) (ls : List LoopId) (numEig : ℕ)
    (g : List ℝ) (w : World P) (spectrum : ℕ → List ℝ) (rates : ℕ → String → Rate)
    (hok : ∀ j < g.length,
      (∃ vs, (diag (some numEig) ((Act.setFlux l (g.getD j 0)).exec w).2).1 = .ok (spectrum j, vs)) ∧
      (spectrum j).length = numEig ∧
      ∀ ty ∈ sweepTypes, rate ty (run w [.setFlux l (g.getD j 0), .diag (some numEig)]) = .ok (rates j ty)) :
    ∃ tab dec w', sweepLoss rate (setLoop (l :: ls)) numEig [g] w = (.ok (tab, dec), w') ∧
      (∀ j < g.length, ∀ e < numEig, tab e [j] = (spectrum j).getD e 0) ∧
      (∀ j < g.length, ∀ ty ∈ sweepTypes, dec ty [j] = rates j ty) := by
  classical
  let R : World P → Prop := fun w' => SameUpToEigs w.circ w'.circ ∧ w'.vals = w.vals ∧ w'.unitFreq = w.unitFreq ∧
    ∃ x, w'.flux = Function.update w.flux l x
  let pt : ℕ → World P := fun j => (diag (some (numEig : ℤ)) ((Act.setFlux l (g.getD j 0)).exec w).2).2
  have hrun : ∀ j, run w [.setFlux l (g.getD j 0), .diag (some numEig)] = pt j := fun j => rfl
  have hset : ∀ (v : ℝ) (w' : World P), setLoop (l :: ls) 0 v w' = (Act.setFlux l v).exec w' := fun v w' => rfl
  have hstep : ∀ w', R w' → ∀ i < g.length,
      gridPoint (setLoop (l :: ls) 0) numEig (g.getD i 0) w' = (.ok (spectrum i), pt i) := by
    rintro w' ⟨h1, h2, h3, x, h4⟩ i hi
    obtain ⟨⟨vs, hd⟩, -⟩ := hok i hi
    have key := diag_same_state (w := ((Act.setFlux l (g.getD i 0)).exec w).2)
      (w' := ((Act.setFlux l (g.getD i 0)).exec w').2) h1 h2
      (by show Function.update w'.flux l _ = Function.update w.flux l _; rw [h4, Function.update_idem]) h3 hd
    refine (gridPoint_ok (numEig := numEig) (hset (g.getD i 0) w')).trans ?_
    have k1 : (diag (some (numEig : ℤ)) ((Act.setFlux l (g.getD i 0)).exec w').2).1 = .ok (spectrum i, vs) :=
      (congrArg Prod.fst key).trans hd
    have k2 : (diag (some (numEig : ℤ)) ((Act.setFlux l (g.getD i 0)).exec w').2).2 = pt i := congrArg Prod.snd key
    exact Prod.ext (congrArg (Except.map Prod.fst) k1) k2
  have hR : ∀ j, R (pt j) := by
    intro j
    obtain ⟨-, k2, k3, k4, k5⟩ := diag_same (w := ((Act.setFlux l (g.getD j 0)).exec w).2)
      (w' := ((Act.setFlux l (g.getD j 0)).exec w).2) ⟨_, _, _, rfl⟩ rfl rfl rfl (some (numEig : ℤ))
    exact ⟨k2, k3, k5, g.getD j 0 * 2 * Real.pi, k4⟩
  obtain ⟨tab, dec, w', h1, -, h2, h3, -⟩ := loss_one rate (setLoop (l :: ls)) numEig g w R spectrum pt rates hstep
    (fun i hi => ⟨(hok i hi).2.1, hR i, fun ty hty => (hok i hi).2.2 ty hty⟩) (List.range g.length) (by simp)
    List.nodup_range (fun _ _ => 0) (fun _ _ => .val 0) w
    ⟨⟨_, _, _, rfl⟩, rfl, rfl, w.flux l, (Function.update_eq_self _ _).symm⟩
  refine ⟨tab, dec, w', ?_, fun j hj e _ => h2 j (by simpa using hj) e, fun j hj ty hty => h3 j (by simpa using hj) ty hty⟩
  unfold sweepLoss
  rw [List.map_singleton, gridIndices_one]
  exact h1

/-- C112, charge sweeps -/
theorem C112_charge (rate : String → World P → Except PyErr Rate) (mode : Option ℤ) (ms : List (Option ℤ)) (numEig : ℕ)
    (g : List ℝ) (w : World P) (spectrum : ℕ → List ℝ) (rates : ℕ → String → Rate)
    (hset : ∀ j < g.length, ((Act.setChargeOffset mode (g.getD j 0)).exec w).1 = .ok ())
    (hok : ∀ j < g.length,
      (∃ vs, (diag (some numEig) ((Act.setChargeOffset mode (g.getD j 0)).exec w).2).1 = .ok (spectrum j, vs)) ∧
      (spectrum j).length = numEig ∧
      ∀ ty ∈ sweepTypes, rate ty (run w [.setChargeOffset mode (g.getD j 0), .diag (some numEig)]) = .ok (rates j ty)) :
    ∃ tab dec w', sweepLoss rate (setMode (mode :: ms)) numEig [g] w = (.ok (tab, dec), w') ∧
      (∀ j < g.length, ∀ e < numEig, tab e [j] = (spectrum j).getD e 0) ∧
      (∀ j < g.length, ∀ ty ∈ sweepTypes, dec ty [j] = rates j ty) := by
  by_cases hg : g = []
  · subst hg
    exact ⟨_, _, w, rfl, by simp, by simp⟩
  cases hi : islandOf w.circ mode with
  | none =>
    have := hset 0 (List.length_pos_iff.2 hg)
    simp only [Act.exec, setChargeOffset, hi] at this
    exact absurd this (by simp)
  | some io =>
  obtain ⟨i, o⟩ := io
  let R : World P → Prop := fun w' => SameUpToOffset i o w.circ w'.circ ∧ w'.vals = w.vals ∧ w'.flux = w.flux ∧
    w'.unitFreq = w.unitFreq
  let pt : ℕ → World P := fun j => (diag (some (numEig : ℤ)) ((Act.setChargeOffset mode (g.getD j 0)).exec w).2).2
  have hw0 : SameUpToOffset i o w.circ w.circ := by
    refine ⟨o.chValue, w.circ.mem, w.circ.lc, w.circ.trig, w.circ.efreqs, w.circ.evecs, ?_⟩
    have : Function.update w.circ.islands i (some (o.setOffset o.chValue)) = w.circ.islands := by
      rw [Function.update_eq_iff]
      refine ⟨?_, fun _ _ => rfl⟩
      unfold islandOf at hi
      rcases mode with _ | k
      · exact absurd hi (by simp)
      · simp only at hi
        by_cases hk : k - 1 < 0
        · rw [if_pos hk] at hi; exact absurd hi (by simp)
        · rw [if_neg hk] at hi
          obtain ⟨o', h1, h2⟩ := Option.map_eq_some_iff.1 hi
          injection h2 with h2 h3
          rw [← h2, h1, h3]
          rfl
    rw [this]
  have hgp0 : ∀ j < g.length, gridPoint (fun v => setChargeOffset mode v) numEig (g.getD j 0) w = (.ok (spectrum j), pt j) := by
    intro j hj
    obtain ⟨⟨vs, hd⟩, -⟩ := hok j hj
    have h2 : (fun v => setChargeOffset (P := P) mode v) (g.getD j 0) w =
      (.ok (), ((Act.setChargeOffset mode (g.getD j 0)).exec w).2) := Prod.ext (hset j hj) rfl
    rw [gridPoint_ok (numEig := numEig) h2]
    exact Prod.ext (congrArg (Except.map Prod.fst) hd) rfl
  have hstep : ∀ w', R w' → ∀ j < g.length,
      gridPoint (setMode (mode :: ms) 0) numEig (g.getD j 0) w' = (.ok (spectrum j), pt j) := by
    rintro w' ⟨h1, h2, h3, h4⟩ j hj
    exact (offset_step_state hi h1 h2 h3 h4 (r := (spectrum j, pt j)) (hgp0 j hj)).trans (hgp0 j hj)
  have hR : ∀ j < g.length, R (pt j) := by
    intro j hj
    obtain ⟨-, k2, k3, k4, k5⟩ := offset_step hi hw0 rfl rfl rfl (g.getD j 0) numEig
    rw [hgp0 j hj] at k2 k3 k4 k5
    exact ⟨k2, k3, k4, k5⟩
  obtain ⟨tab, dec, w', h1, -, h2, h3, -⟩ := loss_one rate (setMode (mode :: ms)) numEig g w R spectrum pt rates hstep
    (fun j hj => ⟨(hok j hj).2.1, hR j hj, fun ty hty => (hok j hj).2.2 ty hty⟩) (List.range g.length) (by simp)
    List.nodup_range (fun _ _ => 0) (fun _ _ => .val 0) w ⟨hw0, rfl, rfl, rfl⟩
  refine ⟨tab, dec, w', ?_, fun j hj e _ => h2 j (by simpa using hj) e, fun j hj ty hty => h3 j (by simpa using hj) ty hty⟩
  unfold sweepLoss
  rw [List.map_singleton, gridIndices_one]
  exact h1

/-! ### `dec_rate` of circuit objects -/

section session
open Matrix
variable {c : CircSpec} {eigs : EigsFn} {as : List ℂ → List ℕ}

theorem vecOn_self {k : ℕ} (d : Fin k → ℕ) (v : Idx d → ℂ) : vecOn d ⟨k, d, v⟩ = some v := by
  unfold vecOn
  rw [dif_pos rfl]
  rfl

theorem mapM_vecOn {k : ℕ} (d : Fin k → ℕ) (ev : List (Idx d → ℂ)) :
    (ev.map fun v => (⟨k, d, v⟩ : Σ (k : ℕ) (d : Fin k → ℕ), Idx d → ℂ)).mapM (vecOn d) = some ev := by
  induction ev with
  | nil => rfl
  | cons v ev ih =>
    rw [List.map_cons, List.mapM_cons, vecOn_self]
    simp [ih]

/-- the state a successful `diag` leaves -/
theorem diag_state {w : World P} {k : ℤ} {r} (hd : (diag (some k) w).1 = .ok r) :
    ∃ mem ex lc f v, w.circ.mem = some mem ∧ w.circ.exp = some ex ∧ w.circ.lc = some lc ∧
      (diag (some k) w).2 = { w with circ := { w.circ with
        trig := some (P.trig w.circ.bd mem ex w.flux), efreqs := f, evecs := v } } := by
  unfold diag at hd ⊢
  by_cases hm : w.circ.m.length = 0
  · rw [if_pos hm] at hd; cases hd
  · rw [if_neg hm] at hd ⊢
    simp only at hd ⊢
    unfold diagNp at hd ⊢
    rcases hH : (hamiltonian w).1 with e | H
    · rw [show hamiltonian w = (.error e, (hamiltonian w).2) from Prod.ext hH rfl] at hd
      cases hd
    · obtain ⟨mem, ex, lc, h1, h2, h3, h4⟩ := ham_trig hH
      have e : hamiltonian w = (.ok H, { w with circ := { w.circ with trig := some (P.trig w.circ.bd mem ex w.flux) } }) :=
        Prod.ext hH h4
      rw [e] at hd ⊢
      simp only at hd ⊢
      rcases hE : P.eigs H k with e | raw
      · rw [hE] at hd; cases hd
      · exact ⟨mem, ex, lc, _, _, h1, h2, h3, rfl⟩

/-- C112 `dec_rate` on circuit objects: in any reachable truncated state, after a successful `diag`, `dec_rate` is
computed from the operators of the present truncation, charge offsets, element values and fluxes and the eigenpairs
`diag` has just stored. -/
theorem C112_session (hs : NoSelfLoops c.els) (vals : ElemId → ℝ) (flux : LoopId → ℝ) (u : ℝ)
    (w0 : World (circPhys c eigs as)) (hw : construct (circPhys c eigs as) vals flux u = .ok w0)
    (h : List Act) (hh : Orderly w0 h) (noise : ObjNoise) (env : NoiseEnv) (ty : String) (st : ℤ × ℤ) (total : Bool)
    (num : ℤ) :
    let w := run w0 h
    let bd : Build := w.circ.bd
    let w' := (diag (some num) w).2
    (∃ r, (diag (some num) w).1 = .ok r) → w'.circ.efreqs ≠ [] →
    ∀ ev : List (Idx (bd.dims w.circ.m) → ℂ), w'.circ.evecs = ev.map (fun v => ⟨_, _, v⟩) →
    sessionRate noise env ty st total w' =
      some ((bd.noise c (bd.dims w.circ.m) (fun i => (w.circ.ng i).getD 0) w.vals (fun l => w.flux (bd.loops.get l))
        (fun _ => 0) (noise.spec bd.loops w.circ.islands) env w'.circ.efreqs ev).decRate ty st total) := by
  intro w bd w' hr hne ev hev
  obtain ⟨r, hr⟩ := hr
  have hm : w.circ.m ≠ [] := by
    intro h0
    unfold diag at hr
    rw [if_pos (by rw [h0]; rfl)] at hr
    cases hr
  obtain ⟨-, hst⟩ := stored_ops hs hw h hh
  obtain ⟨hmem, hexp⟩ := hst hm
  obtain ⟨mem, ex, lc, f, v, h1, h2, h3, h4⟩ := diag_state hr
  have e1 := Option.some.inj (h1.symm.trans hmem)
  have e2 := Option.some.inj (h2.symm.trans hexp)
  subst e1 e2
  have h4' : w' = _ := h4
  rw [h4'] at hev hne ⊢
  simp only at hev hne
  subst hev
  unfold sessionRate
  rw [if_neg (by rw [List.length_eq_zero_iff]; exact hne)]
  have h1' : (run w0 h).circ.mem = _ := h1
  have h2' : (run w0 h).circ.exp = _ := h2
  simp only [w, h1', h2']
  rw [dif_pos ⟨trivial, trivial⟩]
  have hmv := mapM_vecOn (bd.dims w.circ.m) ev
  exact congrArg (Option.map _) hmv

theorem buildWith_edges {n : ℕ} {v : ElemId → ℝ} (hs : NoSelfLoops c.els)
    {finish : ∀ {nJ : ℕ}, Trans nJ n → Modes nJ n} {b : Build}
    (h : buildWith c n v finish = .ok b) : ∀ p ∈ c.els, ValidEdge b.n p.1 := by
  rw [buildWith_eq] at h
  split at h
  · cases h
  · rename_i a htr
    have hv : ∀ p ∈ c.els, ValidEdge n p.1 := by
      intro p hp
      have := buildEdges_nodes_le htr p hp
      exact ⟨hs p hp, this.1, this.2⟩
    unfold afterTraverse afterFields at h
    split at h
    · cases h
    · split at h
      · cases h
      · split at h
        · cases h
        · cases h
        · injection h with h
          subst h
          exact hv

theorem rebuild_edges (hs : NoSelfLoops c.els) {n : ℕ} {v : ElemId → ℝ} {b : Build}
    (h : rebuildCirc c n v = .ok b) : ∀ p ∈ c.els, ValidEdge b.n p.1 := buildWith_edges hs h

/-- edges of the circuit in every reachable state -/
theorem edges_now (hs : NoSelfLoops c.els) {vals : ElemId → ℝ} {flux : LoopId → ℝ} {u : ℝ}
    {w0 : World (circPhys c eigs as)} (hw : construct (circPhys c eigs as) vals flux u = .ok w0)
    {h : List Act} (hh : Orderly w0 h) :
    BuildOK (run w0 h).circ.bd ∧ ∀ p ∈ c.els, ValidEdge (run w0 h).circ.bd.n p.1 := by
  have := coherent_run (P := circPhys c eigs as)
    (fun _ (bd : Build) => BuildOK bd ∧ ∀ p ∈ c.els, ValidEdge bd.n p.1) h w0 vals
    (coherent_construct hw fun _ hb => ⟨build_valid hs hb, by
      have hb' : buildCirc c vals = .ok _ := hb
      unfold buildCirc at hb'
      cases hn : numNodes c.els with
      | error e => rw [hn] at hb'; cases hb'
      | ok n => rw [hn] at hb'; exact buildWith_edges hs hb'⟩) hh
    (fun h1 h2 he bd hbd => ⟨rebuild_valid hs hbd, rebuild_edges hs hbd⟩)
  exact this.1

/-- every rate of two computed states is defined -/
theorem noise_defined {bd : Build} (hb : bd.M.keep.length ≤ bd.n) (hv : ∀ p ∈ c.els, ValidEdge bd.n p.1)
    (m : Fin bd.M.keep.length → ℕ) (ng val fluxes P noise env ef) (ev : List (Idx m → ℂ)) {p q : ℕ}
    (hp : p < ev.length) (hq : q < ev.length) (hpf : p < ef.length) (hqf : q < ef.length) (total : Bool) :
    ∀ ty ∈ sweepTypes, ∃ r, (bd.noise c m ng val fluxes P noise env ef ev).decRate ty (p, q) total = .ok r := by
  intro ty hty
  obtain ⟨w, w', hpair⟩ := pair_stored (bd.noise c m ng val fluxes P noise env ef ev)
    (List.getElem?_eq_getElem hp) (List.getElem?_eq_getElem hq) hpf hqf
  obtain ⟨-, -, -, h3, h4⟩ := pair_ok hpair
  rw [decRate_eq, hpair]
  simp only
  unfold NoiseCirc.rateOf
  simp only [sweepTypes, List.mem_cons, List.not_mem_nil, or_false] at hty
  rcases hty with rfl | rfl | rfl | rfl | rfl | rfl
  · simp only [if_true]
    have key : ∀ e, ∃ v : Op m, ValidEdge bd.n e → couplingOp "capacitive" bd.C bd.M (buildMem bd.M.data m ng).Q
        (buildMem bd.M.data m ng).phi e = .ok v := by
      intro e
      by_cases he : ValidEdge bd.n e
      · exact ⟨_, fun _ => couplingOp_ok (Or.inl rfl) bd.C bd.M hb _ _ he⟩
      · exact ⟨0, fun h => absurd h he⟩
    choose V hV using key
    obtain ⟨gs, hg, -⟩ := capCoefs_sum (bd.noise c m ng val fluxes P noise env ef ev) (pyGet_mem h3) h3 h4
      |w' - w| V (branchCaps c.O c.els) (by
        intro x hx
        refine hV x.1 ?_
        obtain ⟨y, hy, hxy⟩ := List.mem_flatMap.1 hx
        obtain ⟨i, hi, rfl⟩ := List.mem_map.1 hxy
        exact hv y hy)
    rw [capRate_eq]
    have hg' : (bd.noise c m ng val fluxes P noise env ef ev).capCoefs |w' - w| (p, q)
        (bd.noise c m ng val fluxes P noise env ef ev).caps = .ok gs := hg
    rw [hg']
    exact ⟨_, rfl⟩
  · simp
  · simp
  · simp
  · simp only [String.reduceEq, if_false, if_true]
    rw [ccRate_eq _ h3 h4]
    exact ⟨_, rfl⟩
  · simp only [String.reduceEq, if_false, if_true]
    rw [fluxRate_eq _ h3 h4]
    exact ⟨_, rfl⟩

theorem pyGet_ge {α : Type*} {l : List α} {p : ℕ} (h : l.length ≤ p) : pyGet l (p : ℤ) = .error .indexError := by
  unfold pyGet pyIdx
  rw [dif_neg (by omega), dif_neg (by omega)]

/-- C112: in every reachable truncated state, once enough eigenstates have been computed, `dec_rate` returns a number
for each of the six types and any two of the computed states; asking for a state that was not computed raises
IndexError. -/
theorem C112_defined (he : EigsLowest eigs) (ha : CArgsortSpec as) (hs : NoSelfLoops c.els)
    (vals : ElemId → ℝ) (flux : LoopId → ℝ) (u : ℝ)
    (w0 : World (circPhys c eigs as)) (hw : construct (circPhys c eigs as) vals flux u = .ok w0)
    (h : List Act) (hh : Orderly w0 h) (hm : (run w0 h).circ.m ≠ []) (num : ℕ) (h1 : 1 ≤ num)
    (hdim : num + 1 < Fintype.card (Idx ((run w0 h).circ.bd.dims (run w0 h).circ.m)))
    (noise : ObjNoise) (env : NoiseEnv) (total : Bool) :
    (∃ r, (diag (some num) (run w0 h)).1 = .ok r ∧ r.1.length = num) ∧
    (∀ p q : ℕ, p < num → q < num → ∀ ty ∈ sweepTypes,
      ∃ r, sessionRate noise env ty (p, q) total (diag (some num) (run w0 h)).2 = some (.ok r)) ∧
    ∀ p : ℕ, num ≤ p → ∀ ty q, sessionRate noise env ty (p, q) total (diag (some num) (run w0 h)).2 =
      some (.error .indexError) := by
  obtain ⟨hb, hv⟩ := edges_now hs hw hh
  obtain ⟨hbok, -, -, hham⟩ := ham_now hs hw hh hm
  obtain ⟨H, hH, hherm⟩ := C40_hermitian (run w0 h).circ.bd.C (run w0 h).circ.bd.M hbok.1
    ((run w0 h).circ.bd.dims (run w0 h).circ.m) (fun i => ((run w0 h).circ.ng i).getD 0) (run w0 h).vals
    ((run w0 h).circ.bd.fluxes (run w0 h).flux) (run w0 h).circ.bd.inds (run w0 h).circ.bd.juns hbok.2
  have hham' := hham (run w0 h) rfl
  rw [hH] at hham'
  obtain ⟨vs, ws, ev, w', hlev, hd, hef, hevs, hlen, -⟩ := diag_lowest he ha hm hham' hherm num h1 hdim
  have hd2 : (diag (some (num : ℤ)) (run w0 h)).2 = w' := congrArg Prod.snd hd
  have hefl : w'.circ.efreqs.length = num := by
    rw [hef, List.length_take, hlev.len, hlev.card]; omega
  have hses := fun ty st => C112_session hs vals flux u w0 hw h hh noise env ty st total num ⟨_, congrArg Prod.fst hd⟩
    (by
      rw [hd2]
      intro h0
      rw [h0] at hefl
      simp at hefl
      omega) ev (by rw [hd2, hevs])
  rw [hd2] at hses ⊢
  refine ⟨⟨_, congrArg Prod.fst hd, ?_⟩, ?_, ?_⟩
  · rw [List.length_map, ← hef]; exact hefl
  · intro p q hp hq ty hty
    obtain ⟨r, hr⟩ := noise_defined (c := c) hb.1 hv ((run w0 h).circ.bd.dims (run w0 h).circ.m)
      (fun i => ((run w0 h).circ.ng i).getD 0) (run w0 h).vals
      (fun l => (run w0 h).flux ((run w0 h).circ.bd.loops.get l)) (fun _ => 0)
      (noise.spec (run w0 h).circ.bd.loops (run w0 h).circ.islands) env w'.circ.efreqs ev (p := p) (q := q)
      (by omega) (by omega) (by rw [hefl]; exact hp) (by rw [hefl]; exact hq) total ty hty
    exact ⟨r, (hses ty (p, q)).trans (congrArg some hr)⟩
  · intro p hp ty q
    refine (hses ty (p, q)).trans (congrArg some ?_)
    unfold NoiseCirc.decRate
    have h0 : (Build.noise c (run w0 h).circ.bd ((run w0 h).circ.bd.dims (run w0 h).circ.m)
      (fun i => ((run w0 h).circ.ng i).getD 0) (run w0 h).vals
      (fun l => (run w0 h).flux ((run w0 h).circ.bd.loops.get l)) (fun _ => 0)
      (noise.spec (run w0 h).circ.bd.loops (run w0 h).circ.islands) env
      w'.circ.efreqs ev).efreqs.length = num := hefl
    rw [if_neg (by rw [h0]; omega)]
    simp only
    rw [pyGet_ge (by rw [h0]; exact hp)]

/-- `dec_rate(type, (1, 0))` as a sweep calls it -/
noncomputable def sweepRate (noise : ObjNoise) (env : NoiseEnv) (ty : String) (w : World (circPhys c eigs as)) :
    Except PyErr Rate := (sessionRate noise env ty (1, 0) true w).getD (.error .circuitState)

/-- C112 on circuits, flux sweeps: take any circuit, any history of calls that leaves it truncated, any loop, any
one-dimensional grid and at least two eigenvalues. The sweep with 'loss' succeeds; column j of the frequencies is what
`diag` returns after setting the loop to grid point j, and entry j of each of the six rate tables is what `dec_rate`
between states 1 and 0 returns after that. -/
theorem C112_circuit_flux (he : EigsLowest eigs) (ha : CArgsortSpec as) (hs : NoSelfLoops c.els)
    (vals : ElemId → ℝ) (flux : LoopId → ℝ) (u : ℝ)
    (w0 : World (circPhys c eigs as)) (hw : construct (circPhys c eigs as) vals flux u = .ok w0)
    (h : List Act) (hh : Orderly w0 h) (hm : (run w0 h).circ.m ≠ []) (num : ℕ) (h2 : 2 ≤ num)
    (hdim : num + 1 < Fintype.card (Idx ((run w0 h).circ.bd.dims (run w0 h).circ.m)))
    (noise : ObjNoise) (env : NoiseEnv) (l : LoopId) (ls : List LoopId) (g : List ℝ) :
    ∃ tab dec w', sweepLoss (sweepRate noise env) (setLoop (l :: ls)) num [g] (run w0 h) = (.ok (tab, dec), w') ∧
      ∀ j < g.length,
        (∃ r, (diag (some num) (run w0 (h ++ [.setFlux l (g.getD j 0)]))).1 = .ok r ∧ r.1.length = num ∧
          ∀ e < num, tab e [j] = r.1.getD e 0) ∧
        ∀ ty ∈ sweepTypes, sessionRate noise env ty (1, 0) true
          (run w0 (h ++ [.setFlux l (g.getD j 0), .diag (some num)])) = some (.ok (dec ty [j])) := by
  have hpt : ∀ j, (∃ r, (diag (some num) (run w0 (h ++ [.setFlux l (g.getD j 0)]))).1 = .ok r ∧ r.1.length = num) ∧
      ∀ ty, ∃ r, ty ∈ sweepTypes → sessionRate noise env ty (1, 0) true
        (diag (some num) (run w0 (h ++ [.setFlux l (g.getD j 0)]))).2 = some (.ok r) := by
    intro j
    have hc : (run w0 (h ++ [.setFlux l (g.getD j 0)])).circ = (run w0 h).circ := by rw [run_snoc]; rfl
    have hdim' : ∀ ci : Circ (circPhys c eigs as), ci = (run w0 h).circ →
        num + 1 < Fintype.card (Idx (Build.dims ci.bd ci.m)) := by rintro ci rfl; exact hdim
    obtain ⟨h3, h4, -⟩ := C112_defined he ha hs vals flux u w0 hw (h ++ [.setFlux l (g.getD j 0)])
      (orderly_snoc hh fun _ => rfl) (by rw [hc]; exact hm) num (by omega) (hdim' _ hc) noise env true
    refine ⟨h3, fun ty => ?_⟩
    by_cases hty : ty ∈ sweepTypes
    · obtain ⟨r, hr⟩ := h4 1 0 (by omega) (by omega) ty hty
      exact ⟨r, fun _ => hr⟩
    · exact ⟨.val 0, fun h => absurd h hty⟩
  have hpt1 := fun j => (hpt j).1
  have hpt2 := fun j => (hpt j).2
  choose r hr hrl using hpt1
  choose rates hrates using hpt2
  obtain ⟨tab, dec, w', k1, k2, k3⟩ := C112_flux (sweepRate noise env) l ls num g (run w0 h) (fun j => (r j).1) rates
    (fun j hj => by
      have hr' := hr j
      rw [run_snoc] at hr'
      refine ⟨⟨(r j).2, hr'⟩, hrl j, fun ty hty => ?_⟩
      have hx := hrates j ty hty
      rw [run_snoc] at hx
      exact congrArg (fun o => Option.getD o _) hx)
  refine ⟨tab, dec, w', k1, fun j hj => ⟨⟨r j, hr j, hrl j, fun e he => k2 j hj e he⟩, fun ty hty => ?_⟩⟩
  have : run w0 (h ++ [.setFlux l (g.getD j 0), .diag (some num)]) =
      (diag (some num) (run w0 (h ++ [.setFlux l (g.getD j 0)]))).2 := by
    rw [run_append, run_snoc]; rfl
  rw [this, hrates j ty hty, k3 j hj ty hty]

/-- C112 on circuits, charge sweeps -/
theorem C112_circuit_charge (he : EigsLowest eigs) (ha : CArgsortSpec as) (hs : NoSelfLoops c.els)
    (vals : ElemId → ℝ) (flux : LoopId → ℝ) (u : ℝ)
    (w0 : World (circPhys c eigs as)) (hw : construct (circPhys c eigs as) vals flux u = .ok w0)
    (h : List Act) (hh : Orderly w0 h) (hm : (run w0 h).circ.m ≠ []) (num : ℕ) (h2 : 2 ≤ num)
    (hdim : num + 1 < Fintype.card (Idx ((run w0 h).circ.bd.dims (run w0 h).circ.m)))
    (noise : ObjNoise) (env : NoiseEnv) (mode : Option ℤ) (ms : List (Option ℤ)) (g : List ℝ)
    (hset : ∀ j < g.length, ((Act.setChargeOffset mode (g.getD j 0)).exec (run w0 h)).1 = .ok ()) :
    ∃ tab dec w', sweepLoss (sweepRate noise env) (setMode (mode :: ms)) num [g] (run w0 h) = (.ok (tab, dec), w') ∧
      ∀ j < g.length,
        (∃ r, (diag (some num) (run w0 (h ++ [.setChargeOffset mode (g.getD j 0)]))).1 = .ok r ∧ r.1.length = num ∧
          ∀ e < num, tab e [j] = r.1.getD e 0) ∧
        ∀ ty ∈ sweepTypes, sessionRate noise env ty (1, 0) true
          (run w0 (h ++ [.setChargeOffset mode (g.getD j 0), .diag (some num)])) = some (.ok (dec ty [j])) := by
  have hsame : ∀ v, ((Act.setChargeOffset mode v).exec (run w0 h)).2.circ.m = (run w0 h).circ.m ∧
      ((Act.setChargeOffset mode v).exec (run w0 h)).2.circ.bd = (run w0 h).circ.bd := by
    intro v
    simp only [Act.exec, setChargeOffset]
    split
    · exact ⟨rfl, rfl⟩
    · split
      · exact ⟨rfl, rfl⟩
      · split <;> exact ⟨rfl, rfl⟩
  have hpt : ∀ j, ∃ r : List ℝ × List (circPhys c eigs as).Vec, j < g.length →
      ((diag (some num) (run w0 (h ++ [.setChargeOffset mode (g.getD j 0)]))).1 = .ok r ∧ r.1.length = num) ∧
      ∀ ty, ∃ r, ty ∈ sweepTypes → sessionRate noise env ty (1, 0) true
        (diag (some num) (run w0 (h ++ [.setChargeOffset mode (g.getD j 0)]))).2 = some (.ok r) := by
    intro j
    by_cases hj : j < g.length
    swap
    · exact ⟨([], []), fun h => absurd h hj⟩
    obtain ⟨hc1, hc2⟩ := hsame (g.getD j 0)
    rw [← run_snoc] at hc1 hc2
    have hdim' : ∀ (b : Build) (m : List ℤ), b = (run w0 h).circ.bd → m = (run w0 h).circ.m →
        num + 1 < Fintype.card (Idx (Build.dims b m)) := by rintro b m rfl rfl; exact hdim
    obtain ⟨⟨r, h3, h3'⟩, h4, -⟩ := C112_defined he ha hs vals flux u w0 hw (h ++ [.setChargeOffset mode (g.getD j 0)])
      (orderly_snoc hh fun _ => hset j hj) (by rw [hc1]; exact hm) num (by omega) (hdim' _ _ hc2 hc1) noise env true
    refine ⟨r, fun _ => ⟨⟨h3, h3'⟩, fun ty => ?_⟩⟩
    by_cases hty : ty ∈ sweepTypes
    · obtain ⟨r, hr⟩ := h4 1 0 (by omega) (by omega) ty hty
      exact ⟨r, fun _ => hr⟩
    · exact ⟨.val 0, fun h => absurd h hty⟩
  choose r hr using hpt
  have hpt2 : ∀ j, ∃ f : String → Rate, j < g.length → ∀ ty, ty ∈ sweepTypes → sessionRate noise env ty (1, 0) true
        (diag (some num) (run w0 (h ++ [.setChargeOffset mode (g.getD j 0)]))).2 = some (.ok (f ty)) := by
    intro j
    by_cases hj : j < g.length
    · obtain ⟨-, hx⟩ := hr j hj
      choose f hf using hx
      exact ⟨f, fun _ => hf⟩
    · exact ⟨fun _ => .val 0, fun h => absurd h hj⟩
  choose rates hrates using hpt2
  obtain ⟨tab, dec, w', k1, k2, k3⟩ := C112_charge (sweepRate noise env) mode ms num g (run w0 h) (fun j => (r j).1) rates
    hset (fun j hj => by
      have hr' := (hr j hj).1.1
      rw [run_snoc] at hr'
      refine ⟨⟨(r j).2, hr'⟩, (hr j hj).1.2, fun ty hty => ?_⟩
      have hx := hrates j hj ty hty
      rw [run_snoc] at hx
      exact congrArg (fun o => Option.getD o _) hx)
  refine ⟨tab, dec, w', k1, fun j hj => ⟨⟨r j, (hr j hj).1.1, (hr j hj).1.2, fun e he => k2 j hj e he⟩, fun ty hty => ?_⟩⟩
  have : run w0 (h ++ [.setChargeOffset mode (g.getD j 0), .diag (some num)]) =
      (diag (some num) (run w0 (h ++ [.setChargeOffset mode (g.getD j 0)]))).2 := by
    rw [run_append, run_snoc]; rfl
  rw [this, hrates j hj ty hty, k3 j hj ty hty]

/-- C112: a sweep with 'loss' and a single eigenvalue raises IndexError (the rates are between states 1 and 0). -/
theorem C112_one_state (he : EigsLowest eigs) (ha : CArgsortSpec as) (hs : NoSelfLoops c.els)
    (vals : ElemId → ℝ) (flux : LoopId → ℝ) (u : ℝ)
    (w0 : World (circPhys c eigs as)) (hw : construct (circPhys c eigs as) vals flux u = .ok w0)
    (h : List Act) (hh : Orderly w0 h) (hm : (run w0 h).circ.m ≠ [])
    (hdim : 2 < Fintype.card (Idx ((run w0 h).circ.bd.dims (run w0 h).circ.m)))
    (noise : ObjNoise) (env : NoiseEnv) (l : LoopId) (ls : List LoopId) (x : ℝ) (g : List ℝ) :
    (sweepLoss (sweepRate noise env) (setLoop (l :: ls)) 1 [x :: g] (run w0 h)).1 = .error .indexError := by
  have hc : (run w0 (h ++ [.setFlux l x])).circ = (run w0 h).circ := by rw [run_snoc]; rfl
  have hdim' : ∀ ci : Circ (circPhys c eigs as), ci = (run w0 h).circ →
      1 + 1 < Fintype.card (Idx (Build.dims ci.bd ci.m)) := by rintro ci rfl; exact hdim
  obtain ⟨⟨r, hr, hrl⟩, -, h4⟩ := C112_defined he ha hs vals flux u w0 hw (h ++ [.setFlux l x])
    (orderly_snoc hh fun _ => rfl) (by rw [hc]; exact hm) 1 le_rfl (hdim' _ hc) noise env true
  have h5 := h4 1 le_rfl "capacitive" 0
  rw [run_snoc] at hr h5
  unfold sweepLoss
  rw [List.map_singleton, gridIndices_one, List.length_cons, List.range_succ_eq_map, List.map_cons, lossLoop,
    setParams_one]
  have hset : setLoop (l :: ls) 0 ((x :: g).getD 0 0) (run w0 h) = (.ok (), ((Act.setFlux l x).exec (run w0 h)).2) := rfl
  rw [hset]
  simp only
  have hd : diag (some ((1 : ℕ) : ℤ)) ((Act.setFlux l x).exec (run w0 h)).2 =
      (.ok r, (diag (some ((1 : ℕ) : ℤ)) ((Act.setFlux l x).exec (run w0 h)).2).2) := Prod.ext hr rfl
  rw [hd]
  simp only
  obtain ⟨tab1, ht, -⟩ := assign_one (numEig := 1) (fun _ _ => 0) (i := 0) (n := (x :: g).length) (by simp) hrl
  have ht' : assignEfreq 1 (List.map List.length [x :: g]) (fun _ _ => 0) [0] r.1 = .ok tab1 := ht
  rw [ht']
  simp only
  have hf : fillDec (sweepRate noise env) [0] (diag (some ((1 : ℕ) : ℤ)) ((Act.setFlux l x).exec (run w0 h)).2).2 sweepTypes
      (fun _ _ => .val 0) = .error .indexError := by
    unfold sweepTypes
    rw [fillDec]
    have : sweepRate noise env "capacitive" (diag (some ((1 : ℕ) : ℤ)) ((Act.setFlux l x).exec (run w0 h)).2).2 =
      .error .indexError := congrArg (fun o => Option.getD o _) h5
    rw [this]
  rw [hf]

end session

end SQ
