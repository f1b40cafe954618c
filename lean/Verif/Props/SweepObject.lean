import Verif.Spec.SweepObject
import Verif.Props.SweepLoss

/-!
# C140: tables and files of sweeps
-/

namespace SQ
open Spec

variable {P : Phys}

/-! ### helper lemmas -/

/-- without losses the loop is that of `sweep` -/
theorem fill_freq (rate : String → World P → Except PyErr Rate) (set : ℕ → ℝ → World P → Call (World P) Unit)
    (numEig : ℕ) (grid : List (List ℝ)) (l : List (List ℕ)) (tab : FreqTab) (dec : RateTab) (w : World P) :
    (∀ tab' w', sweepLoop set numEig grid l tab w = (.ok tab', w') →
      fillTables rate set numEig false grid l tab dec w = (.ok (), tab', dec, w')) ∧
    (∀ e w', sweepLoop set numEig grid l tab w = (.error e, w') → ∃ tab',
      fillTables rate set numEig false grid l tab dec w = (.error e, tab', dec, w')) := by
  induction l generalizing tab w with
  | nil =>
    refine ⟨fun tab' w' h => ?_, fun e w' h => ?_⟩
    · cases h; rfl
    · cases h
  | cons ind l ih =>
    unfold sweepLoop fillTables
    rcases setParams set grid (ind.zipIdx.map Prod.swap) w with ⟨e1 | u1, w1⟩
    · refine ⟨fun tab' w' h => (by cases h), fun e w' h => ?_⟩
      cases h; exact ⟨_, rfl⟩
    · simp only
      rcases diag (some (numEig : ℤ)) w1 with ⟨e2 | ⟨ev, vs⟩, w2⟩
      · refine ⟨fun tab' w' h => (by cases h), fun e w' h => ?_⟩
        cases h; exact ⟨_, rfl⟩
      · simp only
        rcases assignEfreq numEig (grid.map List.length) tab ind ev with e3 | tab3
        · refine ⟨fun tab' w' h => (by cases h), fun e w' h => ?_⟩
          cases h; exact ⟨_, rfl⟩
        · exact ih tab3 w2

/-- with losses it is that of `sweepLoss` -/
theorem fill_loss (rate : String → World P → Except PyErr Rate) (set : ℕ → ℝ → World P → Call (World P) Unit)
    (numEig : ℕ) (grid : List (List ℝ)) (l : List (List ℕ)) (tab : FreqTab) (dec : RateTab) (w : World P)
    (tab' : FreqTab) (dec' : RateTab) (w' : World P)
    (h : lossLoop rate set numEig grid l tab dec w = (.ok (tab', dec'), w')) :
    fillTables rate set numEig true grid l tab dec w = (.ok (), tab', dec', w') := by
  induction l generalizing tab dec w with
  | nil => cases h; rfl
  | cons ind l ih =>
    unfold lossLoop at h
    unfold fillTables
    obtain ⟨⟨r1, w1⟩, h1⟩ : ∃ x, x = setParams set grid (ind.zipIdx.map Prod.swap) w := ⟨_, rfl⟩
    rw [← h1] at h ⊢
    cases r1 with
    | error e => cases h
    | ok u1 =>
      simp only at h ⊢
      obtain ⟨⟨r2, w2⟩, h2⟩ : ∃ x, x = diag (some (numEig : ℤ)) w1 := ⟨_, rfl⟩
      rw [← h2] at h ⊢
      cases r2 with
      | error e => cases h
      | ok q =>
        obtain ⟨ev, vs⟩ := q
        simp only at h ⊢
        obtain ⟨r3, h3⟩ : ∃ x, x = assignEfreq numEig (grid.map List.length) tab ind ev := ⟨_, rfl⟩
        rw [← h3] at h ⊢
        cases r3 with
        | error e => cases h
        | ok tab3 =>
          simp only [if_true] at h ⊢
          obtain ⟨r4, h4⟩ : ∃ x, x = fillDec rate ind w2 sweepTypes dec := ⟨_, rfl⟩
          rw [← h4] at h ⊢
          cases r4 with
          | error e => cases h
          | ok dec4 => exact ih _ _ _ h

/-- the end of a sweep changes files only -/
theorem end_frame (toFile : Option String) (plotF : Bool) (dim : ℕ) (o : SweepObj) (out : ℕ × Option ℕ)
    (res : Except PyErr Unit) (d : Desk P) :
    ∃ fs, (sweepEnd toFile plotF dim o out res d).2 = { d with files := fs } ∧
      ∀ f, toFile ≠ some f → fs f = d.files f := by
  unfold sweepEnd
  cases res with
  | error e => exact ⟨_, rfl, fun _ _ => rfl⟩
  | ok u =>
    simp only
    split_ifs
    · exact ⟨_, rfl, fun _ _ => rfl⟩
    · cases toFile with
      | none => exact ⟨_, rfl, fun _ _ => rfl⟩
      | some g =>
        by_cases hg : g = ""
        · have : fileName (some g) = none := by simp [fileName, hg]
          rw [this]
          exact ⟨_, rfl, fun _ _ => rfl⟩
        · have : fileName (some g) = some g := by simp [fileName, hg]
          rw [this]
          exact ⟨_, rfl, fun f hf => Function.update_of_ne (fun h => hf (by rw [h])) _ _⟩

/-- a sweep that fails at its end changes nothing more -/
theorem end_failed (toFile : Option String) (plotF : Bool) (dim : ℕ) (o : SweepObj) (out : ℕ × Option ℕ)
    (res : Except PyErr Unit) (d : Desk P) {e : PyErr} (h : (sweepEnd toFile plotF dim o out res d).1 = .error e) :
    (sweepEnd toFile plotF dim o out res d).2 = d := by
  unfold sweepEnd at h ⊢
  cases res with
  | error e => rfl
  | ok u =>
    simp only at h ⊢
    split_ifs at h ⊢
    · rfl
    · cases hf : fileName toFile with
      | none => rfl
      | some f => rw [hf] at h; cases h

variable (rate : String → World P → Except PyErr Rate)

theorem exec_next (op : DeskOp) (d : Desk P) : d.next ≤ (op.exec rate d).2.next := by
  cases op with
  | sweep s kind gid toFile plotF =>
    simp only [DeskOp.exec, sweepCall]
    cases d.sweeps s with
    | none => exact le_refl _
    | some o =>
      obtain ⟨fs, h, -⟩ := end_frame (P := P) toFile plotF (d.grids gid).length _ _ _ _
      simp only
      rw [h]
      exact Nat.le_succ _
  | save s f =>
    simp only [DeskOp.exec, saveCall]
    cases d.sweeps s <;> exact le_refl _
  | load s f =>
    simp only [DeskOp.exec, loadCall]
    cases d.files f
    · exact le_refl _
    · exact Nat.le_succ _
  | _ => exact le_refl _

theorem exec_arrays (op : DeskOp) (d : Desk P) (k : ℕ) (hk : k < d.next) (hop : ¬ op.edits k) :
    (op.exec rate d).2.tabs k = d.tabs k ∧ (op.exec rate d).2.decs k = d.decs k := by
  cases op with
  | sweep s kind gid toFile plotF =>
    simp only [DeskOp.exec, sweepCall]
    cases d.sweeps s with
    | none => exact ⟨rfl, rfl⟩
    | some o =>
      have h1 : ∀ t, Function.update d.tabs d.next t k = d.tabs k := fun t => Function.update_of_ne hk.ne _ _
      have h2 : ∀ (b : Bool) t, (if b then Function.update d.decs d.next t else d.decs) k = d.decs k := by
        intro b t
        cases b
        · rfl
        · exact Function.update_of_ne hk.ne _ _
      obtain ⟨fs, h, -⟩ := end_frame (P := P) toFile plotF (d.grids gid).length _ _ _ _
      simp only
      rw [h]
      exact ⟨h1 _, h2 _ _⟩
  | save s f =>
    simp only [DeskOp.exec, saveCall]
    cases d.sweeps s <;> exact ⟨rfl, rfl⟩
  | load s f =>
    simp only [DeskOp.exec, loadCall]
    cases d.files f
    · exact ⟨rfl, rfl⟩
    · exact ⟨Function.update_of_ne hk.ne _ _, Function.update_of_ne hk.ne _ _⟩
  | editTab k' t => exact ⟨Function.update_of_ne (fun h => hop h.symm) _ _, rfl⟩
  | editDec k' t => exact ⟨rfl, Function.update_of_ne (fun h => hop h.symm) _ _⟩
  | _ => exact ⟨rfl, rfl⟩

theorem run_arrays (ops : List DeskOp) (d : Desk P) (k : ℕ) (hk : k < d.next) (hop : ∀ op ∈ ops, ¬ op.edits k) :
    (deskRun rate d ops).tabs k = d.tabs k ∧ (deskRun rate d ops).decs k = d.decs k := by
  induction ops generalizing d with
  | nil => exact ⟨rfl, rfl⟩
  | cons op ops ih =>
    have h1 := exec_arrays rate op d k hk (hop op (by simp))
    have h2 := ih (op.exec rate d).2 (lt_of_lt_of_le hk (exec_next rate op d)) fun o ho => hop o (by simp [ho])
    exact ⟨h2.1.trans h1.1, h2.2.trans h1.2⟩

theorem exec_files (op : DeskOp) (d : Desk P) (f : String) (hop : ¬ op.writes f) :
    (op.exec rate d).2.files f = d.files f := by
  cases op with
  | sweep s kind gid toFile plotF =>
    simp only [DeskOp.exec, sweepCall]
    cases d.sweeps s with
    | none => rfl
    | some o =>
      obtain ⟨fs, h, hfs⟩ := end_frame (P := P) toFile plotF (d.grids gid).length _ _ _ _
      simp only
      rw [h]
      exact hfs f hop
  | save s f' =>
    simp only [DeskOp.exec, saveCall]
    cases d.sweeps s
    · rfl
    · exact Function.update_of_ne (fun h => hop h.symm) _ _
  | load s f' =>
    simp only [DeskOp.exec, loadCall]
    cases d.files f' <;> rfl
  | _ => rfl

theorem run_files (ops : List DeskOp) (d : Desk P) (f : String) (hop : ∀ op ∈ ops, ¬ op.writes f) :
    (deskRun rate d ops).files f = d.files f := by
  induction ops generalizing d with
  | nil => rfl
  | cons op ops ih =>
    exact (ih (op.exec rate d).2 fun o ho => hop o (by simp [ho])).trans (exec_files rate op d f (hop op (by simp)))

/-- a loaded object has what the file holds -/
theorem load_contents (d : Desk P) (s : ℕ) (f : String) (c : SweepFile) (hf : d.files f = some c) :
    ∃ o, ((DeskOp.load s f).exec rate d).1 = .ok none ∧ ((DeskOp.load s f).exec rate d).2.sweeps s = some o ∧
      ((DeskOp.load s f).exec rate d).2.contents o = c := by
  simp only [DeskOp.exec, loadCall, hf]
  refine ⟨_, trivial, Function.update_self _ _ _, ?_⟩
  obtain ⟨n, l, k, g, e, r⟩ := c
  cases g <;> cases e <;> cases r <;> simp [Desk.contents]

/-- objects and files without losses have no rates -/
def NoRates (d : Desk P) : Prop :=
  (∀ s o, d.sweeps s = some o → o.loss = false → o.dec = none) ∧
  ∀ f c, d.files f = some c → c.loss = false → c.dec = none

theorem exec_norates (op : DeskOp) (d : Desk P) (h : NoRates d) : NoRates (op.exec rate d).2 := by
  have hup : ∀ {α : Type} (q : α → Prop) (fs : String → Option α) (f0 : String) (c0 : α), q c0 →
      (∀ f c, fs f = some c → q c) → ∀ f c, Function.update fs f0 (some c0) f = some c → q c := by
    intro α q fs f0 c0 h0 h1 f c hf
    by_cases he : f = f0
    · subst he
      rw [Function.update_self] at hf
      cases hf
      exact h0
    · rw [Function.update_of_ne he] at hf
      exact h1 f c hf
  have hup' : ∀ (fs : ℕ → Option SweepObj) (s0 : ℕ) (o0 : SweepObj), (o0.loss = false → o0.dec = none) →
      (∀ s o, fs s = some o → o.loss = false → o.dec = none) →
      ∀ s o, Function.update fs s0 (some o0) s = some o → o.loss = false → o.dec = none := by
    intro fs s0 o0 h0 h1 s o hf
    by_cases he : s = s0
    · subst he
      rw [Function.update_self] at hf
      cases hf
      exact h0
    · rw [Function.update_of_ne he] at hf
      exact h1 s o hf
  cases op with
  | sweep s kind gid toFile plotF =>
    simp only [DeskOp.exec, sweepCall]
    cases ho : d.sweeps s with
    | none => exact h
    | some o =>
      have h0 : o.loss = false → (if o.loss then some d.next else o.dec) = none := by
        intro hl
        rw [hl]
        exact h.1 s o ho hl
      simp only [sweepEnd]
      split
      · exact ⟨hup' _ _ _ h0 h.1, h.2⟩
      · split
        · exact ⟨hup' _ _ _ h0 h.1, h.2⟩
        · split
          · refine ⟨hup' _ _ _ h0 h.1, hup (fun c : SweepFile => c.loss = false → c.dec = none) _ _ _ ?_ h.2⟩
            intro hl
            simp only [Desk.contents]
            rw [h0 hl]
            rfl
          · exact ⟨hup' _ _ _ h0 h.1, h.2⟩
  | save s f =>
    simp only [DeskOp.exec, saveCall]
    cases ho : d.sweeps s with
    | none => exact h
    | some o =>
      refine ⟨h.1, hup (fun c : SweepFile => c.loss = false → c.dec = none) _ _ _ ?_ h.2⟩
      intro hl
      simp only [Desk.contents]
      rw [h.1 s o ho hl]
      rfl
  | load s f =>
    simp only [DeskOp.exec, loadCall]
    cases hf : d.files f with
    | none => exact h
    | some c =>
      refine ⟨hup' _ _ _ ?_ h.1, h.2⟩
      intro hl
      simp only
      rw [h.2 f c hf hl]
      rfl
  | new s n l => exact ⟨hup' _ _ _ (fun _ => rfl) h.1, h.2⟩
  | _ => exact h

theorem run_norates (ops : List DeskOp) (d : Desk P) (h : NoRates d) : NoRates (deskRun rate d ops) := by
  induction ops generalizing d with
  | nil => exact h
  | cons op ops ih => exact ih _ (exec_norates rate op d h)

/-- the loop of a sweep of one parameter -/
theorem fill_one {kind : SweepKind} {point : ℝ → Act} (hk : OneParameter kind point) (w : World P) (numEig : ℕ) (loss : Bool)
    (g : List ℝ) (hw : PointsWork rate w point numEig loss g) :
    ∃ tab dec w', fillTables rate kind.set numEig loss [g] (gridIndices ([g].map List.length)) (fun _ _ => 0)
        (fun _ _ => .val 0) w = (.ok (), tab, dec, w') ∧
      PointTables rate w point numEig loss g tab (if loss then some dec else none) := by
  have hmem : ∀ j < g.length, g.getD j 0 ∈ g := by
    intro j hj
    rw [List.getD_eq_getElem _ _ hj]
    exact List.getElem_mem hj
  have hrun : ∀ v, run w [point v] = ((point v).exec w).2 := fun _ => rfl
  have hsp : ∀ j, ∃ sp : List ℝ, j < g.length → (∃ vs, (diag (some (numEig : ℤ)) ((point (g.getD j 0)).exec w).2).1 = .ok (sp, vs)) ∧
      sp.length = numEig := by
    intro j
    by_cases hj : j < g.length
    · obtain ⟨-, ⟨r, hr, hl⟩, -⟩ := hw _ (hmem j hj)
      exact ⟨r.1, fun _ => ⟨⟨r.2, hr⟩, hl⟩⟩
    · exact ⟨[], fun h => absurd h hj⟩
  choose sp hsp using hsp
  cases loss with
  | false =>
    have key : ∃ tab w', sweep kind.set numEig [g] w = (.ok tab, w') ∧
        ∀ j < g.length, ∀ e < numEig, tab e [j] = (sp j).getD e 0 := by
      cases hk with
      | flux l ls =>
        obtain ⟨tab, w', h1, h2, -⟩ := C69_flux_partial l ls numEig g w sp fun j hj => hsp j hj
        exact ⟨tab, w', h1, h2⟩
      | charge m ms =>
        obtain ⟨tab, w', h1, h2, -⟩ := C69_charge_partial m ms numEig g w sp (fun j hj => (hw _ (hmem j hj)).1)
          fun j hj => hsp j hj
        exact ⟨tab, w', h1, h2⟩
    obtain ⟨tab, w', h1, h2⟩ := key
    refine ⟨tab, _, w', (fill_freq rate _ numEig [g] _ _ _ w).1 tab w' h1, ?_, fun _ => rfl, fun h => (by cases h)⟩
    intro j hj
    obtain ⟨⟨vs, hv⟩, -⟩ := hsp j hj
    exact ⟨_, hv, h2 j hj⟩
  | true =>
    have hrt : ∀ j, ∃ rs : String → Rate, j < g.length → ∀ ty ∈ sweepTypes,
        rate ty (run w [point (g.getD j 0), .diag (some numEig)]) = .ok (rs ty) := by
      intro j
      by_cases hj : j < g.length
      · obtain ⟨-, -, hr⟩ := hw _ (hmem j hj)
        have : ∀ ty, ∃ x, ty ∈ sweepTypes → rate ty (run w [point (g.getD j 0), .diag (some numEig)]) = .ok x := by
          intro ty
          by_cases ht : ty ∈ sweepTypes
          · obtain ⟨x, hx⟩ := hr rfl ty ht
            exact ⟨x, fun _ => hx⟩
          · exact ⟨.val 0, fun h => absurd h ht⟩
        choose rs hrs using this
        exact ⟨rs, fun _ ty ht => hrs ty ht⟩
      · exact ⟨fun _ => .val 0, fun h => absurd h hj⟩
    choose rs hrs using hrt
    have key : ∃ tab dec w', sweepLoss rate kind.set numEig [g] w = (.ok (tab, dec), w') ∧
        (∀ j < g.length, ∀ e < numEig, tab e [j] = (sp j).getD e 0) ∧ ∀ j < g.length, ∀ ty ∈ sweepTypes, dec ty [j] = rs j ty := by
      cases hk with
      | flux l ls =>
        exact C112_flux rate l ls numEig g w sp rs fun j hj => ⟨(hsp j hj).1, (hsp j hj).2, hrs j hj⟩
      | charge m ms =>
        exact C112_charge rate m ms numEig g w sp rs (fun j hj => (hw _ (hmem j hj)).1)
          fun j hj => ⟨(hsp j hj).1, (hsp j hj).2, hrs j hj⟩
    obtain ⟨tab, dec, w', h1, h2, h3⟩ := key
    refine ⟨tab, dec, w', fill_loss rate _ numEig [g] _ _ _ w _ _ _ h1, ?_, fun h => (by cases h), fun _ => ⟨dec, rfl, ?_⟩⟩
    · intro j hj
      obtain ⟨⟨vs, hv⟩, -⟩ := hsp j hj
      exact ⟨_, hv, h2 j hj⟩
    · intro j hj ty ht
      rw [h3 j hj ty ht]
      exact hrs j hj ty ht

/-- a completed loop does to the circuit what its calls, written out, do -/
theorem fill_world {kind : SweepKind} {point : ℝ → Act} (hk : OneParameter kind point) (numEig : ℕ) (loss : Bool)
    (g : List ℝ) (is : List ℕ) (tab : FreqTab) (dec : RateTab) (w : World P)
    (h : (fillTables rate kind.set numEig loss [g] (is.map fun i => [i]) tab dec w).1 = .ok ()) :
    (fillTables rate kind.set numEig loss [g] (is.map fun i => [i]) tab dec w).2.2.2 =
      run w (is.flatMap fun i => [point (g.getD i 0), .diag (some numEig)]) := by
  have hset : ∀ v w', kind.set 0 v w' = (point v).exec (P := P) w' := by
    intro v w'
    cases hk <;> rfl
  induction is generalizing tab dec w with
  | nil => rfl
  | cons i is ih =>
    rw [List.map_cons] at h ⊢
    unfold fillTables at h ⊢
    rw [setParams_one, hset] at h ⊢
    have hrun : run w (List.flatMap (fun i => [point (g.getD i 0), .diag (some numEig)]) (i :: is)) =
        run (diag (some (numEig : ℤ)) ((point (g.getD i 0)).exec w).2).2
          (List.flatMap (fun i => [point (g.getD i 0), .diag (some numEig)]) is) := by
      simp only [List.flatMap_cons, run, List.foldl_append]
      rfl
    rw [hrun]
    obtain ⟨⟨r1, w1⟩, h1⟩ : ∃ x, x = (point (g.getD i 0)).exec w := ⟨_, rfl⟩
    rw [← h1] at h ⊢
    cases r1 with
    | error e => cases h
    | ok u1 =>
      simp only at h ⊢
      obtain ⟨⟨r2, w2⟩, h2⟩ : ∃ x, x = diag (some (numEig : ℤ)) w1 := ⟨_, rfl⟩
      rw [← h2] at h ⊢
      cases r2 with
      | error e => cases h
      | ok q =>
        obtain ⟨ev, vs⟩ := q
        simp only at h ⊢
        obtain ⟨r3, h3⟩ : ∃ x, x = assignEfreq numEig (List.map List.length [g]) tab [i] ev := ⟨_, rfl⟩
        rw [← h3] at h ⊢
        cases r3 with
        | error e => cases h
        | ok tab3 =>
          cases loss with
          | false => exact ih tab3 dec w2 h
          | true =>
            simp only [if_true] at h ⊢
            obtain ⟨r4, h4⟩ : ∃ x, x = fillDec rate [i] w2 sweepTypes dec := ⟨_, rfl⟩
            rw [← h4] at h ⊢
            cases r4 with
            | error e => cases h
            | ok dec4 => exact ih tab3 dec4 w2 h

/-! ### the property -/

/-- C140, files: in any program, sweep one parameter over a grid on which the circuit can be diagonalised (and its rates
computed, if asked for), naming a file. Nothing is returned, and from then on, whatever the program does (more sweeps with
the same object, calls on the circuit, changes of the grid, failing calls), as long as it does not write this file again,
loading it gives the grid, number of levels and parameters of that sweep, and the tables of what `diag` and `dec_rate` gave
at every grid point on the circuit as it was before the sweep. -/
theorem C140_file (w0 : World P) (grids : GridRef → List (List ℝ)) (ops : List DeskOp) :
    let d := deskRun rate (Desk.start w0 grids) ops
    ∀ (s : ℕ) (o : SweepObj) (kind : SweepKind) (point : ℝ → Act) (gid : GridRef) (g : List ℝ) (plotF : Bool) (f : String),
      d.sweeps s = some o → OneParameter kind point → d.grids gid = [g] → f ≠ "" →
      PointsWork rate d.w point o.numEig o.loss g →
      ∃ tab dec, PointTables rate d.w point o.numEig o.loss g tab dec ∧
        ((DeskOp.sweep s kind gid (some f) plotF).exec rate d).1 = .ok none ∧
        ∀ (later : List DeskOp) (s' : ℕ), (∀ op ∈ later, ¬ op.writes f) →
          let d' := deskRun rate ((DeskOp.sweep s kind gid (some f) plotF).exec rate d).2 later
          ∃ o', ((DeskOp.load s' f).exec rate d').1 = .ok none ∧ ((DeskOp.load s' f).exec rate d').2.sweeps s' = some o' ∧
            ((DeskOp.load s' f).exec rate d').2.contents o' =
              ⟨o.numEig, o.loss, some kind, some [g], some tab, dec⟩ := by
  intro d s o kind point gid g plotF f hs hk hg hf hw
  obtain ⟨tab, dec, w', hfill, htab⟩ := fill_one rate hk d.w o.numEig o.loss g hw
  have hno : NoRates d := run_norates rate ops _ ⟨fun _ _ h => (by cases h), fun _ _ h => (by cases h)⟩
  have hname : fileName (some f) = some f := by simp [fileName, hf]
  refine ⟨tab, _, htab, ?_, ?_⟩
  · simp only [DeskOp.exec, sweepCall, hs, hg, hfill, sweepEnd, hname]
    simp
  · intro later s' hl d'
    have hfile : d'.files f = some ⟨o.numEig, o.loss, some kind, some [g], some tab, if o.loss then some dec else none⟩ := by
      refine (run_files rate later _ f hl).trans ?_
      simp only [DeskOp.exec, sweepCall, hs, hg, hfill, sweepEnd, hname]
      simp only [List.length_singleton, Nat.not_ofNat_le_one, and_false, if_false, Function.update_self, Desk.contents,
        Option.map_some, hg]
      cases hlo : o.loss
      · simp [hno.1 s o hs hlo]
      · simp
    exact load_contents rate d' s' f _ hfile

/-- C140, returned tables: the same sweep without a file returns arrays with these tables, and they keep them whatever the
program does later (in particular sweep again with the same object), unless the caller writes into these arrays. -/
theorem C140_returned (w0 : World P) (grids : GridRef → List (List ℝ)) (ops : List DeskOp) :
    let d := deskRun rate (Desk.start w0 grids) ops
    ∀ (s : ℕ) (o : SweepObj) (kind : SweepKind) (point : ℝ → Act) (gid : GridRef) (g : List ℝ) (plotF : Bool),
      d.sweeps s = some o → OneParameter kind point → d.grids gid = [g] →
      PointsWork rate d.w point o.numEig o.loss g →
      ∃ tab dec k kd, PointTables rate d.w point o.numEig o.loss g tab dec ∧
        ((DeskOp.sweep s kind gid none plotF).exec rate d).1 = .ok (some (k, kd)) ∧
        ∀ later : List DeskOp, (∀ op ∈ later, ¬ op.edits k) →
          let d' := deskRun rate ((DeskOp.sweep s kind gid none plotF).exec rate d).2 later
          d'.tabs k = tab ∧ kd.map d'.decs = dec := by
  intro d s o kind point gid g plotF hs hk hg hw
  obtain ⟨tab, dec, w', hfill, htab⟩ := fill_one rate hk d.w o.numEig o.loss g hw
  have hno : NoRates d := run_norates rate ops _ ⟨fun _ _ h => (by cases h), fun _ _ h => (by cases h)⟩
  have hname : fileName none = none := rfl
  refine ⟨tab, _, d.next, if o.loss then some d.next else none, htab, ?_, ?_⟩
  · simp only [DeskOp.exec, sweepCall, hs, hg, hfill, sweepEnd, hname]
    cases hlo : o.loss
    · simp [hno.1 s o hs hlo]
    · simp
  · intro later hl d'
    have h1 : d.next < ((DeskOp.sweep s kind gid none plotF).exec rate d).2.next := by
      simp only [DeskOp.exec, sweepCall, hs, hg, hfill, sweepEnd, hname]
      simp
    obtain ⟨h2, h3⟩ := run_arrays rate later _ d.next h1 hl
    have h4 : ((DeskOp.sweep s kind gid none plotF).exec rate d).2.tabs d.next = tab := by
      simp only [DeskOp.exec, sweepCall, hs, hg, hfill, sweepEnd, hname]
      simp
    have h5 : o.loss = true → ((DeskOp.sweep s kind gid none plotF).exec rate d).2.decs d.next = dec := by
      intro hlo
      simp only [DeskOp.exec, sweepCall, hs, hg, hfill, sweepEnd, hname]
      simp [hlo]
    refine ⟨h2.trans h4, ?_⟩
    cases hlo : o.loss
    · simp
    · simp [d', h3, h5 hlo]

/-- C140, failures: a sweep that raises an exception, at any grid point or while plotting, leaves all files, and all
arrays made before, as they were. -/
theorem C140_failed (d : Desk P) (s : ℕ) (kind : SweepKind) (gid : GridRef) (toFile : Option String) (plotF : Bool)
    (e : PyErr) (h : ((DeskOp.sweep s kind gid toFile plotF).exec rate d).1 = .error e) :
    let d' := ((DeskOp.sweep s kind gid toFile plotF).exec rate d).2
    d'.files = d.files ∧ ∀ k < d.next, d'.tabs k = d.tabs k ∧ d'.decs k = d.decs k := by
  refine ⟨?_, fun k hk => exec_arrays rate _ d k hk (fun h => h)⟩
  simp only [DeskOp.exec, sweepCall] at h ⊢
  cases hs : d.sweeps s with
  | none => rfl
  | some o =>
    simp only [hs] at h ⊢
    rw [end_failed _ _ _ _ _ _ _ h]

/-- C140: naming a file or plotting does not change what the sweep does to the circuit. -/
theorem C140_circuit (d : Desk P) (s : ℕ) (kind : SweepKind) (gid : GridRef) (toFile toFile' : Option String)
    (plotF plotF' : Bool) :
    ((DeskOp.sweep s kind gid toFile plotF).exec rate d).2.w = ((DeskOp.sweep s kind gid toFile' plotF').exec rate d).2.w := by
  simp only [DeskOp.exec, sweepCall]
  cases d.sweeps s with
  | none => rfl
  | some o =>
    obtain ⟨fs, h, -⟩ := end_frame (P := P) toFile plotF (d.grids gid).length _ _ _ _
    obtain ⟨fs', h', -⟩ := end_frame (P := P) toFile' plotF' (d.grids gid).length _ _ _ _
    simp only
    rw [h, h']

/-- C140, the circuit: a sweep of one parameter that does not fail leaves the circuit, the elements and the loops as the same
calls written out one after the other: set the parameter to each grid point and diagonalise. In particular the parameter
stays at the last grid point. -/
theorem C140_left (d : Desk P) (s : ℕ) (o : SweepObj) (kind : SweepKind) (point : ℝ → Act) (gid : GridRef) (g : List ℝ)
    (toFile : Option String) (plotF : Bool) (hs : d.sweeps s = some o) (hk : OneParameter kind point)
    (hg : d.grids gid = [g]) {x : Option (ℕ × Option ℕ)}
    (h : ((DeskOp.sweep s kind gid toFile plotF).exec rate d).1 = .ok x) :
    ((DeskOp.sweep s kind gid toFile plotF).exec rate d).2.w =
      run d.w (g.flatMap fun v => [point v, .diag (some o.numEig)]) := by
  have hflat : (g.flatMap fun v => [point v, .diag (some (o.numEig : ℤ))]) =
      (List.range g.length).flatMap fun i => [point (g.getD i 0), .diag (some (o.numEig : ℤ))] := by
    have hmap : g = (List.range g.length).map fun i => g.getD i 0 := by
      refine List.ext_getElem (by simp) fun i h1 h2 => ?_
      simp [h1]
    conv_lhs => rw [hmap]
    rw [List.flatMap_map]
  rw [hflat]
  simp only [DeskOp.exec, sweepCall, hs, hg] at h ⊢
  obtain ⟨fs, hfr, -⟩ := end_frame (P := P) toFile plotF [g].length _ _ _ _
  rw [hfr]
  have hidx : gridIndices (List.map List.length [g]) = (List.range g.length).map fun i => [i] := gridIndices_one g.length
  refine (congrArg (fun l => (fillTables rate kind.set o.numEig o.loss [g] l (fun _ _ => 0) (fun _ _ => .val 0) d.w).2.2.2)
    hidx).trans ?_
  refine fill_world rate hk o.numEig o.loss g _ _ _ _ ?_
  rw [← hidx]
  unfold sweepEnd at h
  generalize fillTables rate kind.set o.numEig o.loss [g] (gridIndices (List.map List.length [g])) (fun _ _ => 0)
    (fun _ _ => .val 0) d.w = r at h ⊢
  obtain ⟨r1, r2⟩ := r
  cases r1 with
  | error e => cases h
  | ok u => rfl

/-- The object itself keeps the caller's list of grid points, not a copy: if the caller changes the list after the sweep and
then calls `save`, the file has the changed grid next to the tables of the old one. -/
theorem C140_grid_shared (d : Desk P) (s : ℕ) (o : SweepObj) (gid : GridRef) (k : ℕ) (hs : d.sweeps s = some o)
    (hg : o.grid = some gid) (he : o.efreq = some k) (g : List (List ℝ)) (f : String) :
    ∃ c, (deskRun rate d [.editGrid gid g, .save s f]).files f = some c ∧ c.grid = some g ∧ c.efreq = some (d.tabs k) := by
  refine ⟨({ d with grids := Function.update d.grids gid g } : Desk P).contents o, ?_, ?_⟩
  · simp only [deskRun, List.foldl, DeskOp.exec, saveCall, hs, Function.update_self]
  · simp [Desk.contents, hg, he]

end SQ
