import Verif.Spec.SolverChoice
import Verif.Props.SweepLoss
import Verif.Props.LevelsSession
import Verif.Props.DephasingSession

/-!
# C141: what is computed from simple levels does not depend on the eigenvalue routine, the number of levels asked for or
earlier computations
-/

namespace SQ
open Spec Matrix

/-! ### helper lemmas: phases -/

theorem innerOp_phase {ι : Type*} [Fintype ι] (y z : ℂ) (u v : ι → ℂ) (A : Matrix ι ι ℂ) :
    innerOp (y • u) A (z • v) = star y * z * innerOp u A v := by
  unfold innerOp
  rw [star_smul, Matrix.mulVec_smul, smul_dotProduct, dotProduct_smul, smul_eq_mul, smul_eq_mul]
  ring

theorem innerOp_phase_self {ι : Type*} [Fintype ι] {y : ℂ} (hy : ‖y‖ = 1) (u : ι → ℂ) (A : Matrix ι ι ℂ) :
    innerOp (y • u) A (y • u) = innerOp u A u := by
  rw [innerOp_phase]
  have : star y * y = 1 := by
    rw [Complex.star_def, Complex.conj_mul', hy]
    norm_num
  rw [this, one_mul]

theorem innerOp_phase_norm {ι : Type*} [Fintype ι] {y z : ℂ} (hy : ‖y‖ = 1) (hz : ‖z‖ = 1) (u v : ι → ℂ) (A : Matrix ι ι ℂ) :
    ‖innerOp (y • u) A (z • v)‖ = ‖innerOp u A v‖ := by
  rw [innerOp_phase, norm_mul, norm_mul, norm_star, hy, hz, one_mul, one_mul]

/-- rates between two states do not depend on their phases or on which other states are stored -/
theorem rate_phase (N : NoiseCirc) (ef' : List ℝ) (ev' : List (Idx N.m → ℂ)) {p q : ℕ} {w1 w2 : ℝ} {s1 s2 : Idx N.m → ℂ}
    {y z : ℂ} (hy : ‖y‖ = 1) (hz : ‖z‖ = 1) (a1 : N.efreqs[p]? = some w1) (a2 : N.efreqs[q]? = some w2)
    (b1 : ef'[p]? = some w1) (b2 : ef'[q]? = some w2) (c1 : N.evecs[p]? = some s1) (c2 : N.evecs[q]? = some s2)
    (d1 : ev'[p]? = some (y • s1)) (d2 : ev'[q]? = some (z • s2)) (ty : String) (total : Bool) :
    ({ N with efreqs := ef', evecs := ev' } : NoiseCirc).decRate ty (p, q) total = N.decRate ty (p, q) total := by
  have hne : ∀ {α : Type} {l : List α} {i : ℕ} {x : α}, l[i]? = some x → l.length ≠ 0 := by
    intro α l i x h h0
    rw [List.length_eq_zero_iff.1 h0] at h
    cases h
  have hmel : ∀ ct nodes, ∀ r, N.matrixElements ct nodes (p, q) = r →
      ({ N with efreqs := ef', evecs := ev' } : NoiseCirc).matrixElements ct nodes (p, q) = r.map (star y * z * ·) := by
    rintro ct nodes r rfl
    unfold NoiseCirc.matrixElements
    simp only [if_neg (hne c1), if_neg (hne d1), pyGet_of_getElem? c1, pyGet_of_getElem? c2, pyGet_of_getElem? d1,
      pyGet_of_getElem? d2, NoiseCirc.coupling]
    cases couplingOp ct N.C N.M N.mem.Q N.mem.phi nodes with
    | error e => rfl
    | ok op => exact congrArg Except.ok (innerOp_phase _ _ _ _ _)
  have hcap : ∀ omega tS l acc, ({ N with efreqs := ef', evecs := ev' } : NoiseCirc).capRate omega tS (p, q) l acc =
      N.capRate omega tS (p, q) l acc := by
    intro omega tS l
    induction l with
    | nil => intro acc; rfl
    | cons x l ih =>
      intro acc
      obtain ⟨edge, cap⟩ := x
      unfold NoiseCirc.capRate
      show (match N.noise.capQ cap with | none => _ | some Q => _) = _
      cases N.noise.capQ cap with
      | none => exact ih acc
      | some Q =>
        simp only
        obtain ⟨r, hr⟩ : ∃ r, N.matrixElements "capacitive" edge (p, q) = r := ⟨_, rfl⟩
        rw [hmel _ _ r hr, hr]
        cases r with
        | error e => rfl
        | ok x =>
          simp only [Except.map]
          rw [ih]
          congr 2
          funext t
          rw [norm_mul, norm_mul, norm_star, hy, hz, one_mul, one_mul]
  have hpo : ∀ G : Op N.m, partialOmegaMN ev' G (p, q) = partialOmegaMN N.evecs G (p, q) := by
    intro G
    unfold partialOmegaMN
    simp only [pyGet_of_getElem? c1, pyGet_of_getElem? c2, pyGet_of_getElem? d1, pyGet_of_getElem? d2]
    rw [innerOp_phase_self hy, innerOp_phase_self hz]
  have hcc : ∀ l acc, ({ N with efreqs := ef', evecs := ev' } : NoiseCirc).ccRate (p, q) l acc = N.ccRate (p, q) l acc := by
    intro l
    induction l with
    | nil => intro acc; rfl
    | cons x l ih =>
      intro acc
      unfold NoiseCirc.ccRate
      simp only [hpo]
      split
      · rfl
      · exact ih _
  have hfl : ∀ l acc, ({ N with efreqs := ef', evecs := ev' } : NoiseCirc).fluxRate (p, q) l acc = N.fluxRate (p, q) l acc := by
    intro l
    induction l with
    | nil => intro acc; rfl
    | cons x l ih =>
      intro acc
      unfold NoiseCirc.fluxRate
      simp only [hpo]
      split
      · rfl
      · exact ih _
  have hind : ∀ omega tS, ({ N with efreqs := ef', evecs := ev' } : NoiseCirc).indRate omega tS (y • s1) (z • s2) =
      N.indRate omega tS s1 s2 := by
    intro omega tS
    unfold NoiseCirc.indRate
    simp only [innerOp_phase_norm hy hz]
  have hqp : ∀ omega tS, ({ N with efreqs := ef', evecs := ev' } : NoiseCirc).qpRate omega tS (y • s1) (z • s2) =
      N.qpRate omega tS s1 s2 := by
    intro omega tS
    unfold NoiseCirc.qpRate
    simp only [innerOp_phase_norm hy hz]
  have hch : ({ N with efreqs := ef', evecs := ev' } : NoiseCirc).chargeRate (y • s1) (z • s2) = N.chargeRate s1 s2 := by
    unfold NoiseCirc.chargeRate
    simp only [innerOp_phase_self hy, innerOp_phase_self hz]
  unfold NoiseCirc.decRate
  simp only [if_neg (hne a1), if_neg (hne b1), pyGet_of_getElem? c1, pyGet_of_getElem? c2, pyGet_of_getElem? d1,
    pyGet_of_getElem? d2, pyGet_of_getElem? a1, pyGet_of_getElem? a2, pyGet_of_getElem? b1, pyGet_of_getElem? b2,
    hcap, hcc, hfl, hind, hqp, hch]

/-! ### helper lemmas: programs that differ in computations only -/

/-- the same numerical content with another eigenvalue routine -/
abbrev withSolver (P : Phys) (e : P.Op → ℤ → Except PyErr (List (ℂ × P.Vec))) (a : List ℂ → List ℕ) : Phys :=
  { P with eigs := e, argsort := a }

section
variable {P : Phys} {e : P.Op → ℤ → Except PyErr (List (ℂ × P.Vec))} {a : List ℂ → List ℕ}

theorem ng_fun {P : Phys} (c : Circ P) : c.ng = fun i => (c.islands i).map ChargeObj.chValue := rfl

/-- two circuits that differ in what was computed only -/
def Twin (w : World P) (w' : World (withSolver P e a)) : Prop :=
  ∃ (t : Option P.Trig) (f : List ℝ) (v : List P.Vec),
    w' = ⟨⟨w.circ.bd, w.circ.islands, w.circ.m, w.circ.ms, w.circ.mem, w.circ.exp, w.circ.lc, t, f, v⟩,
      w.vals, w.flux, w.unitFreq⟩

theorem twin_trunc (nums : List ℤ) {w : World P} {w' : World (withSolver P e a)} (h : Twin w w') :
    Twin (setTruncNums (.list nums) w).2 (setTruncNums (.list nums) w').2 ∧
      (setTruncNums (.list nums) w).1 = (setTruncNums (.list nums) w').1 := by
  obtain ⟨⟨bd, isl, m, ms, mem, exp, lc, trig, ef, evs⟩, vals, flux, unit⟩ := w
  obtain ⟨t, f, v, rfl⟩ := h
  unfold setTruncNums
  dsimp only [Circ.buildOps, ng_fun, withSolver, dimsOf]
  split_ifs
  · exact ⟨⟨_, _, _, rfl⟩, rfl⟩
  · cases P.memOps bd ((List.range (P.nModes bd)).map fun i => if P.isCharge bd i then 2 * nums.getD i 0 - 1 else nums.getD i 0)
        (fun i => (isl i).map ChargeObj.chValue) with
    | error e => exact ⟨⟨_, _, _, rfl⟩, rfl⟩
    | ok x => exact ⟨⟨_, _, _, rfl⟩, rfl⟩

theorem twin_set (x : Act) (hx : sets x = true) {w : World P} {w' : World (withSolver P e a)} (h : Twin w w') :
    Twin (x.exec w).2 (x.exec w').2 := by
  have htr := fun nums => twin_trunc nums h
  obtain ⟨⟨bd, isl, m, ms, mem, exp, lc, trig, ef, evs⟩, vals, flux, unit⟩ := w
  obtain ⟨t, f, v, rfl⟩ := h
  cases x with
  | setTruncNums a =>
    cases a with
    | other => exact ⟨_, _, _, rfl⟩
    | list nums => exact (htr nums).1
  | setChargeOffset mode ng =>
    dsimp only [Act.exec, setChargeOffset, islandOf, Circ.setIsland, ng_fun, withSolver]
    cases mode with
    | none => exact ⟨_, _, _, rfl⟩
    | some k =>
      dsimp only
      by_cases hk : k - 1 < 0
      · simp only [if_pos hk]
        exact ⟨_, _, _, rfl⟩
      simp only [if_neg hk]
      cases isl (k - 1).toNat with
      | none => exact ⟨_, _, _, rfl⟩
      | some o =>
        dsimp only [Option.map_some]
        by_cases hm : m.length = 0
        · simp only [if_pos hm]
          exact ⟨_, _, _, rfl⟩
        simp only [if_neg hm]
        cases P.memOps bd m (fun i =>
            (Function.update isl (k - 1).toNat (some (o.setOffset ng)) i).map ChargeObj.chValue) with
        | error e => exact ⟨_, _, _, rfl⟩
        | ok x => exact ⟨_, _, _, rfl⟩
  | setChargeNoise mode amp =>
    dsimp only [Act.exec, setChargeNoise, islandOf]
    cases mode with
    | none => exact ⟨_, _, _, rfl⟩
    | some k =>
      dsimp only
      split_ifs
      · exact ⟨_, _, _, rfl⟩
      cases isl (k - 1).toNat <;> exact ⟨_, _, _, rfl⟩
  | truncateCircuit K =>
    dsimp only [Act.exec, truncateCircuit, withSolver]
    cases K with
    | none => exact ⟨_, _, _, rfl⟩
    | some K =>
      dsimp only
      split_ifs
      · exact ⟨_, _, _, rfl⟩
      · exact ⟨_, _, _, rfl⟩
      · obtain ⟨h1, h2⟩ := htr (truncChoice P bd K)
        have h3 : truncChoice (withSolver P e a) bd K = truncChoice P bd K := rfl
        rw [h3]
        obtain ⟨⟨r, w1⟩, hx⟩ : ∃ x, x = setTruncNums (P := P) (.list (truncChoice P bd K))
          ⟨⟨bd, isl, m, ms, mem, exp, lc, trig, ef, evs⟩, vals, flux, unit⟩ := ⟨_, rfl⟩
        obtain ⟨⟨r', w1'⟩, hx'⟩ : ∃ x, x = setTruncNums (P := withSolver P e a) (.list (truncChoice P bd K))
          ⟨⟨bd, isl, m, ms, mem, exp, lc, t, f, v⟩, vals, flux, unit⟩ := ⟨_, rfl⟩
        rw [← hx, ← hx'] at h1 h2
        rw [← hx, ← hx']
        dsimp only at h1 h2
        subst h2
        cases r <;> exact h1
  | setFlux l v => exact ⟨_, _, _, rfl⟩
  | setValue i v => exact ⟨_, _, _, rfl⟩
  | setUnitFreq u => exact ⟨_, _, _, rfl⟩
  | hamiltonian => cases hx
  | diag k => cases hx
  | update =>
    dsimp only [Act.exec, update, withSolver]
    cases P.rebuild (P.nModes bd) vals with
    | error e => exact ⟨_, _, _, rfl⟩
    | ok b =>
      dsimp only [Circ.buildOps, ng_fun]
      cases P.memOps b m (fun i => (isl i).map ChargeObj.chValue) with
      | error e => exact ⟨_, _, _, rfl⟩
      | ok x => exact ⟨_, _, _, rfl⟩

/-- computations change nothing but what was computed -/
theorem computed_only (x : Act) (hx : sets x = false) (w : World P) :
    ∃ t f v, (x.exec w).2 = { w with circ := { w.circ with trig := t, efreqs := f, evecs := v } } := by
  have hham : ∀ w : World P, ∃ t, (hamiltonian w).2 = { w with circ := { w.circ with trig := t } } := by
    intro w
    unfold hamiltonian
    split_ifs
    · exact ⟨_, rfl⟩
    · split
      · split
        · exact ⟨_, rfl⟩
        · exact ⟨_, rfl⟩
      · exact ⟨_, rfl⟩
  cases x with
  | hamiltonian =>
    obtain ⟨t, h⟩ := hham w
    exact ⟨_, _, _, h⟩
  | diag k =>
    show ∃ t f v, (diag k w).2 = _
    unfold diag
    split_ifs
    · exact ⟨_, _, _, rfl⟩
    cases k with
    | none => exact ⟨_, _, _, rfl⟩
    | some k =>
      obtain ⟨t, h⟩ := hham w
      dsimp only [diagNp]
      obtain ⟨⟨r, w1⟩, hx⟩ : ∃ x, x = hamiltonian w := ⟨_, rfl⟩
      rw [← hx] at h ⊢
      dsimp only at h
      subst h
      cases r with
      | error e => exact ⟨_, _, _, rfl⟩
      | ok H =>
        dsimp only
        cases P.eigs H k with
        | error e => exact ⟨_, _, _, rfl⟩
        | ok raw => exact ⟨_, _, _, rfl⟩
  | _ => cases hx

theorem twin_left {x : Act} (hx : sets x = false) {w : World P} {w' : World (withSolver P e a)} (h : Twin w w') :
    Twin (x.exec w).2 w' := by
  obtain ⟨t, f, v, rfl⟩ := h
  obtain ⟨t1, f1, v1, h1⟩ := computed_only x hx w
  rw [h1]
  exact ⟨t, f, v, rfl⟩

theorem twin_right {x : Act} (hx : sets x = false) {w : World P} {w' : World (withSolver P e a)} (h : Twin w w') :
    Twin w (x.exec w').2 := by
  obtain ⟨t, f, v, rfl⟩ := h
  obtain ⟨t1, f1, v1, h1⟩ := computed_only (P := withSolver P e a) x hx
    ⟨⟨w.circ.bd, w.circ.islands, w.circ.m, w.circ.ms, w.circ.mem, w.circ.exp, w.circ.lc, t, f, v⟩, w.vals, w.flux, w.unitFreq⟩
  exact ⟨t1, f1, v1, h1⟩

theorem twin_run : ∀ (h h' : List Act) (_ : h.filter sets = h'.filter sets) {w : World P} {w' : World (withSolver P e a)}
    (_ : Twin w w'), Twin (run w h) (run w' h') := by
  intro h
  induction h with
  | nil =>
    intro h'
    induction h' with
    | nil => intro _ w w' ht; exact ht
    | cons x h' ih =>
      intro hf w w' ht
      cases hx : sets x with
      | true => rw [List.filter_cons_of_pos hx] at hf; cases hf
      | false =>
        rw [List.filter_cons_of_neg (by simp [hx])] at hf
        exact ih hf (twin_right hx ht)
  | cons x h ih =>
    intro h'
    cases hx : sets x with
    | false =>
      intro hf w w' ht
      rw [List.filter_cons_of_neg (by simp [hx])] at hf
      exact ih h' hf (twin_left hx ht)
    | true =>
      induction h' with
      | nil =>
        intro hf
        rw [List.filter_cons_of_pos hx] at hf
        cases hf
      | cons x' h' ih' =>
        intro hf w w' ht
        cases hx' : sets x' with
        | true =>
          rw [List.filter_cons_of_pos hx, List.filter_cons_of_pos hx'] at hf
          obtain ⟨hxx, hf2⟩ := List.cons.inj hf
          subst hxx
          exact ih h' hf2 (twin_set x hx ht)
        | false =>
          rw [List.filter_cons_of_neg (a := x') (by simp [hx'])] at hf
          exact ih' hf (twin_right hx' ht)

theorem twin_ham {w : World P} {w' : World (withSolver P e a)} (h : Twin w w') :
    (hamiltonian w').1 = (hamiltonian w).1 := by
  obtain ⟨⟨bd, isl, m, ms, mem, exp, lc, trig, ef, evs⟩, vals, flux, unit⟩ := w
  obtain ⟨t, f, v, rfl⟩ := h
  dsimp only [hamiltonian, withSolver]
  split_ifs
  · rfl
  rcases mem with _ | mem
  · rfl
  rcases exp with _ | exp
  · rfl
  rcases lc with _ | lc
  · rfl
  dsimp only
  cases P.ham bd mem exp lc vals flux <;> rfl

end

variable {c : CircSpec} {eigs eigs' : EigsFn} {as as' : List ℂ → List ℕ}

theorem getElem?_map_some {α β : Type*} (F : α → β) {l : List α} {p : ℕ} {x : α} (h : l[p]? = some x) :
    (l.map F)[p]? = some (F x) := by
  rw [List.getElem?_map, h]
  rfl

/-- what `diag` and `dec_rate` compute in a state, in terms of its Hamiltonian -/
def SolverFacts (w : World (circPhys c eigs as)) (bd : Build) (m : List ℤ) (isl : ℕ → Option ChargeObj) (vals : ElemId → ℝ)
    (flux : LoopId → ℝ) (unit : ℝ) : Prop :=
  ∃ H : Op (bd.dims m), (hamiltonian w).1 = .ok ⟨_, _, H⟩ ∧ H.IsHermitian ∧
    ∀ num : ℕ, 1 ≤ num → num + 1 < Fintype.card (Idx (bd.dims m)) →
      ∃ (vs : List (Idx (bd.dims m) → ℂ)) (ws : List ℝ) (ev : List (Idx (bd.dims m) → ℂ)),
        Levels H vs ws ∧ reported num w = (ws.take num).map (fun f => f / (2 * Real.pi * unit)) ∧
        (diag (some num) w).2.circ.evecs = ev.map (fun v => ⟨_, _, v⟩) ∧ ev.length = num ∧
        (∀ i v, ev[i]? = some v → overlap v v = 1 ∧ H *ᵥ v = ((ws.getD i 0 : ℝ) : ℂ) • v) ∧
        ∀ (noise : ObjNoise) (env : NoiseEnv) (ty : String) (st : ℤ × ℤ) (total : Bool),
          sessionRate noise env ty st total (diag (some num) w).2 =
            some ((Build.noise c bd (bd.dims m) (fun i => ((isl i).map ChargeObj.chValue).getD 0) vals
              (fun l => flux (bd.loops.get l)) (fun _ => 0) (noise.spec bd.loops isl) env
              (ws.take num) ev).decRate ty st total)

theorem solver_facts (he : EigsLowest eigs) (ha : CArgsortSpec as) (hs : NoSelfLoops c.els)
    {vals : ElemId → ℝ} {flux : LoopId → ℝ} {u : ℝ}
    {w0 : World (circPhys c eigs as)} (hw : construct (circPhys c eigs as) vals flux u = .ok w0)
    {h : List Act} (hh : Orderly w0 h) (hm : (run w0 h).circ.m ≠ []) :
    SolverFacts (run w0 h) (run w0 h).circ.bd (run w0 h).circ.m (run w0 h).circ.islands (run w0 h).vals (run w0 h).flux
      (run w0 h).unitFreq := by
  obtain ⟨hbok, -, -, hham⟩ := ham_now hs hw hh hm
  obtain ⟨H, hH, hherm⟩ := C40_hermitian (run w0 h).circ.bd.C (run w0 h).circ.bd.M hbok.1
    ((run w0 h).circ.bd.dims (run w0 h).circ.m) (fun i => ((run w0 h).circ.ng i).getD 0) (run w0 h).vals
    ((run w0 h).circ.bd.fluxes (run w0 h).flux) (run w0 h).circ.bd.inds (run w0 h).circ.bd.juns hbok.2
  have hham' := hham (run w0 h) rfl
  rw [hH] at hham'
  refine ⟨H, hham', hherm, fun num h1 hdim => ?_⟩
  obtain ⟨vs, ws, ev, w', hlev, hd, hef, hevs, hlen, heig⟩ := diag_lowest he ha hm hham' hherm num h1 hdim
  have hd2 : (diag (some (num : ℤ)) (run w0 h)).2 = w' := congrArg Prod.snd hd
  have hefl : w'.circ.efreqs.length = num := by
    rw [hef, List.length_take, hlev.len, hlev.card]; omega
  refine ⟨vs, ws, ev, hlev, reported_ok (congrArg Prod.fst hd), by rw [hd2]; exact hevs, hlen, heig, ?_⟩
  intro noise env ty st total
  have hses := C112_session hs vals flux u w0 hw h hh noise env ty st total num ⟨_, congrArg Prod.fst hd⟩
    (by
      rw [hd2]
      intro h0
      rw [h0] at hefl
      simp at hefl
      omega) ev (by rw [hd2, hevs])
  rw [hd2] at hses ⊢
  rw [hef] at hses
  exact hses

/-- C141: run the same program on one circuit twice, with two eigenvalue routines that find the lowest eigenvalues of Hermitian
operators (in any order, with any phases and any choice inside degenerate levels), with calls of `hamiltonian` and `diag` added
or left out at will, and ask for `num` and `num'` levels at the end. Both report the same frequencies for the levels they
share, the stored states of a simple level agree up to a phase, and `dec_rate` gives the same rate, of every type, between any
two simple levels. -/
theorem C141_solver (he : EigsLowest eigs) (ha : CArgsortSpec as) (he' : EigsLowest eigs') (ha' : CArgsortSpec as')
    (hs : NoSelfLoops c.els) (vals : ElemId → ℝ) (flux : LoopId → ℝ) (u : ℝ)
    (w0 : World (circPhys c eigs as)) (hw : construct (circPhys c eigs as) vals flux u = .ok w0)
    (w0' : World (circPhys c eigs' as')) (hw' : construct (circPhys c eigs' as') vals flux u = .ok w0')
    (h h' : List Act) (hsame : h.filter sets = h'.filter sets) (hh : Orderly w0 h) (hh' : Orderly w0' h')
    (hm : (run w0 h).circ.m ≠ []) (num num' : ℕ) (h1 : 1 ≤ num) (h1' : 1 ≤ num')
    (hnum : num + 1 < Fintype.card (Idx ((run w0 h).circ.bd.dims (run w0 h).circ.m)))
    (hnum' : num' + 1 < Fintype.card (Idx ((run w0 h).circ.bd.dims (run w0 h).circ.m))) :
    let r := diag (some num) (run w0 h)
    let r' := diag (some num') (run w0' h')
    (∀ i, i < num → i < num' → (reported num (run w0 h))[i]? = (reported num' (run w0' h'))[i]?) ∧
    (∀ p, p + 1 < num → p < num' → SimpleLevel (reported num (run w0 h)) p →
      ∃ (k : ℕ) (d : Fin k → ℕ) (psi : Idx d → ℂ) (y : ℂ), ‖y‖ = 1 ∧
        r.2.circ.evecs[p]? = some ⟨k, d, psi⟩ ∧ r'.2.circ.evecs[p]? = some ⟨k, d, y • psi⟩) ∧
    ∀ p q, p + 1 < num → q + 1 < num → p < num' → q < num' →
      SimpleLevel (reported num (run w0 h)) p → SimpleLevel (reported num (run w0 h)) q →
      ∀ (noise : ObjNoise) (env : NoiseEnv) (ty : String) (total : Bool),
        sessionRate noise env ty (p, q) total r.2 = sessionRate noise env ty (p, q) total r'.2 := by
  have htw0 : Twin (P := circPhys c eigs as) (e := eigs') (a := as') w0 w0' := by
    unfold construct at hw hw'
    have hb : (circPhys c eigs' as').build vals = (circPhys c eigs as).build vals := rfl
    obtain ⟨b, hbb⟩ : ∃ x, x = buildCirc c vals := ⟨_, rfl⟩
    rw [show (circPhys c eigs as).build vals = b from hbb.symm] at hw
    rw [show (circPhys c eigs' as').build vals = b from hbb.symm] at hw'
    cases b with
    | error e => cases hw
    | ok b =>
      obtain rfl := Except.ok.inj hw
      obtain rfl := Except.ok.inj hw'
      exact ⟨_, _, _, rfl⟩
  have htw := twin_run h h' hsame htw0
  have F := solver_facts he ha hs hw hh hm
  have hham := twin_ham htw
  obtain ⟨t, f, v, hrun⟩ := htw
  have hrun' : run w0' h' = (⟨⟨(run w0 h).circ.bd, (run w0 h).circ.islands, (run w0 h).circ.m, (run w0 h).circ.ms,
      (run w0 h).circ.mem, (run w0 h).circ.exp, (run w0 h).circ.lc, t, f, v⟩, (run w0 h).vals, (run w0 h).flux,
      (run w0 h).unitFreq⟩ : World (circPhys c eigs' as')) := hrun
  have F' := solver_facts he' ha' hs hw' hh' (by rw [hrun']; exact hm)
  have q1 : ((run w0' h').circ.bd : Build) = (run w0 h).circ.bd := by rw [hrun']
  have q2 : (run w0' h').circ.m = (run w0 h).circ.m := by rw [hrun']
  have q3 : (run w0' h').circ.islands = (run w0 h).circ.islands := by rw [hrun']
  have q4 : (run w0' h').vals = (run w0 h).vals := by rw [hrun']
  have q5 : (run w0' h').flux = (run w0 h).flux := by rw [hrun']
  have q6 : (run w0' h').unitFreq = (run w0 h).unitFreq := by rw [hrun']
  rw [q1, q2, q3, q4, q5, q6] at F'
  clear q1 q2 q3 q4 q5 q6 hrun' hrun
  obtain ⟨H, hH, hherm, F⟩ := F
  obtain ⟨H', hH', -, F'⟩ := F'
  have hHH : H' = H := by
    have e1 : (hamiltonian (run w0' h')).1 = .ok (⟨_, _, H⟩ : Σ (k : ℕ) (d : Fin k → ℕ), Op d) := hham.trans hH
    rw [e1] at hH'
    have e2 := Except.ok.inj hH'
    exact (eq_of_heq (Sigma.mk.inj (eq_of_heq (Sigma.mk.inj e2).2)).2).symm
  subst hHH
  obtain ⟨vs, ws, ev, hlev, hrep, hevs, hlen, heig, hrate⟩ := F num h1 hnum
  obtain ⟨vs', ws', ev', hlev', hrep', hevs', hlen', heig', hrate'⟩ := F' num' h1' hnum'
  obtain rfl : ws' = ws := levels_unique hlev' hlev
  have hwl : ws'.length = Fintype.card (Idx (Build.dims (run w0 h).circ.bd (run w0 h).circ.m)) := hlev.len.trans hlev.card
  have hwn : num + 1 < ws'.length := by rw [hwl]; exact hnum
  have hph : ∀ p, p + 1 < num → p < num' → SimpleLevel (reported num (run w0 h)) p →
      ∃ (psi : _) (y : ℂ), ‖y‖ = 1 ∧ ev[p]? = some psi ∧ ev'[p]? = some (y • psi) := by
    intro p hp hp' hsp
    rw [hrep] at hsp
    have hs1 := simple_of_take hlev.sorted hp (by omega) hsp
    have gp : ev[p]? = some (ev[p]'(by omega)) := List.getElem?_eq_getElem _
    have gp' : ev'[p]? = some (ev'[p]'(by omega)) := List.getElem?_eq_getElem _
    obtain ⟨y, hy, e1⟩ := simple_phase hherm hlev hs1 (heig p _ gp).1 (heig p _ gp).2
    obtain ⟨z, hz, e2⟩ := simple_phase hherm hlev hs1 (heig' p _ gp').1 (heig' p _ gp').2
    refine ⟨_, z * y⁻¹, by rw [norm_mul, norm_inv, hy, hz]; norm_num, gp, ?_⟩
    have hy0 : y ≠ 0 := by intro h0; rw [h0] at hy; simp at hy
    rw [gp', e1, smul_smul, mul_assoc, inv_mul_cancel₀ hy0, mul_one, ← e2]
  refine ⟨?_, ?_, ?_⟩
  · intro i hi hi'
    rw [hrep, hrep', List.getElem?_map, List.getElem?_map, List.getElem?_take_of_lt hi, List.getElem?_take_of_lt hi']
  · intro p hp hp' hsp
    obtain ⟨psi, y, hy, e1, e2⟩ := hph p hp hp' hsp
    refine ⟨_, _, psi, y, hy, ?_, ?_⟩
    · exact (congrArg (fun l => l[p]?) hevs).trans (getElem?_map_some _ e1)
    · exact (congrArg (fun l => l[p]?) hevs').trans (getElem?_map_some _ e2)
  · intro p q hp hq hp' hq' hsp hsq noise env ty total
    obtain ⟨psi, y, hy, e1, e2⟩ := hph p hp hp' hsp
    obtain ⟨psi', z, hz, e3, e4⟩ := hph q hq hq' hsq
    rw [hrate, hrate']
    have hget : ∀ i n, i < n → i < ws'.length → (ws'.take n)[i]? = some (ws'.getD i 0) := by
      intro i n hn hl
      rw [List.getElem?_take_of_lt hn, List.getElem?_eq_getElem hl, List.getD_eq_getElem _ _ hl]
    exact congrArg some (rate_phase (Build.noise c (run w0 h).circ.bd _ _ _ _ _ _ env (ws'.take num) ev) (ws'.take num') ev'
      hy hz (hget p num (by omega) (by omega)) (hget q num (by omega) (by omega)) (hget p num' hp' (by omega))
      (hget q num' hq' (by omega)) e1 e3 e2 e4 ty total).symm

end SQ
