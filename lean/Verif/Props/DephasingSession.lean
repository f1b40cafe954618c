import Verif.Props.SweepLoss
import Verif.Props.Describe
import Verif.Spec.Reported

/-!
# C113: dephasing rates as slopes of the reported transition frequencies
-/

namespace SQ
open Matrix Complex SQ.Spec Filter Topology

variable {c : CircSpec} {eigs : EigsFn} {as : List ℂ → List ℕ}

theorem reported_ok {P : Phys} {num : ℕ} {w : World P} {r} (h : (diag (some num) w).1 = .ok r) :
    reported num w = r.1 := by
  unfold reported
  rw [h]

theorem sigma_map_inj {k : ℕ} {d : Fin k → ℕ} {a b : List (Idx d → ℂ)}
    (h : a.map (fun v => (⟨k, d, v⟩ : Σ (k : ℕ) (d : Fin k → ℕ), Idx d → ℂ)) = b.map (fun v => ⟨k, d, v⟩)) : a = b := by
  refine List.map_injective_iff.2 ?_ h
  intro x y hxy
  simpa using hxy

theorem partialOmega_at {ι : Type*} [Fintype ι] {ev : List (ι → ℂ)} {dH : Matrix ι ι ℂ} {m : ℕ} (hm : m < ev.length)
    {r : ℝ} (h : partialOmega ev dH m false = .ok r) : r = (braket ev[m] dH ev[m]).re := by
  unfold partialOmega at h
  rw [if_neg (by omega)] at h
  rw [pyGet_nat hm] at h
  simp only [Bool.false_eq_true, if_false, Except.ok.injEq] at h
  rw [← h, innerOp_eq]

theorem sum_map_get {α : Type*} (l : List α) (f : α → ℝ) :
    (l.map f).sum = ((List.finRange l.length).map fun j => f (l.get j)).sum := by
  congr 1
  apply List.ext_getElem <;> simp

/-- slope of a reported transition frequency along a family of states -/
theorem transition_slope (he : EigsLowest eigs) (ha : CArgsortSpec as) (wt : ℝ → World (circPhys c eigs as))
    (hm : ∀ t, (wt t).circ.m ≠ []) {k : ℕ} {d : Fin k → ℕ} (H : ℝ → Op d)
    (hH : ∀ t, (hamiltonian (wt t)).1 = .ok ⟨k, d, H t⟩) (hherm : ∀ t, (H t).IsHermitian)
    (U : ℝ) (hU : ∀ t, (wt t).unitFreq = U) (num : ℕ) (hnum : num + 1 < Fintype.card (Idx d)) (p q : ℕ)
    (hp : p + 1 < num) (hq : q + 1 < num) (x : ℝ) (dH : Op d) (hd : HasDerivOp H dH x)
    (hsp : SimpleLevel (reported num (wt x)) p) (hsq : SimpleLevel (reported num (wt x)) q)
    (Fx : List ℝ) (ev : List (Idx d → ℂ)) (hev : (diag (some num) (wt x)).1 = .ok (Fx, ev.map fun v => ⟨k, d, v⟩))
    (psi psi' : Idx d → ℂ) (hpsi : ev[p]? = some psi) (hpsi' : ev[q]? = some psi') :
    HasDerivAt (fun t => transition num p q (wt t)) (sens psi psi' dH / (2 * Real.pi * U)) x := by
  have key : ∀ (m : ℕ) (v : Idx d → ℂ), m + 1 < num → SimpleLevel (reported num (wt x)) m → ev[m]? = some v →
      HasDerivAt (fun t => (reported num (wt t)).getD m 0) ((braket v dH v).re / (2 * Real.pi * U)) x := by
    intro m v hmn hsim hv
    obtain ⟨F, ev', h1, h2⟩ := diag_slope he ha wt hm H hH hherm U hU num hnum m hmn
    have hF : ∀ t, reported num (wt t) = F t := fun t => reported_ok (h1 t)
    simp only [hF] at hsim ⊢
    obtain ⟨r, hr, hdr⟩ := h2 x dH hd hsim
    have e := (h1 x).symm.trans hev
    injection e with e
    have e2 := sigma_map_inj (congrArg Prod.snd e)
    rw [e2] at hr
    have hlt : m < ev.length := by
      by_contra h'
      rw [List.getElem?_eq_none (Nat.le_of_not_lt h')] at hv
      cases hv
    have := partialOmega_at hlt hr
    rw [List.getElem?_eq_getElem hlt] at hv
    rw [Option.some.inj hv] at this
    rw [← this]
    exact hdr
  refine ((key p psi hp hsp hpsi).sub (key q psi' hq hsq hpsi')).congr_deriv ?_
  rw [← sub_div]
  unfold sens
  rw [Complex.sub_re]

/-- the flux-noise rate of stored eigenvectors -/
theorem noise_flux {bd : Build} {m : Fin bd.M.keep.length → ℕ} {ng val fluxes P} {noise : NoiseSpec bd.loops.length}
    {env : NoiseEnv} {ef : List ℝ} {ev : List (Idx m → ℂ)} {p q : ℕ} {psi psi' : Idx m → ℂ} {total : Bool}
    (hp : ev[p]? = some psi) (hq : ev[q]? = some psi') (hpf : p < ef.length) (hqf : q < ef.length) :
    (bd.noise c m ng val fluxes P noise env ef ev).decRate "flux" (p, q) total =
      .ok (.val ((List.finRange bd.loops.length).map (fun l => |sens psi psi' (partialH bd.C bd.M
        (buildMem bd.M.data m ng) val bd.B fluxes P bd.inds bd.juns none (.loop l)) * noise.loopA l| *
          √(2 * |Real.log (env.omegaLow * env.tExp)|))).sum) := by
  rw [decRate_eq]
  obtain ⟨w, w', hpair⟩ := pair_stored (bd.noise c m ng val fluxes P noise env ef ev) hp hq hpf hqf
  rw [hpair]
  simp only
  unfold NoiseCirc.rateOf
  simp only [String.reduceEq, if_false, if_true]
  rw [fluxRate_eq (bd.noise c m ng val fluxes P noise env ef ev) (pyGet_of_getElem? hp) (pyGet_of_getElem? hq)]
  simp only [Except.map]
  congr 2
  rw [zero_add]
  rfl

/-- slopes instead of sensitivities -/
theorem flux_slopes {F : LoopId → ℝ → ℝ} (loops : List LoopId) (x : LoopId → ℝ) (U : ℝ) (hu : 0 < U) (f : ℝ)
    (A : LoopId → ℝ) (s : Fin loops.length → ℝ)
    (key : ∀ j, HasDerivAt (F (loops.get j)) (s j / U) (x (loops.get j) / (2 * Real.pi)))
    {r : Option (Except PyErr Rate)}
    (hr : r = some (.ok (.val ((List.finRange loops.length).map (fun l => |s l * A (loops.get l)| * f)).sum))) :
    (∀ l ∈ loops, DifferentiableAt ℝ (F l) (x l / (2 * Real.pi))) ∧
    r = some (.ok (.val (loops.map (fun l =>
      |A l * (2 * Real.pi * U * deriv (F l) (x l / (2 * Real.pi))) / (2 * Real.pi)| * f)).sum)) := by
  refine ⟨?_, ?_⟩
  · intro l hl
    obtain ⟨j, rfl⟩ := List.get_of_mem hl
    exact (key j).differentiableAt
  · rw [hr, sum_map_get loops]
    congr 5
    funext j
    rw [(key j).deriv]
    have := Real.pi_pos.ne'
    congr 2
    field_simp

/-- what `dec_rate` reads after `diag` in a reachable state -/
theorem session_pair (he : EigsLowest eigs) (ha : CArgsortSpec as) (hs : NoSelfLoops c.els)
    (vals : ElemId → ℝ) (flux : LoopId → ℝ) (u : ℝ)
    (w0 : World (circPhys c eigs as)) (hw : construct (circPhys c eigs as) vals flux u = .ok w0)
    (h : List Act) (hh : Orderly w0 h) (hm : (run w0 h).circ.m ≠ []) (num p q : ℕ) (hp : p + 1 < num) (hq : q + 1 < num)
    (hdim : num + 1 < Fintype.card (Idx ((run w0 h).circ.bd.dims (run w0 h).circ.m)))
    (noise : ObjNoise) (env : NoiseEnv) (total : Bool) :
    ∃ (F ef : List ℝ) (ev : List (Idx ((run w0 h).circ.bd.dims (run w0 h).circ.m) → ℂ)) (psi psi' : _),
      (diag (some num) (run w0 h)).1 = .ok (F, ev.map fun v => ⟨_, _, v⟩) ∧ ev[p]? = some psi ∧ ev[q]? = some psi' ∧
      p < ef.length ∧ q < ef.length ∧
      ∀ ty, sessionRate noise env ty (p, q) total (diag (some num) (run w0 h)).2 = some
        ((Build.noise c (run w0 h).circ.bd ((run w0 h).circ.bd.dims (run w0 h).circ.m)
        (fun i => ((run w0 h).circ.ng i).getD 0) (run w0 h).vals
        (fun l => (run w0 h).flux ((run w0 h).circ.bd.loops.get l)) (fun _ => 0)
        (noise.spec (run w0 h).circ.bd.loops (run w0 h).circ.islands) env ef ev).decRate ty (p, q) total) := by
  obtain ⟨hbok, -, -, hham⟩ := ham_now hs hw hh hm
  obtain ⟨H, hH, hherm⟩ := C40_hermitian (run w0 h).circ.bd.C (run w0 h).circ.bd.M hbok.1
    ((run w0 h).circ.bd.dims (run w0 h).circ.m) (fun i => ((run w0 h).circ.ng i).getD 0) (run w0 h).vals
    ((run w0 h).circ.bd.fluxes (run w0 h).flux) (run w0 h).circ.bd.inds (run w0 h).circ.bd.juns hbok.2
  have hham' := hham (run w0 h) rfl
  rw [hH] at hham'
  obtain ⟨vs, ws, ev, w', hlev, hd, hef, hevs, hlen, -⟩ := diag_lowest he ha hm hham' hherm num (by omega) hdim
  have hd2 : (diag (some (num : ℤ)) (run w0 h)).2 = w' := congrArg Prod.snd hd
  have hefl : w'.circ.efreqs.length = num := by
    rw [hef, List.length_take, hlev.len, hlev.card]; omega
  have hses := fun ty => C112_session hs vals flux u w0 hw h hh noise env ty (p, q) total num ⟨_, congrArg Prod.fst hd⟩
    (by
      rw [hd2]
      intro h0
      rw [h0] at hefl
      simp at hefl
      omega) ev (by rw [hd2, hevs])
  rw [hd2] at hses ⊢
  exact ⟨_, w'.circ.efreqs, ev, _, _, congrArg Prod.fst hd, List.getElem?_eq_getElem (by omega),
    List.getElem?_eq_getElem (by omega), by omega, by omega, hses⟩

/-- slope of a reported transition frequency along `set_flux` -/
theorem flux_core (he : EigsLowest eigs) (ha : CArgsortSpec as) (w : World (circPhys c eigs as)) (hm : w.circ.m ≠ [])
    (bd : Build) (hbok : BuildOK bd) (hnd : bd.loops.Nodup) (d : Fin bd.M.keep.length → ℕ) (ng : Fin bd.M.keep.length → ℝ)
    (hham : ∀ w' : World (circPhys c eigs as), w'.circ = w.circ → (hamiltonian w').1 =
      (fullHamiltonian bd.C bd.M d ng w'.vals (bd.fluxes w'.flux) bd.inds bd.juns).map
        (fun H => (⟨_, d, H⟩ : Σ (k : ℕ) (d : Fin k → ℕ), Op d)))
    (num p q : ℕ) (hp : p + 1 < num) (hq : q + 1 < num) (hdim : num + 1 < Fintype.card (Idx d))
    (hsp : SimpleLevel (reported num w) p) (hsq : SimpleLevel (reported num w) q)
    (F : List ℝ) (ev : List (Idx d → ℂ)) (hev : (diag (some num) w).1 = .ok (F, ev.map fun v => ⟨_, d, v⟩))
    (psi psi' : Idx d → ℂ) (hpsi : ev[p]? = some psi) (hpsi' : ev[q]? = some psi') (j : Fin bd.loops.length) :
    HasDerivAt (fun t => transition num p q ((Act.setFlux (bd.loops.get j) t).exec w).2)
      (sens psi psi' (partialH bd.C bd.M (buildMem bd.M.data d ng)
        w.vals bd.B (fun i => w.flux (bd.loops.get i)) (fun _ => 0) bd.inds bd.juns none (.loop j)) / w.unitFreq)
      (w.flux (bd.loops.get j) / (2 * Real.pi)) := by
  have hπ := Real.pi_pos
  set wt : ℝ → World (circPhys c eigs as) := fun t => ((Act.setFlux (bd.loops.get j) t).exec w).2 with hwt
  have hwt' : ∀ t, wt t = { w with flux := Function.update w.flux (bd.loops.get j) (t * 2 * Real.pi) } := fun t => rfl
  have hflx : w.flux (bd.loops.get j) / (2 * Real.pi) * 2 * Real.pi = w.flux (bd.loops.get j) := by field_simp
  have hx : wt (w.flux (bd.loops.get j) / (2 * Real.pi)) = w := by
    rw [hwt', hflx, Function.update_eq_self]
  have hex : ∀ y : ℝ, ∃ H : Op d, fullHamiltonian bd.C bd.M d ng w.vals
      (extFlux bd.B (Function.update (fun i => w.flux (bd.loops.get i)) j y)) bd.inds bd.juns = .ok H ∧
      H.IsHermitian := fun y => C40_hermitian bd.C bd.M hbok.1 d _ w.vals _ bd.inds bd.juns hbok.2
  choose G hG hGh using hex
  have hH : ∀ t, (hamiltonian (wt t)).1 = .ok ⟨_, d, G (t * 2 * Real.pi)⟩ := by
    intro t
    refine (hham (wt t) (by rw [hwt'])).trans ?_
    rw [hwt']
    simp only
    have := fluxes_update hnd w.flux j (t * 2 * Real.pi)
    have h2 := hG (t * 2 * Real.pi)
    rw [← this] at h2
    exact (congrArg (Except.map fun H => (⟨_, _, H⟩ : Σ (k : ℕ) (d : Fin k → ℕ), Op d)) h2)
  obtain ⟨G', hG', hd'⟩ := C57_flux bd.C bd.M hbok.1 (buildMem bd.M.data d ng)
    (lcHamil bd.M.data (buildMem bd.M.data d ng)) w.vals bd.B
    (fun i => w.flux (bd.loops.get i)) (fun _ => 0) bd.inds bd.juns hbok.2 j none
  have hGG : G' = G := by
    funext y
    exact Except.ok.inj ((hG' y).symm.trans (hG y))
  subst hGG
  have hd2 : HasDerivOp (fun t => G' (t * 2 * Real.pi)) (((2 * Real.pi : ℝ) : ℂ) • partialH bd.C bd.M
      (buildMem bd.M.data d ng) w.vals bd.B
      (fun i => w.flux (bd.loops.get i)) (fun _ => 0) bd.inds bd.juns none (.loop j))
      (w.flux (bd.loops.get j) / (2 * Real.pi)) := by
    refine hasDerivOp_comp (g := fun s => s * 2 * Real.pi) ?_ ?_
    · rw [hflx]
      exact hd'
    · have := ((hasDerivAt_id' (w.flux (bd.loops.get j) / (2 * Real.pi))).mul_const 2).mul_const Real.pi
      simpa using this
  have := transition_slope he ha wt (fun t => by rw [hwt']; exact hm) (fun t => G' (t * 2 * Real.pi)) hH
    (fun t => hGh _) w.unitFreq (fun t => by rw [hwt']) num hdim p q hp hq _ _ hd2 (by rw [hx]; exact hsp)
    (by rw [hx]; exact hsq) F ev (by rw [hx]; exact hev) psi psi' hpsi hpsi'
  refine this.congr_deriv ?_
  rw [sens_smul]
  field_simp

/-- C113, flux noise: take any reachable state of any circuit, and two levels which the frequencies returned by
`diag(num)` show not to be degenerate. Then `dec_rate("flux", (p, q))` is the sum over the loops of |noise amplitude ×
slope of the transition frequency that `diag` reports as a function of the argument of `loop.set_flux`, converted from
the frequency unit to rad/s and from flux quanta to rad| × √(2|ln(ω_low t_exp)|). -/
theorem C113_flux (he : EigsLowest eigs) (ha : CArgsortSpec as) (hs : NoSelfLoops c.els)
    (vals : ElemId → ℝ) (flux : LoopId → ℝ) (u : ℝ)
    (w0 : World (circPhys c eigs as)) (hw : construct (circPhys c eigs as) vals flux u = .ok w0)
    (h : List Act) (hh : Orderly w0 h) (hm : (run w0 h).circ.m ≠ []) (hu : 0 < (run w0 h).unitFreq)
    (num p q : ℕ) (hp : p + 1 < num) (hq : q + 1 < num)
    (hdim : num + 1 < Fintype.card (Idx ((run w0 h).circ.bd.dims (run w0 h).circ.m)))
    (hsp : SimpleLevel (reported num (run w0 h)) p) (hsq : SimpleLevel (reported num (run w0 h)) q)
    (noise : ObjNoise) (env : NoiseEnv) (total : Bool) :
    (∀ l ∈ (run w0 h).circ.bd.loops,
      DifferentiableAt ℝ (fun t => transition num p q (run w0 (h ++ [.setFlux l t]))) ((run w0 h).flux l / (2 * Real.pi))) ∧
    sessionRate noise env "flux" (p, q) total (run w0 (h ++ [.diag (some num)])) =
      some (.ok (.val ((run w0 h).circ.bd.loops.map (fun l =>
        |noise.loopA l * (2 * Real.pi * (run w0 h).unitFreq *
          deriv (fun t => transition num p q (run w0 (h ++ [.setFlux l t]))) ((run w0 h).flux l / (2 * Real.pi))) /
            (2 * Real.pi)| * √(2 * |Real.log (env.omegaLow * env.tExp)|))).sum)) := by
  obtain ⟨F, ef, ev, psi, psi', hd, hpsi, hpsi', hpf, hqf, hrate⟩ :=
    session_pair he ha hs vals flux u w0 hw h hh hm num p q hp hq hdim noise env total
  obtain ⟨hbok, hkeys, hnd, hham⟩ := ham_now hs hw hh hm
  have key := flux_core he ha (run w0 h) hm (run w0 h).circ.bd hbok hnd _ _ hham num p q hp hq hdim hsp hsq F ev hd
    psi psi' hpsi hpsi'
  have hr := (hrate "flux").trans (congrArg some (noise_flux hpsi hpsi' hpf hqf))
  simp only [run_snoc]
  exact flux_slopes (F := fun l t => transition num p q ((Act.setFlux l t).exec (run w0 h)).2) (run w0 h).circ.bd.loops
    (run w0 h).flux (run w0 h).unitFreq hu (√(2 * |Real.log (env.omegaLow * env.tExp)|)) noise.loopA _ key hr

theorem partialH_only_branch {n b nl nJ : ℕ} (C : Matrix (Fin n) (Fin n) ℝ) (M : Modes nJ n)
    {m : Fin M.keep.length → ℕ} (mem : OpMem nJ m) (val : ElemId → ℝ)
    (B : Matrix (Fin b) (Fin nl) ℝ) (loopVals : Fin nl → ℝ) (P : ElemId → Matrix (Fin n) (Fin n) ℝ)
    (inds : List (IndKey b)) (juns : List (JunKey b nJ)) (hnd : (juns.map (·.el)).Nodup) {key : JunKey b nJ}
    (hkey : key ∈ juns) :
    partialH C M mem val B loopVals P inds juns (some key.bId) (.jun key.el) =
      partialH C M mem val B loopVals P inds juns none (.jun key.el) := by
  unfold partialH
  refine List.foldl_ext _ _ _ ?_
  intro acc k hk
  by_cases h : k.el = key.el
  · have : k = key := List.inj_on_of_nodup_map hnd hk hkey h
    subst this
    simp
  · simp [h]

/-- the critical-current rate of stored eigenvectors -/
theorem noise_cc {bd : Build} {m : Fin bd.M.keep.length → ℕ} {ng val fluxes P} {noise : NoiseSpec bd.loops.length}
    {env : NoiseEnv} {ef : List ℝ} {ev : List (Idx m → ℂ)} {p q : ℕ} {psi psi' : Idx m → ℂ} {total : Bool}
    (hp : ev[p]? = some psi) (hq : ev[q]? = some psi') (hpf : p < ef.length) (hqf : q < ef.length)
    (hnd : (bd.juns.map (·.el)).Nodup) :
    (bd.noise c m ng val fluxes P noise env ef ev).decRate "cc" (p, q) total =
      .ok (.val ((bd.juns.map (·.el)).map (fun i => |sens psi psi' (partialH bd.C bd.M
        (buildMem bd.M.data m ng) val bd.B fluxes P bd.inds bd.juns none (.jun i)) * (noise.junA i * val i)| *
          √(2 * |Real.log (env.omegaLow * env.tExp)|))).sum) := by
  rw [decRate_eq]
  obtain ⟨w, w', hpair⟩ := pair_stored (bd.noise c m ng val fluxes P noise env ef ev) hp hq hpf hqf
  rw [hpair]
  simp only
  unfold NoiseCirc.rateOf
  simp only [String.reduceEq, if_false, if_true]
  rw [ccRate_eq (bd.noise c m ng val fluxes P noise env ef ev) (pyGet_of_getElem? hp) (pyGet_of_getElem? hq)]
  simp only [Except.map]
  congr 2
  rw [zero_add, List.map_map]
  refine congrArg List.sum (List.map_congr_left fun key hk => ?_)
  show |sens psi psi' (partialH bd.C bd.M (buildMem bd.M.data m ng) val bd.B fluxes P bd.inds bd.juns (some key.bId)
    (.jun key.el)) * (noise.junA key.el * val key.el)| * _ = _
  rw [partialH_only_branch _ _ _ _ _ _ _ _ _ hnd hk]
  rfl

/-- slope of a reported transition frequency along `set_value` of a junction -/
theorem cc_core (he : EigsLowest eigs) (ha : CArgsortSpec as) (w : World (circPhys c eigs as)) (hm : w.circ.m ≠ [])
    (bd : Build) (hbok : BuildOK bd) (hkeys : KeysOK c bd) (d : Fin bd.M.keep.length → ℕ)
    (ng : Fin bd.M.keep.length → ℝ)
    (hham : ∀ w' : World (circPhys c eigs as), w'.circ = w.circ → (hamiltonian w').1 =
      (fullHamiltonian bd.C bd.M d ng w'.vals (bd.fluxes w'.flux) bd.inds bd.juns).map
        (fun H => (⟨_, d, H⟩ : Σ (k : ℕ) (d : Fin k → ℕ), Op d)))
    (num p q : ℕ) (hp : p + 1 < num) (hq : q + 1 < num) (hdim : num + 1 < Fintype.card (Idx d))
    (hsp : SimpleLevel (reported num w) p) (hsq : SimpleLevel (reported num w) q)
    (F : List ℝ) (ev : List (Idx d → ℂ)) (hev : (diag (some num) w).1 = .ok (F, ev.map fun v => ⟨_, d, v⟩))
    (psi psi' : Idx d → ℂ) (hpsi : ev[p]? = some psi) (hpsi' : ev[q]? = some psi') (i : ElemId)
    (hi : (c.O.elem i).kind = .jj) :
    HasDerivAt (fun t => transition num p q ((Act.setValue i t).exec w).2)
      (sens psi psi' (partialH bd.C bd.M (buildMem bd.M.data d ng)
        w.vals bd.B (fun i => w.flux (bd.loops.get i)) (fun _ => 0) bd.inds bd.juns none (.jun i)) /
          (2 * Real.pi * w.unitFreq)) (w.vals i) := by
  set wt : ℝ → World (circPhys c eigs as) := fun t => ((Act.setValue i t).exec w).2 with hwt
  have hwt' : ∀ t, wt t = { w with vals := Function.update w.vals i t } := fun t => rfl
  have hx : wt (w.vals i) = w := by rw [hwt', Function.update_eq_self]
  have hex : ∀ y : ℝ, ∃ H : Op d, fullHamiltonian bd.C bd.M d ng
      (Function.update w.vals i y) (extFlux bd.B (fun j => w.flux (bd.loops.get j))) bd.inds bd.juns = .ok H ∧
      H.IsHermitian := fun y => C40_hermitian bd.C bd.M hbok.1 d _ _ _ bd.inds bd.juns hbok.2
  choose G hG hGh using hex
  have hH : ∀ t, (hamiltonian (wt t)).1 = .ok ⟨_, d, G t⟩ := by
    intro t
    refine (hham (wt t) (by rw [hwt'])).trans ?_
    rw [hwt']
    exact (congrArg (Except.map fun H => (⟨_, _, H⟩ : Σ (k : ℕ) (d : Fin k → ℕ), Op d)) (hG t))
  obtain ⟨G', hG', hd⟩ := C57_junction bd.C bd.M hbok.1 (buildMem bd.M.data d ng)
    (lcHamil bd.M.data (buildMem bd.M.data d ng)) w.vals bd.B
    (fun j => w.flux (bd.loops.get j)) (fun _ => 0) bd.inds bd.juns hbok.2 i (fun key hk he => by
      have := hkeys.indKind key hk
      rw [he, hi] at this
      cases this)
  have hGG : G' = G := by
    funext y
    exact Except.ok.inj ((hG' y).symm.trans (hG y))
  subst hGG
  exact transition_slope he ha wt (fun t => by rw [hwt']; exact hm) G' hH
    (fun t => hGh _) w.unitFreq (fun t => by rw [hwt']) num hdim p q hp hq _ _ hd (by rw [hx]; exact hsp)
    (by rw [hx]; exact hsq) F ev (by rw [hx]; exact hev) psi psi' hpsi hpsi'

theorem filter_jj (O : Objs) (els : Elements) :
    ((numbered O els).filter (fun q => decide ((O.elem q.1.2).kind = .jj))).map (fun q => q.1.2) =
      junctionObjects O els := by
  have h : ∀ (l : List (Edge × ElemId)) (n : ℕ),
      ((l.zipIdx n).filter (fun q => decide ((O.elem q.1.2).kind = .jj))).map (fun q => q.1.2) =
        (l.filter (fun q => decide ((O.elem q.2).kind = .jj))).map Prod.snd := by
    intro l
    induction l with
    | nil => intro n; rfl
    | cons a l ih =>
      intro n
      rw [List.zipIdx_cons, List.filter_cons, List.filter_cons]
      by_cases hk : (O.elem a.2).kind = .jj
      · simp only [hk, decide_true, if_true, List.map_cons, ih]
      · simp only [hk, decide_false, Bool.false_eq_true, if_false, ih]
  unfold numbered inductivePlacements junctionObjects
  rw [h, List.filter_filter]
  congr 1
  refine List.filter_congr fun q _ => ?_
  rcases hk : (O.elem q.2).kind <;> simp

theorem buildWith_dict_juns {n : ℕ} {v : ElemId → ℝ} (hs : NoSelfLoops c.els)
    {finish : ∀ {nJ : ℕ}, Trans nJ n → Modes nJ n} {b : Build}
    (h : buildWith c n v finish = .ok b) : b.juns.map (·.el) = junctionObjects c.O c.els := by
  rw [buildWith_eq] at h
  split at h
  · cases h
  · rename_i a htr
    have hv : ValidElements n c.els := by
      intro p hp
      have := buildEdges_nodes_le htr p hp
      exact ⟨hs p hp, this.1, this.2⟩
    obtain ⟨h1, h2, h3, h4, h5, h6⟩ := C18_branch_numbering _ _ _ _ _ _ hv a htr
    have hlen : a.st.kMat.length = (inductivePlacements c.O c.els).length := by
      rw [h6, List.length_map]; rfl
    have hlt : ∀ q ∈ numbered c.O c.els, q.2 < a.st.kMat.length := by
      intro q hq
      rw [hlen]
      obtain ⟨x, i⟩ := q
      have := List.mem_zipIdx hq
      omega
    have hj : (junKeysOf a.st.kMat.length a.wMat.length a.st.junKeys).map (·.el) = junctionObjects c.O c.els := by
      have hp := junKeysOf_pairs a.st.kMat.length a.wMat.length a.st.junKeys (by
        intro k hk
        constructor
        · have hm : (k.1, k.2.1, k.2.2.1) ∈ a.st.junKeys.map (fun k => (k.1, k.2.1, k.2.2.1)) :=
            List.mem_map.2 ⟨k, hk, rfl⟩
          rw [h2] at hm
          obtain ⟨q, hq, he⟩ := List.mem_map.1 hm
          have := hlt q (List.mem_filter.1 hq).1
          exact lt_of_eq_of_lt (Prod.ext_iff.1 (Prod.ext_iff.1 he).2).2.symm this
        · exact (List.getElem?_eq_some_iff.1 (h4 k hk).2).1)
      have hp2 := congrArg (List.map Prod.snd) hp
      rw [List.map_map, List.map_map] at hp2
      refine Eq.trans hp2 ?_
      have := congrArg (List.map fun k : Edge × ElemId × ℕ => k.2.1) h2
      rw [List.map_map, List.map_map] at this
      exact Eq.trans this (filter_jj c.O c.els)
    unfold afterTraverse afterFields at h
    split at h
    · cases h
    · split at h
      · cases h
      · split at h
        · cases h
        · cases h
        · injection h with h
          subst h
          exact hj

theorem dict_juns_aux (hs : NoSelfLoops c.els) {n : ℕ} {v : ElemId → ℝ} {b : Build}
    (h : rebuildCirc c n v = .ok b) : b.juns.map (·.el) = junctionObjects c.O c.els := buildWith_dict_juns hs h

/-- the junctions of the circuit in every reachable state -/
theorem dict_juns (hs : NoSelfLoops c.els) {vals : ElemId → ℝ} {flux : LoopId → ℝ} {u : ℝ}
    {w0 : World (circPhys c eigs as)} (hw : construct (circPhys c eigs as) vals flux u = .ok w0)
    {h : List Act} (hh : Orderly w0 h) :
    (run w0 h).circ.bd.juns.map (·.el) = junctionObjects c.O c.els := by
  have := coherent_run (P := circPhys c eigs as)
    (fun _ (bd : Build) => bd.juns.map (·.el) = junctionObjects c.O c.els) h w0 vals
    (coherent_construct hw fun _ hb => by
      have hb' : buildCirc c vals = .ok _ := hb
      unfold buildCirc at hb'
      cases hn : numNodes c.els with
      | error e => rw [hn] at hb'; cases hb'
      | ok n => rw [hn] at hb'; exact buildWith_dict_juns hs hb') hh
    (fun h1 h2 he bd hbd => dict_juns_aux hs hbd)
  exact this.1

/-- slopes instead of sensitivities -/
theorem cc_slopes {F : ElemId → ℝ → ℝ} (ids : List ElemId) (x : ElemId → ℝ) (U : ℝ) (hu : 0 < U) (f : ℝ)
    (A : ElemId → ℝ) (s : ElemId → ℝ)
    (key : ∀ i ∈ ids, HasDerivAt (F i) (s i / (2 * Real.pi * U)) (x i))
    {r : Option (Except PyErr Rate)}
    (hr : r = some (.ok (.val (ids.map (fun i => |s i * (A i * x i)| * f)).sum))) :
    (∀ i ∈ ids, DifferentiableAt ℝ (F i) (x i)) ∧
    r = some (.ok (.val (ids.map (fun i => |A i * x i * (2 * Real.pi * U * deriv (F i) (x i))| * f)).sum)) := by
  refine ⟨fun i hi => (key i hi).differentiableAt, ?_⟩
  rw [hr]
  congr 4
  refine List.map_congr_left fun i hi => ?_
  rw [(key i hi).deriv]
  have := Real.pi_pos.ne'
  congr 2
  field_simp

/-- C113, critical-current noise: in every reachable state of a circuit in which no junction object is placed twice, for
two levels which the frequencies returned by `diag(num)` show not to be degenerate, `dec_rate("cc", (p, q))` is the sum
over the junctions of |relative noise amplitude × Josephson energy × slope of the reported transition frequency, in rad/s,
as a function of the junction's energy set by `set_value`| × √(2|ln(ω_low t_exp)|). -/
theorem C113_critical_current (he : EigsLowest eigs) (ha : CArgsortSpec as) (hs : NoSelfLoops c.els)
    (hj : (junctionObjects c.O c.els).Nodup) (vals : ElemId → ℝ) (flux : LoopId → ℝ) (u : ℝ)
    (w0 : World (circPhys c eigs as)) (hw : construct (circPhys c eigs as) vals flux u = .ok w0)
    (h : List Act) (hh : Orderly w0 h) (hm : (run w0 h).circ.m ≠ []) (hu : 0 < (run w0 h).unitFreq)
    (num p q : ℕ) (hp : p + 1 < num) (hq : q + 1 < num)
    (hdim : num + 1 < Fintype.card (Idx ((run w0 h).circ.bd.dims (run w0 h).circ.m)))
    (hsp : SimpleLevel (reported num (run w0 h)) p) (hsq : SimpleLevel (reported num (run w0 h)) q)
    (noise : ObjNoise) (env : NoiseEnv) (total : Bool) :
    (∀ i ∈ junctionObjects c.O c.els,
      DifferentiableAt ℝ (fun t => transition num p q (run w0 (h ++ [.setValue i t]))) ((run w0 h).vals i)) ∧
    sessionRate noise env "cc" (p, q) total (run w0 (h ++ [.diag (some num)])) =
      some (.ok (.val ((junctionObjects c.O c.els).map (fun i =>
        |noise.junA i * (run w0 h).vals i * (2 * Real.pi * (run w0 h).unitFreq *
          deriv (fun t => transition num p q (run w0 (h ++ [.setValue i t]))) ((run w0 h).vals i))| *
            √(2 * |Real.log (env.omegaLow * env.tExp)|))).sum)) := by
  obtain ⟨F, ef, ev, psi, psi', hd, hpsi, hpsi', hpf, hqf, hrate⟩ :=
    session_pair he ha hs vals flux u w0 hw h hh hm num p q hp hq hdim noise env total
  obtain ⟨hbok, hkeys, hnd, hham⟩ := ham_now hs hw hh hm
  have hjn := dict_juns hs hw hh
  have key := cc_core he ha (run w0 h) hm (run w0 h).circ.bd hbok hkeys _ _ hham num p q hp hq hdim hsp hsq F ev hd
    psi psi' hpsi hpsi'
  have hr := (hrate "cc").trans (congrArg some (noise_cc hpsi hpsi' hpf hqf (by rw [hjn]; exact hj)))
  rw [hjn] at hr
  simp only [run_snoc]
  refine cc_slopes (F := fun i t => transition num p q ((Act.setValue i t).exec (run w0 h)).2) (junctionObjects c.O c.els)
    (run w0 h).vals (run w0 h).unitFreq hu (√(2 * |Real.log (env.omegaLow * env.tExp)|)) noise.junA _
    (fun i hi => key i ?_) hr
  obtain ⟨x, hx, rfl⟩ := List.mem_map.1 hi
  simpa using (List.mem_filter.1 hx).2

end SQ
