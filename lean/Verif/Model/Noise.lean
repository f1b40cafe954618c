import Verif.Model.Grad
import Mathlib.Analysis.SpecialFunctions.Trigonometric.DerivHyp

/-!
# circuit.py, part 8: matrix elements and decoherence rates

Everything is computed from the stored eigenpairs and operators. Quality factors, admittances and
noise amplitudes of the elements are parameters; a NaN returned by a quality factor or an admittance
is `none`. Rates that are not finite (transition between states of equal stored frequency: `1 / tanh 0`
is infinite in numpy and PyTorch) are `Rate.nonFinite`. `ENV['T']` is assumed positive.
-/

namespace SQ
open Matrix

variable {nJ : ℕ}

/-- Noise properties of the elements, charge islands and loops. -/
structure NoiseSpec (nl : ℕ) where
  /-- `cap.Q` (`none`: no quality factor, such capacitors are skipped) -/
  capQ : ElemId → Option (ℝ → ℝ)
  /-- `el.Q(omega, T)` of an inductor -/
  indQ : ElemId → ℝ → ℝ → Option ℝ
  /-- `el.Y(omega, T)` of a junction -/
  junY : ElemId → ℝ → ℝ → Option ℝ
  /-- `el.A` of a junction -/
  junA : ElemId → ℝ
  /-- `loop.A` -/
  loopA : Fin nl → ℝ
  /-- `charge_islands[i].A` -/
  chargeA : ℕ → ℝ

/-- What the rate computation reads from a circuit. -/
structure NoiseCirc where
  n : ℕ
  nJ : ℕ
  b : ℕ
  nl : ℕ
  C : Matrix (Fin n) (Fin n) ℝ
  M : Modes nJ n
  m : Fin M.keep.length → ℕ
  mem : OpMem nJ m
  val : ElemId → ℝ
  B : Matrix (Fin b) (Fin nl) ℝ
  loopVals : Fin nl → ℝ
  P : ElemId → Matrix (Fin n) (Fin n) ℝ
  inds : List (IndKey b)
  juns : List (JunKey b nJ)
  /-- edges with the capacitor of each element on them (circuit.py:2597-2603): the element itself if
  it is a capacitor, its attached capacitor otherwise -/
  caps : List (Edge × ElemId)
  noise : NoiseSpec nl
  env : NoiseEnv
  efreqs : List ℝ
  evecs : List (Idx m → ℂ)

/-- value returned by `dec_rate` -/
inductive Rate
  | val (x : ℝ)
  | nonFinite

variable (c : NoiseCirc)

/-- circuit.py:2314-2406 `coupling_op`. -/
noncomputable def NoiseCirc.coupling (ctype : String) (nodes : Edge) : Except PyErr (Op c.m) :=
  couplingOp ctype c.C c.M c.mem.Q c.mem.phi nodes

/-- circuit.py:2397-2433 `matrix_elements`. -/
noncomputable def NoiseCirc.matrixElements (ctype : String) (nodes : Edge) (states : ℤ × ℤ) :
    Except PyErr ℂ :=
  if c.evecs.length = 0 then .error .circuitState
  else
    match pyGet c.evecs states.1 with
    | .error e => .error e
    | .ok s1 =>
      match pyGet c.evecs states.2 with
      | .error e => .error e
      | .ok s2 =>
        match c.coupling ctype nodes with
        | .error e => .error e
        | .ok op => .ok (innerOp s1 op s2)

/-- circuit.py:2574: `hbar * omega / (k_B * T)`. -/
noncomputable def thermalAlpha (omega T : ℝ) : ℝ := hbar * omega / (kB * T)

/-- circuit.py:2575-2582: the factors `(down, up)`; `none` when they are infinite (`alpha = 0`). -/
noncomputable def thermal (alpha : ℝ) : Option (ℝ × ℝ) :=
  open Classical in
  if alpha > 709 then some (2, 0)
  else if alpha = 0 then none
  else
    let down := 1 + 1 / Real.tanh (alpha / 2)
    some (down, down * Real.exp (-alpha))

/-- circuit.py:2584-2591: `tempS`. -/
noncomputable def tempS (alpha : ℝ) (states : ℤ × ℤ) (total : Bool) : Option ℝ :=
  match thermal alpha with
  | none => none
  | some (down, up) =>
    if total = false then
      if states.1 > states.2 then some down else some up
    else some (down + up)

/-- `decay = decay + f(tempS)`; once a term is infinite or NaN the sum stays so. -/
noncomputable def Rate.addTerm (acc : Rate) (tS : Option ℝ) (f : ℝ → ℝ) : Rate :=
  match acc, tS with
  | .val x, some t => .val (x + f t)
  | _, _ => .nonFinite

/-- circuit.py:2593-2605: capacitive loss. -/
noncomputable def NoiseCirc.capRate (omega : ℝ) (tS : Option ℝ) (states : ℤ × ℤ) :
    List (Edge × ElemId) → Rate → Except PyErr Rate
  | [], acc => .ok acc
  | (edge, cap) :: ks, acc =>
    match c.noise.capQ cap with
    | none => NoiseCirc.capRate omega tS states ks acc
    | some Q =>
      match c.matrixElements "capacitive" edge states with
      | .error e => .error e
      | .ok z =>
        NoiseCirc.capRate omega tS states ks
          (acc.addTerm tS (fun t => t * c.val cap / Q omega * ‖z‖ ^ 2))

/-- circuit.py:2606-2615: inductive loss. -/
noncomputable def NoiseCirc.indRate (omega : ℝ) (tS : Option ℝ) (s1 s2 : Idx c.m → ℂ) : Rate :=
  c.inds.foldl (fun acc key =>
    match c.noise.indQ key.el omega c.env.T with
    | none => acc
    | some Q => acc.addTerm tS (fun t =>
        t / Q / c.val key.el * ‖innerOp s1 (indOpOf c.C c.M c.mem key) s2‖ ^ 2)) (.val 0)

/-- circuit.py:2616-2628: quasiparticle loss. -/
noncomputable def NoiseCirc.qpRate (omega : ℝ) (tS : Option ℝ) (s1 s2 : Idx c.m → ℂ) : Rate :=
  c.juns.foldl (fun acc key =>
    match c.noise.junY key.el omega c.env.T with
    | none => acc
    | some Y => acc.addTerm tS (fun t => t * Y * omega * c.val key.el * hbar *
        ‖innerOp s1 (sinHalfOp c.mem key.wId (extFlux c.B c.loopVals key.bId)) s2‖ ^ 2)) (.val 0)

/-- circuit.py:2475-2503 `_dec_rate_charge_np`. -/
noncomputable def NoiseCirc.chargeRate (sm sn : Idx c.m → ℂ) : ℝ :=
  open Classical in
  (List.finRange c.M.keep.length).foldl (fun acc i =>
    if c.M.omega i = 0 then
      let op := partialHng c.M.cInv c.mem i
      acc + dephasing c.env (c.noise.chargeA i * 2 * eCharge) ‖innerOp sm op sm - innerOp sn op sn‖
    else acc) 0

/-- circuit.py:2505-2527 `_dec_rate_cc_np`. -/
noncomputable def NoiseCirc.ccRate (states : ℤ × ℤ) : List (JunKey c.b c.nJ) → ℝ → Except PyErr ℝ
  | [], acc => .ok acc
  | key :: ks, acc =>
    match partialOmegaMN c.evecs (partialH c.C c.M c.mem c.val c.B c.loopVals c.P c.inds c.juns
        (some key.bId) (.jun key.el)) states with
    | .error e => .error e
    | .ok w => NoiseCirc.ccRate states ks (acc + dephasing c.env (c.noise.junA key.el * c.val key.el) w)

/-- circuit.py:2456-2473 `_dec_rate_flux_np`. -/
noncomputable def NoiseCirc.fluxRate (states : ℤ × ℤ) : List (Fin c.nl) → ℝ → Except PyErr ℝ
  | [], acc => .ok acc
  | l :: ls, acc =>
    match partialOmegaMN c.evecs (partialH c.C c.M c.mem c.val c.B c.loopVals c.P c.inds c.juns
        none (.loop l)) states with
    | .error e => .error e
    | .ok w => NoiseCirc.fluxRate states ls (acc + dephasing c.env (c.noise.loopA l) w)

/-- circuit.py:2529-2647 `dec_rate`. (Under PyTorch the forward values of the three dephasing rates
are computed by the same functions, torch_extensions.py:622-629, 794-801, 985-992.) -/
noncomputable def NoiseCirc.decRate (decType : String) (states : ℤ × ℤ) (total : Bool) :
    Except PyErr Rate :=
  if c.efreqs.length = 0 then .error .circuitState
  else
    match pyGet c.efreqs states.1 with
    | .error e => .error e
    | .ok w1 =>
    match pyGet c.efreqs states.2 with
    | .error e => .error e
    | .ok w2 =>
    match pyGet c.evecs states.1 with
    | .error e => .error e
    | .ok s1 =>
    match pyGet c.evecs states.2 with
    | .error e => .error e
    | .ok s2 =>
      let omega := |w2 - w1|
      let tS := tempS (thermalAlpha omega c.env.T) states total
      if decType = "capacitive" then
        c.capRate omega tS states c.caps (.val 0)
      else if decType = "inductive" then .ok (c.indRate omega tS s1 s2)
      else if decType = "quasiparticle" then .ok (c.qpRate omega tS s1 s2)
      else if decType = "charge" then .ok (.val (c.chargeRate s1 s2))
      else if decType = "cc" then (c.ccRate states c.juns 0).map .val
      else if decType = "flux" then (c.fluxRate states (List.finRange c.nl) 0).map .val
      else .error .valueError

/-- torch_extensions.py:286-350 `partial_squared_omega`: `G` is the first-derivative operator of the
noise channel, `d2` its derivative with respect to `grad`. `get_partial_vec` is called with its default
`epsilon` (1e-12), here `eps`. -/
noncomputable def NoiseCirc.partialSquaredOmegaMN (grad : GradEl c.nl) (G d2 : Op c.m)
    (states : ℤ × ℤ) (eps : ℝ) : Except PyErr ℝ :=
  let dH := partialH c.C c.M c.mem c.val c.B c.loopVals c.P c.inds c.juns none grad
  match pyGet c.evecs states.1 with
  | .error e => .error e
  | .ok sm =>
  match partialVec c.evecs c.efreqs dH states.1 eps with
  | .error e => .error e
  | .ok dm =>
  match pyGet c.evecs states.2 with
  | .error e => .error e
  | .ok sn =>
  match partialVec c.evecs c.efreqs dH states.2 eps with
  | .error e => .error e
  | .ok dn => .ok (partialSquaredOmega sm dm sn dn G d2)

/-- one noise source of a dephasing gradient: amplitude, its derivative, first- and second-derivative
operators -/
structure Channel {k : ℕ} (m : Fin k → ℕ) where
  A : ℝ
  dA : ℝ
  G : Op m
  d2 : Op m

/-- the common loop of torch_extensions.py:597-617, 759-786, 955-976: sum of the derivatives of the
dephasing rates over the noise sources. -/
noncomputable def NoiseCirc.sumChannels (grad : GradEl c.nl) (states : ℤ × ℤ) (eps : ℝ) :
    List (Channel c.m) → ℝ → Except PyErr ℝ
  | [], acc => .ok acc
  | ch :: cs, acc =>
    match partialOmegaMN c.evecs ch.G states with
    | .error e => .error e
    | .ok w =>
      match c.partialSquaredOmegaMN grad ch.G ch.d2 states eps with
      | .error e => .error e
      | .ok w2 => NoiseCirc.sumChannels grad states eps cs
          (acc + partialDephasingRate c.env ch.A ch.dA w w2)

/-- torch_extensions.py:597-609: the charge modes, with amplitudes `A·2e`. -/
noncomputable def NoiseCirc.chargeChannels (grad : GradEl c.nl) : List (Channel c.m) :=
  open Classical in
  ((List.finRange c.M.keep.length).filter (fun i => c.M.omega i = 0)).map (fun (i : Fin c.M.keep.length) =>
    ⟨c.noise.chargeA i * 2 * eCharge, 0, partialHng c.M.cInv c.mem i,
      partialSquaredHng c.C c.mem c.P i grad⟩)

/-- `grad_el is EJ_el` (torch_extensions.py:777) -/
def GradEl.isJun {nl : ℕ} : GradEl nl → ElemId → Bool
  | .jun i, j => decide (i = j)
  | _, _ => false

/-- torch_extensions.py:762-777: the junction branches, with amplitudes `A·EJ`. -/
noncomputable def NoiseCirc.ccChannels (grad : GradEl c.nl) : List (Channel c.m) :=
  c.juns.map (fun key =>
    ⟨c.noise.junA key.el * c.val key.el,
      if grad.isJun key.el then c.noise.junA key.el else 0,
      partialH c.C c.M c.mem c.val c.B c.loopVals c.P c.inds c.juns (some key.bId) (.jun key.el),
      partialSquaredHEJ c.mem c.B c.loopVals key grad⟩)

/-- torch_extensions.py:956-969: the loops. -/
noncomputable def NoiseCirc.fluxChannels (grad : GradEl c.nl) : List (Channel c.m) :=
  (List.finRange c.nl).map (fun l =>
    ⟨c.noise.loopA l, 0,
      partialH c.C c.M c.mem c.val c.B c.loopVals c.P c.inds c.juns none (.loop l),
      partialSquaredHphi c.C c.M c.mem c.val c.B c.loopVals c.inds c.juns l grad⟩)

/-- torch_extensions.py:575-617 `partial_charge_dec`. -/
noncomputable def NoiseCirc.partialChargeDec (grad : GradEl c.nl) (states : ℤ × ℤ) (eps : ℝ) :
    Except PyErr ℝ := c.sumChannels grad states eps (c.chargeChannels grad) 0

/-- torch_extensions.py:737-786 `partial_cc_dec`. -/
noncomputable def NoiseCirc.partialCcDec (grad : GradEl c.nl) (states : ℤ × ℤ) (eps : ℝ) :
    Except PyErr ℝ := c.sumChannels grad states eps (c.ccChannels grad) 0

/-- torch_extensions.py:933-976 `partial_flux_dec`. -/
noncomputable def NoiseCirc.partialFluxDec (grad : GradEl c.nl) (states : ℤ × ℤ) (eps : ℝ) :
    Except PyErr ℝ := c.sumChannels grad states eps (c.fluxChannels grad) 0

end SQ
