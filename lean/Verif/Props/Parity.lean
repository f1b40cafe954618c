import Verif.Lemmas.Parity
import Verif.Props.Reversal
import Verif.Props.GoldenRule
import Verif.Props.DephasingSession
import Verif.Props.SweepLoss

/-!
# C126: the parity selection rule at symmetric bias
-/

namespace SQ
open Matrix Complex SQ.Spec

section build
variable (c : CircSpec) (v0 : ElemId → ℝ) (bd : Build) (m : Fin bd.M.keep.length → ℕ)
    (ng : Fin bd.M.keep.length → ℝ) (val : ElemId → ℝ) (fluxes : Fin bd.loops.length → ℝ) (H : Op m)

/-- at symmetric bias both reversals are symmetries -/
theorem bias_symmetric (hbok : BuildOK bd)
    (hH : fullHamiltonian bd.C bd.M m ng val (extFlux bd.B fluxes) bd.inds bd.juns = .ok H)
    (hsweet : HalfQuanta bd.B bd.inds bd.juns fluxes) (hng : ∀ i, bd.M.omega i = 0 → ng i = 0) :
    fluxRev bd.M.data m H = H ∧ chargeRev bd.M.data m H = H := by
  obtain ⟨hi, hj⟩ := halfQuanta_ext hsweet (φ1 := fluxes) (φ2 := fluxes) (fun l => by ring)
  constructor
  · have := fluxRev_ham bd.C bd.M hbok.1 m ng val _ _ bd.inds bd.juns hbok.2 hi hj hH hH
    have h0 : (bd.inds.map fun key => -(1 / val key.el * extFlux bd.B fluxes key.bId * (Phi0 / 2 / Real.pi) / √hbar *
        (2 * placeholder bd.M hbok.1 key.edge))).sum = 0 := by
      refine List.sum_eq_zero fun x hx => ?_
      obtain ⟨key, hkey, rfl⟩ := List.mem_map.1 hx
      have : extFlux bd.B fluxes key.bId = 0 := by linarith [hi key hkey]
      rw [this]; simp
    rw [h0] at this
    simp at this
    exact this.symm
  · exact (chargeRev_ham bd.C bd.M hbok.1 m ng ng val _ bd.inds bd.juns hbok.2
      (fun i h => by rw [hng i h, neg_zero]) hH hH).symm

/-- class of a state with respect to the two reversals -/
noncomputable def parityOf (psi : Idx m → ℂ) : Bool :=
  upper (relPhase (Equiv.piCongrRight fun i => Equiv.refl (Fin (m i))) (Equiv.piCongrRight (chargeFlip bd.M.data m))
    (fun x => ∏ i, fluxSign bd.M.data m i (x i)) (fun x => ∏ i, (fun (_ : Fin bd.M.keep.length) (_ : Fin (m i)) => (1 : ℝ)) i (x i)) psi)

variable {c v0 bd m ng val fluxes H}

/-- matrix elements of odd operators between levels of the same class vanish -/
theorem parity_element (hbok : BuildOK bd)
    (hH : fullHamiltonian bd.C bd.M m ng val (extFlux bd.B fluxes) bd.inds bd.juns = .ok H)
    (hsweet : HalfQuanta bd.B bd.inds bd.juns fluxes) (hng : ∀ i, bd.M.omega i = 0 → ng i = 0)
    {V : Op m} {ε a : ℂ} (hε : ε ≠ 0) (hV : fluxRev bd.M.data m V = ε • V + a • 1)
    (hV' : chargeRev bd.M.data m V = -(ε • V)) {p q : ℕ} {psi psi' : Idx m → ℂ} (hp : IsLevel H p psi)
    (hq : IsLevel H q psi') (hpq : p ≠ q ∨ a = 0) (hpar : parityOf bd m psi = parityOf bd m psi') :
    braket psi V psi' = 0 := by
  obtain ⟨h1, h2⟩ := bias_symmetric bd m ng val fluxes H hbok hH hsweet hng
  obtain ⟨H', hH', hherm⟩ := C40_hermitian bd.C bd.M hbok.1 m ng val (extFlux bd.B fluxes) bd.inds bd.juns hbok.2
  rw [hH] at hH'
  obtain rfl := Except.ok.inj hH'
  exact odd_braket hherm h1 h2 hε hV hV' hp hq hpq hpar

/-- a sum of charge operators with real coefficients -/
theorem odd_charge (hng : ∀ i, bd.M.omega i = 0 → ng i = 0) (x : Fin bd.M.keep.length → ℝ) :
    fluxRev bd.M.data m (∑ i, ((x i : ℝ) : ℂ) • (buildMem bd.M.data m ng).Q i) =
      (1 : ℂ) • (∑ i, ((x i : ℝ) : ℂ) • (buildMem bd.M.data m ng).Q i) + (0 : ℂ) • 1 ∧
    chargeRev bd.M.data m (∑ i, ((x i : ℝ) : ℂ) • (buildMem bd.M.data m ng).Q i) =
      -((1 : ℂ) • (∑ i, ((x i : ℝ) : ℂ) • (buildMem bd.M.data m ng).Q i)) := by
  rw [one_smul, zero_smul, add_zero, map_sum, map_sum, ← Finset.sum_neg_distrib]
  constructor
  · refine Finset.sum_congr rfl fun i _ => ?_
    rw [antiTens_real, fluxRev_Q]
  · refine Finset.sum_congr rfl fun i _ => ?_
    rw [antiTens_real, chargeRev_Q bd.M.data m ng ng i (fun h => by
      have : ng i = 0 := hng i h
      rw [this, neg_zero]), smul_neg]

/-- a sum of flux operators with real coefficients -/
theorem odd_flux (x : Fin bd.M.keep.length → ℝ) : ∃ a : ℂ,
    fluxRev bd.M.data m (∑ i, ((x i : ℝ) : ℂ) • (buildMem bd.M.data m ng).phi i) =
      (-1 : ℂ) • (∑ i, ((x i : ℝ) : ℂ) • (buildMem bd.M.data m ng).phi i) + a • 1 ∧
    chargeRev bd.M.data m (∑ i, ((x i : ℝ) : ℂ) • (buildMem bd.M.data m ng).phi i) =
      -((-1 : ℂ) • (∑ i, ((x i : ℝ) : ℂ) • (buildMem bd.M.data m ng).phi i)) := by
  classical
  refine ⟨∑ i, if bd.M.omega i = 0 then 2 * ((x i : ℝ) : ℂ) else 0, ?_, ?_⟩
  · rw [neg_one_smul, Finset.sum_smul, ← Finset.sum_neg_distrib, ← Finset.sum_add_distrib, map_sum]
    refine Finset.sum_congr rfl fun i _ => ?_
    rw [antiTens_real]
    by_cases h : bd.M.omega i = 0
    · rw [phi_charge (D := bd.M.data) h, map_one, if_pos h, two_mul, add_smul]; abel
    · rw [fluxRev_phi (D := bd.M.data) h, if_neg h]; simp
  · rw [neg_one_smul, neg_neg, map_sum]
    refine Finset.sum_congr rfl fun i _ => ?_
    rw [antiTens_real, chargeRev_phi bd.M.data m ng ng i]

/-- coupling operators are odd -/
theorem odd_coupling (hbok : BuildOK bd) (hng : ∀ i, bd.M.omega i = 0 → ng i = 0) {ty : String}
    (hty : ty = "capacitive" ∨ ty = "inductive") {e : Edge} (hv : ValidEdge bd.n e) : ∃ (V : Op m) (ε a : ℂ),
    couplingOp ty bd.C bd.M (buildMem bd.M.data m ng).Q (buildMem bd.M.data m ng).phi e = .ok V ∧ ε ≠ 0 ∧
    (ty = "capacitive" → a = 0) ∧
    fluxRev bd.M.data m V = ε • V + a • 1 ∧ chargeRev bd.M.data m V = -(ε • V) := by
  have hok := couplingOp_ok hty bd.C bd.M hbok.1 (buildMem bd.M.data m ng).Q (buildMem bd.M.data m ng).phi hv
  rcases hty with rfl | rfl
  · simp only [if_true] at hok
    obtain ⟨h1, h2⟩ := odd_charge (m := m) hng (fun i => coupleAt "capacitive"
      (modeColumn "capacitive" bd.C bd.M ⟨i, lt_of_lt_of_le i.isLt hbok.1⟩) e)
    exact ⟨_, 1, 0, hok, one_ne_zero, fun _ => rfl, h1, h2⟩
  · rw [if_neg (by decide)] at hok
    obtain ⟨a, h1, h2⟩ := odd_flux (m := m) (ng := ng) (fun i => coupleAt "inductive"
      (modeColumn "inductive" bd.C bd.M ⟨i, lt_of_lt_of_le i.isLt hbok.1⟩) e)
    exact ⟨_, -1, a, hok, by simp, fun h => absurd h (by decide), h1, h2⟩

/-- loss rates with vanishing coefficients -/
theorem loss_zero (N : NoiseCirc) {p q : ℕ} {w w' : ℝ} {psi psi' : Idx N.m → ℂ}
    (hpair : N.pair (p, q) = .ok ((w, w'), (psi, psi'))) {ty : String} (hty : ty ∈ lossTypes) (hw : w ≠ w')
    (hT : 0 < N.env.T) (total : Bool) {gs : List ℝ} (hg : N.lossCoefs ty (p, q) |w' - w| psi psi' = .ok gs)
    (h0 : gs.sum = 0) : N.decRate ty (p, q) total = .ok (.val 0) := by
  rw [decRate_eq, hpair]
  simp only
  rw [rateOf_loss _ hty, hg]
  simp only [Except.map]
  have ha : thermalAlpha |w' - w| N.env.T ≠ 0 := (alpha_pos hw hT).ne'
  obtain ⟨t, ht⟩ : ∃ t, tempS (thermalAlpha |w' - w| N.env.T) ((p : ℤ), (q : ℤ)) total = some t := by
    unfold tempS thermal
    by_cases h : thermalAlpha |w' - w| N.env.T > 709
    · rw [if_pos h]
      simp only
      split
      · split
        · exact ⟨_, rfl⟩
        · exact ⟨_, rfl⟩
      · exact ⟨_, rfl⟩
    · rw [if_neg h, if_neg ha]
      simp only
      split
      · split
        · exact ⟨_, rfl⟩
        · exact ⟨_, rfl⟩
      · exact ⟨_, rfl⟩
  rw [ht, lossSum_some, h0]
  simp

variable {P : ElemId → Matrix (Fin bd.n) (Fin bd.n) ℝ} {noise : NoiseSpec bd.loops.length} {env : NoiseEnv}
    {ef : List ℝ} {ev : List (Idx m → ℂ)}

/-- matrix elements between stored levels of the same class -/
theorem parity_matrix (hbok : BuildOK bd)
    (hH : fullHamiltonian bd.C bd.M m ng val (extFlux bd.B fluxes) bd.inds bd.juns = .ok H)
    (hsweet : HalfQuanta bd.B bd.inds bd.juns fluxes) (hng : ∀ i, bd.M.omega i = 0 → ng i = 0)
    {p q : ℕ} {psi psi' : Idx m → ℂ} (hp : ev[p]? = some psi) (hq : ev[q]? = some psi')
    (hlp : IsLevel H p psi) (hlq : IsLevel H q psi') (hpar : parityOf bd m psi = parityOf bd m psi')
    {ty : String} (hty : ty = "capacitive" ∨ p ≠ q ∧ ty = "inductive") {nodes : Edge} (hv : ValidEdge bd.n nodes) :
    (bd.noise c m ng val fluxes P noise env ef ev).matrixElements ty nodes (p, q) = .ok 0 := by
  have hty' : ty = "capacitive" ∨ ty = "inductive" := hty.imp id And.right
  obtain ⟨V, ε, a, hV, hε, ha, h1, h2⟩ := odd_coupling (m := m) hbok hng hty' hv
  have hz : braket psi V psi' = 0 := parity_element hbok hH hsweet hng hε h1 h2 hlp hlq (by
    rcases hty with h | h
    · exact Or.inr (ha h)
    · exact Or.inl h.1) hpar
  have a3 : pyGet (bd.noise c m ng val fluxes P noise env ef ev).evecs (p : ℤ) = .ok psi := pyGet_of_getElem? hp
  have a4 : pyGet (bd.noise c m ng val fluxes P noise env ef ev).evecs (q : ℤ) = .ok psi' := pyGet_of_getElem? hq
  have hne : (bd.noise c m ng val fluxes P noise env ef ev).evecs.length ≠ 0 := pyGet_mem a3
  have hV' : (bd.noise c m ng val fluxes P noise env ef ev).coupling ty nodes = .ok V := hV
  unfold NoiseCirc.matrixElements
  rw [if_neg hne]
  simp only [a3, a4, hV']
  exact congrArg Except.ok ((innerOp_eq psi V psi').trans hz)

/-- rates between stored levels of the same class -/
theorem parity_rates (hs : NoSelfLoops c.els) (hbok : BuildOK bd) (hedge : ∀ x ∈ placements c.els, ValidEdge bd.n x.1)
    (hH : fullHamiltonian bd.C bd.M m ng val (extFlux bd.B fluxes) bd.inds bd.juns = .ok H)
    (hsweet : HalfQuanta bd.B bd.inds bd.juns fluxes) (hng : ∀ i, bd.M.omega i = 0 → ng i = 0)
    {p q : ℕ} {psi psi' : Idx m → ℂ} (hp : ev[p]? = some psi) (hq : ev[q]? = some psi')
    (hlp : IsLevel H p psi) (hlq : IsLevel H q psi') (hpq : p ≠ q) (hpar : parityOf bd m psi = parityOf bd m psi')
    {w w' : ℝ} (hpf : ef[p]? = some w) (hqf : ef[q]? = some w') (hw : w ≠ w') (hT : 0 < env.T) (total : Bool) :
    (bd.noise c m ng val fluxes P noise env ef ev).decRate "capacitive" (p, q) total = .ok (.val 0) ∧
    (bd.noise c m ng val fluxes P noise env ef ev).decRate "inductive" (p, q) total = .ok (.val 0) ∧
    ((∀ l, fluxes l = 0) →
      (bd.noise c m ng val fluxes P noise env ef ev).decRate "quasiparticle" (p, q) total = .ok (.val 0)) := by
  have hpair := noise_pair c bd m ng val fluxes P noise env ef ev p q psi psi' w w' hp hq hpf hqf
  refine ⟨?_, ?_, fun hz => ?_⟩
  · have key : ∀ l : List (Edge × ElemId), (∀ x ∈ l, ValidEdge bd.n x.1) → ∃ gs,
        (bd.noise c m ng val fluxes P noise env ef ev).capCoefs |w' - w| (p, q) l = .ok gs ∧ gs.sum = 0 := by
      intro l hl
      induction l with
      | nil => exact ⟨[], rfl, rfl⟩
      | cons x l ih =>
        obtain ⟨gs, hg, h0⟩ := ih (fun y hy => hl y (by simp [hy]))
        obtain ⟨edge, cap⟩ := x
        rw [NoiseCirc.capCoefs]
        cases (bd.noise c m ng val fluxes P noise env ef ev).noise.capQ cap with
        | none => exact ⟨gs, hg, h0⟩
        | some Q =>
          have := parity_matrix (c := c) (P := P) (noise := noise) (env := env) (ef := ef) hbok hH hsweet hng hp hq
            hlp hlq hpar (Or.inl rfl) (hl (edge, cap) (by simp))
          simp only [this, hg]
          exact ⟨_, rfl, by simp [h0]⟩
    obtain ⟨gs, hg, h0⟩ := key ((placements c.els).map (fun x => (x.1, capacitorOf c.O x.2))) (by
      intro x hx
      obtain ⟨y, hy, rfl⟩ := List.mem_map.1 hx
      exact hedge y hy)
    refine loss_zero _ hpair (by simp [lossTypes]) hw hT total (gs := gs) ?_ h0
    rw [← hg, ← branchCaps_eq]
    rfl
  · refine loss_zero _ hpair (by simp [lossTypes]) hw hT total
      (gs := (bd.noise c m ng val fluxes P noise env ef ev).indCoefs |w' - w| psi psi') ?_ ?_
    · unfold NoiseCirc.lossCoefs
      simp
    · refine List.sum_eq_zero fun x hx => ?_
      obtain ⟨key, hkey, hx⟩ := List.mem_filterMap.1 hx
      obtain ⟨Q, -, rfl⟩ := Option.map_eq_some_iff.1 hx
      have hkey' : key ∈ bd.inds := hkey
      obtain ⟨V, ε, a, hV, hε, -, h1, h2⟩ := odd_coupling (m := m) hbok hng (Or.inr rfl) (hbok.2 key hkey')
      have hzz : braket psi V psi' = 0 := parity_element hbok hH hsweet hng hε h1 h2 hlp hlq (Or.inl hpq) hpar
      have hop : indOpOf bd.C bd.M (buildMem bd.M.data m ng) key = V := by
        unfold indOpOf
        rw [hV]
      have hin : innerOp psi (indOpOf bd.C bd.M (buildMem bd.M.data m ng) key) psi' = 0 := by
        rw [hop, innerOp_eq, hzz]
      show 1 / Q / val key.el * ‖innerOp psi (indOpOf bd.C bd.M (buildMem bd.M.data m ng) key) psi'‖ ^ 2 = 0
      rw [hin]; simp
  · refine loss_zero _ hpair (by simp [lossTypes]) hw hT total
      (gs := (bd.noise c m ng val fluxes P noise env ef ev).qpCoefs |w' - w| psi psi') ?_ ?_
    · unfold NoiseCirc.lossCoefs
      simp
    · have hq0 : ∀ key : JunKey bd.nB bd.nJ, innerOp psi (sinHalfOp (buildMem bd.M.data m ng) key.wId
          (extFlux bd.B fluxes key.bId)) psi' = 0 := by
        intro key
        have hf : extFlux bd.B fluxes key.bId = 0 := by
          rw [extFlux_sum]
          exact Finset.sum_eq_zero fun l _ => by rw [hz l, zero_mul]
        have hzz : braket psi (sinHalfOp (buildMem bd.M.data m ng) key.wId 0) psi' = 0 :=
          parity_element hbok hH hsweet hng (ε := -1) (a := 0) (by simp)
            (by rw [fluxRev_sinHalf, neg_one_smul, zero_smul, add_zero])
            (by rw [chargeRev_sinHalf, neg_one_smul, neg_neg]) hlp hlq (Or.inl hpq) hpar
        rw [hf, innerOp_eq, hzz]
      refine List.sum_eq_zero fun x hx => ?_
      obtain ⟨key, hkey, hx⟩ := List.mem_filterMap.1 hx
      obtain ⟨Y, -, rfl⟩ := Option.map_eq_some_iff.1 hx
      show Y * |w' - w| * val key.el * hbar *
        ‖innerOp psi (sinHalfOp (buildMem bd.M.data m ng) key.wId (extFlux bd.B fluxes key.bId)) psi'‖ ^ 2 = 0
      rw [hq0 key]; simp

/-- C126, matrix elements: at symmetric bias (every charge offset zero, every loop at a multiple of half a flux quantum,
zero if its flux reaches inductors or reaches a junction in fractions of a quantum) the non-degenerate levels of a
constructed circuit fall into two classes, such that `matrix_elements` of every capacitive and every inductive coupling
between two different levels of the same class is zero; expectation values of capacitive couplings are zero. -/
theorem C126_elements (hs : NoSelfLoops c.els) (hb : buildCirc c v0 = .ok bd)
    (hH : fullHamiltonian bd.C bd.M m ng val (extFlux bd.B fluxes) bd.inds bd.juns = .ok H)
    (hsweet : HalfQuanta bd.B bd.inds bd.juns fluxes) (hng : ∀ i, bd.M.omega i = 0 → ng i = 0) :
    ∃ par : ℕ → Bool, ∀ p q psi psi', ev[p]? = some psi → ev[q]? = some psi' → IsLevel H p psi → IsLevel H q psi' →
      par p = par q → ∀ nodes, ValidEdge bd.n nodes →
      (bd.noise c m ng val fluxes P noise env ef ev).matrixElements "capacitive" nodes (p, q) = .ok 0 ∧
      (p ≠ q → (bd.noise c m ng val fluxes P noise env ef ev).matrixElements "inductive" nodes (p, q) = .ok 0) := by
  have hbok : BuildOK bd := build_valid hs hb
  refine ⟨fun p => parityOf bd m (ev.getD p 0), fun p q psi psi' hp hq hlp hlq hpar nodes hv => ?_⟩
  have e1 : ev.getD p 0 = psi := by rw [List.getD_eq_getElem?_getD, hp]; rfl
  have e2 : ev.getD q 0 = psi' := by rw [List.getD_eq_getElem?_getD, hq]; rfl
  simp only [e1, e2] at hpar
  exact ⟨parity_matrix hbok hH hsweet hng hp hq hlp hlq hpar (Or.inl rfl) hv,
    fun hpq => parity_matrix hbok hH hsweet hng hp hq hlp hlq hpar (Or.inr ⟨hpq, rfl⟩) hv⟩

end build

section session
variable {c : CircSpec} {eigs : EigsFn} {as : List ℂ → List ℕ}

/-- C126, sessions: in every reachable state at symmetric bias, the levels that the frequencies returned by `diag(num)`
show not to be degenerate fall into two classes, such that `dec_rate` of capacitive and of inductive loss, and with all
loops at zero flux also of quasiparticle loss, is zero between two levels of the same class, at every temperature and
for all quality factors. -/
theorem C126_session (he : EigsLowest eigs) (ha : CArgsortSpec as) (hs : NoSelfLoops c.els)
    (vals : ElemId → ℝ) (flux : LoopId → ℝ) (u : ℝ)
    (w0 : World (circPhys c eigs as)) (hw : construct (circPhys c eigs as) vals flux u = .ok w0)
    (h : List Act) (hh : Orderly w0 h) (hm : (run w0 h).circ.m ≠ []) (num : ℕ)
    (hdim : num + 1 < Fintype.card (Idx ((run w0 h).circ.bd.dims (run w0 h).circ.m)))
    (hsweet : HalfQuanta (run w0 h).circ.bd.B (run w0 h).circ.bd.inds (run w0 h).circ.bd.juns
      (fun l => (run w0 h).flux ((run w0 h).circ.bd.loops.get l)))
    (hng : ∀ i, (run w0 h).circ.bd.M.omega i = 0 → ((run w0 h).circ.ng i).getD 0 = 0) :
    ∃ par : ℕ → Bool, ∀ p q, p + 1 < num → q + 1 < num → p ≠ q → SimpleLevel (reported num (run w0 h)) p →
      SimpleLevel (reported num (run w0 h)) q → par p = par q →
      ∀ (noise : ObjNoise) (env : NoiseEnv) (total : Bool), 0 < env.T →
      sessionRate noise env "capacitive" (p, q) total (run w0 (h ++ [.diag (some num)])) = some (.ok (.val 0)) ∧
      sessionRate noise env "inductive" (p, q) total (run w0 (h ++ [.diag (some num)])) = some (.ok (.val 0)) ∧
      ((∀ l ∈ (run w0 h).circ.bd.loops, (run w0 h).flux l = 0) →
        sessionRate noise env "quasiparticle" (p, q) total (run w0 (h ++ [.diag (some num)])) = some (.ok (.val 0))) := by
  by_cases hnum : 1 ≤ num
  swap
  · exact ⟨fun _ => true, fun p q hp => by omega⟩
  obtain ⟨hbok, -, -, hham⟩ := ham_now hs hw hh hm
  obtain ⟨-, hedges⟩ := edges_now hs hw hh
  obtain ⟨H, hH, hherm⟩ := C40_hermitian (run w0 h).circ.bd.C (run w0 h).circ.bd.M hbok.1
    ((run w0 h).circ.bd.dims (run w0 h).circ.m) (fun i => ((run w0 h).circ.ng i).getD 0) (run w0 h).vals
    ((run w0 h).circ.bd.fluxes (run w0 h).flux) (run w0 h).circ.bd.inds (run w0 h).circ.bd.juns hbok.2
  have hham' := hham (run w0 h) rfl
  rw [hH] at hham'
  obtain ⟨vs, ws, ev, w', hlev, hd, hef, hevs, hlen, heig⟩ := diag_lowest he ha hm hham' hherm num hnum hdim
  have hd2 : (diag (some (num : ℤ)) (run w0 h)).2 = w' := congrArg Prod.snd hd
  have hwl : num ≤ ws.length := by rw [hlev.len, hlev.card]; omega
  have hefl : w'.circ.efreqs.length = num := by
    rw [hef, List.length_take]; omega
  have hrep : reported num (run w0 h) = (ws.take num).map (fun f => f / (2 * Real.pi * (run w0 h).unitFreq)) :=
    reported_ok (congrArg Prod.fst hd)
  refine ⟨fun p => parityOf (run w0 h).circ.bd _ (ev.getD p 0), ?_⟩
  intro p q hp hq hpq hsp hsq hpar noise env total hT
  rw [hrep] at hsp hsq
  have hs1 := simple_of_take hlev.sorted hp hwl hsp
  have hs2 := simple_of_take hlev.sorted hq hwl hsq
  have hp' : ev[p]? = some (ev.getD p 0) := by
    rw [List.getD_eq_getElem?_getD, List.getElem?_eq_getElem (by omega)]; rfl
  have hq' : ev[q]? = some (ev.getD q 0) := by
    rw [List.getD_eq_getElem?_getD, List.getElem?_eq_getElem (by omega)]; rfl
  have hlp : IsLevel H p (ev.getD p 0) := ⟨(heig p _ hp').1, vs, ws, hlev, hs1, (heig p _ hp').2⟩
  have hlq : IsLevel H q (ev.getD q 0) := ⟨(heig q _ hq').1, vs, ws, hlev, hs2, (heig q _ hq').2⟩
  have hpf : w'.circ.efreqs[p]? = some ws[p] := by
    rw [hef, List.getElem?_take_of_lt (by omega), List.getElem?_eq_getElem]
  have hqf : w'.circ.efreqs[q]? = some ws[q] := by
    rw [hef, List.getElem?_take_of_lt (by omega), List.getElem?_eq_getElem]
  have hne : ws[p] ≠ ws[q] := by
    intro h0
    refine hs1.2 q hs2.1 hpq.symm ?_
    rw [List.getElem?_eq_getElem hs2.1, List.getElem?_eq_getElem hs1.1, h0]
  have hses := fun ty => C112_session hs vals flux u w0 hw h hh noise env ty (p, q) total num ⟨_, congrArg Prod.fst hd⟩
    (by
      rw [hd2]
      intro h0
      rw [h0] at hefl
      simp at hefl
      omega) ev (by rw [hd2, hevs])
  have hval := parity_rates (c := c) (P := fun _ => 0)
    (noise := noise.spec (run w0 h).circ.bd.loops (run w0 h).circ.islands) (env := env) hs hbok (by
      intro x hx
      obtain ⟨y, hy, hxy⟩ := List.mem_flatMap.1 hx
      obtain ⟨i, hi, rfl⟩ := List.mem_map.1 hxy
      exact hedges y hy) hH hsweet hng hp' hq' hlp hlq hpq hpar hpf hqf hne hT total
  rw [run_snoc]
  show sessionRate noise env "capacitive" (p, q) total (diag (some (num : ℤ)) (run w0 h)).2 = _ ∧
    sessionRate noise env "inductive" (p, q) total (diag (some (num : ℤ)) (run w0 h)).2 = _ ∧
    (_ → sessionRate noise env "quasiparticle" (p, q) total (diag (some (num : ℤ)) (run w0 h)).2 = _)
  rw [hses, hses, hses, hd2]
  exact ⟨congrArg some hval.1, congrArg some hval.2.1, fun hz => congrArg some (hval.2.2 fun l =>
    hz _ (List.get_mem _ _))⟩

/-- C126, three levels: in every reachable state at symmetric bias, among any three levels that `diag(num)` shows not to
be degenerate there are two between which capacitive and inductive loss are absent, whatever the quality factors. -/
theorem C126_three (he : EigsLowest eigs) (ha : CArgsortSpec as) (hs : NoSelfLoops c.els)
    (vals : ElemId → ℝ) (flux : LoopId → ℝ) (u : ℝ)
    (w0 : World (circPhys c eigs as)) (hw : construct (circPhys c eigs as) vals flux u = .ok w0)
    (h : List Act) (hh : Orderly w0 h) (hm : (run w0 h).circ.m ≠ []) (num : ℕ)
    (hdim : num + 1 < Fintype.card (Idx ((run w0 h).circ.bd.dims (run w0 h).circ.m)))
    (hsweet : HalfQuanta (run w0 h).circ.bd.B (run w0 h).circ.bd.inds (run w0 h).circ.bd.juns
      (fun l => (run w0 h).flux ((run w0 h).circ.bd.loops.get l)))
    (hng : ∀ i, (run w0 h).circ.bd.M.omega i = 0 → ((run w0 h).circ.ng i).getD 0 = 0)
    (lv : Fin 3 → ℕ) (hinj : Function.Injective lv) (hlv : ∀ i, lv i + 1 < num)
    (hsim : ∀ i, SimpleLevel (reported num (run w0 h)) (lv i)) :
    ∃ i j, i ≠ j ∧ ∀ (noise : ObjNoise) (env : NoiseEnv) (total : Bool), 0 < env.T →
      sessionRate noise env "capacitive" (lv i, lv j) total (run w0 (h ++ [.diag (some num)])) = some (.ok (.val 0)) ∧
      sessionRate noise env "inductive" (lv i, lv j) total (run w0 (h ++ [.diag (some num)])) = some (.ok (.val 0)) := by
  obtain ⟨par, hpar⟩ := C126_session he ha hs vals flux u w0 hw h hh hm num hdim hsweet hng
  obtain ⟨i, j, hij, he⟩ := Fintype.exists_ne_map_eq_of_card_lt (fun i => par (lv i)) (by simp)
  refine ⟨i, j, hij, fun noise env total hT => ?_⟩
  obtain ⟨h1, h2, -⟩ := hpar (lv i) (lv j) (hlv i) (hlv j) (fun h => hij (hinj h)) (hsim i) (hsim j) he noise env total hT
  exact ⟨h1, h2⟩

end session
end SQ
