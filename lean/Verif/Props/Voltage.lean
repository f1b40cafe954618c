import Verif.Lemmas.Voltage
import Verif.Props.Reground
import Verif.Props.GoldenRule
import Verif.Props.DephasingSession
import Verif.Props.SweepLoss
import Verif.Props.ResonatorLoss

/-!
# C127: capacitive loss of circuits of junctions and capacitors
-/

namespace SQ
open Matrix Spec

variable {c : CircSpec} {eigs : EigsFn} {as : List ℂ → List ℕ} {n : ℕ}

theorem tempS_weight {a : ℝ} (h0 : 0 < a) (p q : ℕ) (total : Bool) :
    tempS a ((p : ℤ), (q : ℤ)) total = some (lossWeight a p q total) := by
  unfold lossWeight
  by_cases h : a ≤ 709
  · rw [if_pos h]
    exact tempS_lossFactor h0 h p q total
  · rw [if_neg h]
    unfold tempS thermal
    rw [if_pos (not_le.1 h)]
    cases total
    · simp only [if_true, Bool.false_eq_true, false_or, gt_iff_lt, Nat.cast_lt]
      split <;> rfl
    · simp

/-- the circuit as it is now is the one the current values describe -/
theorem isl_now (hi : IslandCircuit c n) (hr : RoutinesOK c) (hcaps : CapsOK c.O) {vals : ElemId → ℝ}
    (hv : IslandValues c n vals) {flux : LoopId → ℝ} {u : ℝ}
    {w0 : World (circPhys c eigs as)} (hw : construct (circPhys c eigs as) vals flux u = .ok w0)
    {hist : List Act} (hord : Orderly w0 hist)
    (hupd : ∀ h1 h2, hist = h1 ++ .update :: h2 → IslandValues c n (run w0 h1).vals)
    (hlast : ∀ i, (c.O.elem i).kind ≠ .jj → (run w0 hist).vals i = lastBuilt vals w0 hist i) :
    buildCirc c (run w0 hist).vals = .ok (run w0 hist).circ.bd := by
  obtain ⟨b, hb, -, hk, -⟩ := C93_constructed c n hi hr vals hv
  have hb0 : buildCirc c vals = .ok w0.circ.bd := (construct_build hw).1
  have hrem : NoRemoval c w0 hist := by
    intro h1 h2 he
    right
    constructor
    · have : w0.circ.bd = b := by rw [hb] at hb0; exact (Except.ok.inj hb0).symm
      rw [this, hi.nodes]
      exact congrArg _ hk.symm
    · intro b' hb'
      obtain ⟨b'', hb'', -, hk', -⟩ := C93_constructed c n hi hr _ (hupd h1 h2 he)
      have : b' = b'' := by rw [hb''] at hb'; exact (Except.ok.inj hb').symm
      subst this
      obtain ⟨n', a, B, t, hn', htr, hB, ht, rfl⟩ := buildCirc_stages hb'
      have hnn : n' = n := by rw [hi.nodes] at hn'; exact (Except.ok.inj hn').symm
      exact hk'.trans hnn.symm
  have hre : ∀ h1 h2, hist = h1 ++ .update :: h2 →
      (circPhys c eigs as).rebuild ((circPhys c eigs as).nModes (run w0 h1).circ.bd)
        (run w0 h1).vals = (circPhys c eigs as).build (run w0 h1).vals := by
    intro h1 h2 he
    subst he
    exact rebuild_at hw h1 h2 hrem
  have hcoh := coherent_run (P := circPhys c eigs as) (fun v bd => buildCirc c v = .ok bd) hist w0 vals
    (coherent_construct hw fun _ hb => hb) hord (fun h1 h2 he bd hbd => (hre h1 h2 he).symm.trans hbd)
  exact (buildCirc_congr c hcaps (fun i hi => (hlast i hi).symm)).trans hcoh.1

theorem noise_weight (N : NoiseCirc) {p q : ℕ} {w w' : ℝ} {psi psi' : Idx N.m → ℂ}
    (hpair : N.pair (p, q) = .ok ((w, w'), (psi, psi')))
    {ty : String} (hty : ty ∈ lossTypes) (hw : w ≠ w') (hT : 0 < N.env.T) (total : Bool) {gs : List ℝ}
    (hg : N.lossCoefs ty (p, q) |w' - w| psi psi' = .ok gs) :
    N.decRate ty (p, q) total =
      .ok (.val (lossWeight (hbar * |w' - w| / (kB * N.env.T)) p q total * gs.sum)) := by
  rw [decRate_eq, hpair]
  simp only
  rw [rateOf_loss _ hty, hg]
  simp only [Except.map]
  have : tempS (thermalAlpha |w' - w| N.env.T)
      ((p : ℤ), (q : ℤ)) total = some (lossWeight (hbar * |w' - w| / (kB * N.env.T)) p q total) :=
    tempS_weight (alpha_pos hw hT) p q total
  rw [this, lossSum_some, zero_add]

/-- capacitive loss from the coupling operators -/
theorem cap_rate_value (bd : Build) (m : Fin bd.M.keep.length → ℕ) (ng : Fin bd.M.keep.length → ℝ) (val : ElemId → ℝ)
    (fluxes : Fin bd.loops.length → ℝ) (P : ElemId → Matrix (Fin bd.n) (Fin bd.n) ℝ) (noise : ObjNoise)
    (islands : ℕ → Option ChargeObj) (env : NoiseEnv) (ef : List ℝ) (ev : List (Idx m → ℂ)) (p q : ℕ)
    (psi psi' : Idx m → ℂ) (w w' : ℝ) (V : Edge → Op m)
    (hV : ∀ x ∈ placements c.els, couplingOp "capacitive" bd.C bd.M (buildMem bd.M.data m ng).Q
        (buildMem bd.M.data m ng).phi x.1 = .ok (V x.1))
    (hp : ev[p]? = some psi) (hq : ev[q]? = some psi') (hpf : ef[p]? = some w) (hqf : ef[q]? = some w')
    (hw : w ≠ w') (hT : 0 < env.T) (total : Bool) :
    (bd.noise c m ng val fluxes P (noise.spec bd.loops islands) env ef ev).decRate "capacitive" (p, q) total =
        .ok (.val (lossWeight (hbar * |w' - w| / (kB * env.T)) p q total *
          ((placements c.els).map (capacitorLoss c.O noise val |w' - w| psi psi' V)).sum)) := by
  have hpair := noise_pair c bd m ng val fluxes P (noise.spec bd.loops islands) env ef ev p q psi psi' w w' hp hq hpf hqf
  obtain ⟨-, -, -, h3, h4⟩ := pair_ok hpair
  obtain ⟨gs, hg, hsum⟩ := capCoefs_sum (bd.noise c m ng val fluxes P (noise.spec bd.loops islands) env ef ev) (pyGet_mem h3) h3 h4
    |w' - w| V ((placements c.els).map (fun x => (x.1, capacitorOf c.O x.2))) (by
      intro x hx
      obtain ⟨y, hy, rfl⟩ := List.mem_map.1 hx
      exact hV y hy)
  have hg' : (bd.noise c m ng val fluxes P (noise.spec bd.loops islands) env ef ev).lossCoefs "capacitive" (p, q) |w' - w| psi psi' =
      .ok gs := by
    rw [← hg, ← branchCaps_eq]
    rfl
  refine (noise_weight _ hpair (by simp [lossTypes]) hw hT total hg').trans ?_
  rw [hsum, List.map_map]
  rfl

theorem loss_congr (O : Objs) (noise : ObjNoise) (val : ElemId → ℝ) (omega : ℝ) {ι κ : Type*} [Fintype ι] [Fintype κ]
    {s s' : ι → ℂ} {t t' : κ → ℂ} {V : Edge → Matrix ι ι ℂ} {W : Edge → Matrix κ κ ℂ} {x y : Edge × ElemId}
    (hxy : y.2 = x.2) (h : ‖braket s (V x.1) s'‖ = ‖braket t (W y.1) t'‖) :
    capacitorLoss O noise val omega s s' V x = capacitorLoss O noise val omega t t' W y := by
  unfold capacitorLoss
  rw [hxy, h]

/-- C127: the state a circuit of junctions and capacitors is in after any history, with the rates `dec_rate` gives for
capacitive loss after `diag`: golden rule sums with the voltages across the capacitors. -/
theorem C127_formula (he : EigsLowest eigs) (ha : CArgsortSpec as) (hi : IslandCircuit c n) (hr : RoutinesOK c)
    (hcaps : CapsOK c.O) (vals : ElemId → ℝ) (hv : IslandValues c n vals) (flux : LoopId → ℝ) (u : ℝ)
    (w0 : World (circPhys c eigs as)) (hw : construct (circPhys c eigs as) vals flux u = .ok w0)
    (hist : List Act) (hord : Orderly w0 hist)
    (hupd : ∀ h1 h2, hist = h1 ++ .update :: h2 → IslandValues c n (run w0 h1).vals) :
    let w := run w0 hist
    (∀ i, (c.O.elem i).kind ≠ .jj → w.vals i = lastBuilt vals w0 hist i) → IslandValues c n w.vals → w.circ.m ≠ [] →
    ∃ (k : ℕ) (d : Fin k → ℕ) (σ : Fin (junctionEdges c.O c.els).length ≃ Fin k), k = n ∧
      (∀ i, d i = (w.circ.m.getD i 0).toNat) ∧
      (∀ i j, junctionInvCap (c.O.withVals w.vals) c.els n j j < junctionInvCap (c.O.withVals w.vals) c.els n i i →
        σ i < σ j) ∧
      (hamiltonian w).1 = .ok ⟨k, d, islandHamiltonian σ (junctionInvCap (c.O.withVals w.vals) c.els n)
        (fun i => edgeEJ c.O c.els w.vals ((junctionEdges c.O c.els).get i)) d (fun p => (w.circ.ng p).getD 0)⟩ ∧
      ∀ num : ℕ, 1 ≤ num → num + 1 < Fintype.card (Idx d) →
        ∃ (vs : List (Idx d → ℂ)) (ws : List ℝ) (ev : List (Idx d → ℂ)),
          Levels (islandHamiltonian σ (junctionInvCap (c.O.withVals w.vals) c.els n)
              (fun i => edgeEJ c.O c.els w.vals ((junctionEdges c.O c.els).get i)) d
              (fun p => (w.circ.ng p).getD 0)) vs ws ∧
          (diag (some num) w).1 = .ok ((ws.take num).map (fun f => f / (2 * Real.pi * w.unitFreq)),
            ev.map (fun v => ⟨k, d, v⟩)) ∧ ev.length = num ∧
          (∀ i v, ev[i]? = some v → overlap v v = 1 ∧
            (islandHamiltonian σ (junctionInvCap (c.O.withVals w.vals) c.els n)
              (fun i => edgeEJ c.O c.els w.vals ((junctionEdges c.O c.els).get i)) d
              (fun p => (w.circ.ng p).getD 0)) *ᵥ v = ((ws.getD i 0 : ℝ) : ℂ) • v) ∧
          ∀ (p q : ℕ) (psi psi' : Idx d → ℂ), ev[p]? = some psi → ev[q]? = some psi' → ws.getD p 0 ≠ ws.getD q 0 →
            ∀ (noise : ObjNoise) (env : NoiseEnv) (total : Bool), 0 < env.T →
            sessionRate noise env "capacitive" (p, q) total (diag (some num) w).2 = some (.ok (.val (
              lossWeight (hbar * |ws.getD q 0 - ws.getD p 0| / (kB * env.T)) p q total *
                ((placements c.els).map (capacitorLoss c.O noise w.vals |ws.getD q 0 - ws.getD p 0| psi psi'
                  (voltage (c.O.withVals w.vals) c.els n σ d (fun p => (w.circ.ng p).getD 0)))).sum))) := by
  intro w hlast hval hm0
  have hb := isl_now hi hr hcaps hv hw hord hupd hlast
  obtain ⟨hbn, hk, σ, hC, -, hR, hom, hσ, hH⟩ := isl_built_ord hi hr hval hb
  obtain ⟨-, -, -, hham⟩ := ham_now hi.noSelf hw hord hm0
  have hham' := hham (run w0 hist) rfl
  rw [hH] at hham'
  obtain ⟨H1, e1, hherm⟩ := C40_circuit hi.noSelf vals flux u _ hw hist hord hm0
  rw [hham'] at e1
  obtain rfl := Except.ok.inj e1
  refine ⟨_, (run w0 hist).circ.bd.dims (run w0 hist).circ.m, σ, hk.trans hbn, fun _ => rfl, hσ, hham', ?_⟩
  intro num h1 hnum
  obtain ⟨vs, ws, ev, w', hlev, hd, hef, hevs, hlen, heig⟩ := diag_lowest he ha hm0 hham' hherm num h1 hnum
  refine ⟨vs, ws, ev, hlev, congrArg Prod.fst hd, hlen, heig, ?_⟩
  intro p q psi psi' hp hq hne noise env total hT
  have hd2 : (diag (some (num : ℤ)) (run w0 hist)).2 = w' := congrArg Prod.snd hd
  have hwl : num ≤ ws.length := by rw [hlev.len, hlev.card]; omega
  have hefl : w'.circ.efreqs.length = num := by
    rw [hef, List.length_take]; omega
  have hpn : p < num := by rw [← hlen]; exact (List.getElem?_eq_some_iff.1 hp).1
  have hqn : q < num := by rw [← hlen]; exact (List.getElem?_eq_some_iff.1 hq).1
  have hget : ∀ p, p < num → w'.circ.efreqs[p]? = some (ws.getD p 0) := by
    intro p hp
    rw [hef, List.getElem?_take_of_lt hp, List.getD_eq_getElem?_getD, List.getElem?_eq_getElem (by omega)]
    rfl
  have hses := C112_session hi.noSelf vals flux u w0 hw hist hord noise env "capacitive" (p, q) total num
    ⟨_, congrArg Prod.fst hd⟩ (by
      rw [hd2]
      intro h0
      rw [h0] at hefl
      simp at hefl
      omega) ev (by rw [hd2, hevs])
  rw [hd2] at hses
  show sessionRate noise env "capacitive" (p, q) total (diag (some (num : ℤ)) (run w0 hist)).2 = _
  rw [hd2, hses]
  congr 1
  refine (cap_rate_value _ _ _ _ _ _ noise _ env _ ev p q psi psi' _ _
    (fun e => (voltSign e : ℂ) • voltage (c.O.withVals w.vals) c.els n σ
      ((run w0 hist).circ.bd.dims (run w0 hist).circ.m) (fun p => (w.circ.ng p).getD 0) e) ?_ hp hq
      (hget p hpn) (hget q hqn) hne hT total).trans ?_
  · intro x hx
    refine isl_coupling (O := c.O.withVals w.vals) hbn hk σ hC hR hom _ _ ?_
    obtain ⟨y, hy, hxy⟩ := List.mem_flatMap.1 hx
    obtain ⟨i, -, rfl⟩ := List.mem_map.1 hxy
    exact hi.valid y hy
  · congr 3
    refine congrArg List.sum (List.map_congr_left fun x _ => ?_)
    refine loss_congr c.O noise _ _ rfl ?_
    rw [braket_smul, norm_mul]
    have : ‖((voltSign x.1 : ℝ) : ℂ)‖ = 1 := by
      rcases voltSign_sq x.1 with h | h <;> rw [h] <;> simp
    rw [this, one_mul]

/-- renumbering and reversing modes turns the voltage operators of one circuit into those of the other -/
theorem rel_voltage {k k' : ℕ} (π : Fin k ≃ Fin k') (r : Fin k → Bool) (m : Fin k' → ℕ) {O : Objs} {els els' : Elements}
    (σ : Fin (junctionEdges O els).length ≃ Fin k) (σ' : Fin (junctionEdges O els').length ≃ Fin k')
    (τ : Fin (junctionEdges O els).length ≃ Fin (junctionEdges O els').length) (hπ : ∀ i, π (σ i) = σ' (τ i))
    (ng : Fin k → ℝ) (ng' : Fin k' → ℝ) (hng : ∀ a, ng' (π a) = flipSign (r a) * ng a) {e e' : Edge} {s : ℝ}
    (hG : ∀ i, edgeInvCap O els' n e' ((junctionEdges O els').get (τ i)) =
      s * flipSign (r (σ i)) * edgeInvCap O els n e ((junctionEdges O els).get i)) :
    voltage O els' n σ' m ng' e' = (s : ℂ) • (voltage O els n σ (fun a => m (π a)) ng e).submatrix (relIdx π r m) (relIdx π r m) := by
  unfold voltage
  have hsum : ∀ {α : Type} (S : Finset α) (f : α → Op fun a => m (π a)),
      (∑ i ∈ S, f i).submatrix (relIdx π r m) (relIdx π r m) = ∑ i ∈ S, (f i).submatrix (relIdx π r m) (relIdx π r m) := by
    intro α S f
    ext x y
    simp only [submatrix_apply, Matrix.sum_apply]
  have hsm : ∀ (z : ℂ) (A : Op fun a => m (π a)), (z • A).submatrix (relIdx π r m) (relIdx π r m) =
      z • A.submatrix (relIdx π r m) (relIdx π r m) := fun z A => rfl
  rw [hsm, hsum, ← τ.sum_comp, smul_comm]
  congr 1
  rw [Finset.smul_sum]
  refine Finset.sum_congr rfl fun i _ => ?_
  rw [hsm, rel_pairs π r m ng ng' hng, hG, hπ, smul_smul, smul_smul]
  congr 1
  push_cast
  ring

theorem braket_carried {ι κ : Type*} [Fintype ι] [Fintype κ] (e : κ ≃ ι) {u v : ι → ℂ} {u' v' : κ → ℂ} {y z : ℂ} (hy : ‖y‖ = 1)
    (hz : ‖z‖ = 1) (hu : u' = y • (fun x => u (e x))) (hv : v' = z • fun x => v (e x)) (A : Matrix ι ι ℂ) :
    ‖braket u' (A.submatrix e e) v'‖ = ‖braket u A v‖ := by
  have h : braket u' (A.submatrix e e) v' = (starRingEnd ℂ) y * z * braket u A v := by
    unfold braket
    rw [hu, hv, ← e.sum_comp, Finset.mul_sum]
    refine Finset.sum_congr rfl fun a _ => ?_
    rw [← e.sum_comp, Finset.mul_sum]
    refine Finset.sum_congr rfl fun b _ => ?_
    simp only [Pi.smul_apply, smul_eq_mul, map_mul, submatrix_apply]
    ring
  rw [h, norm_mul, norm_mul, Complex.norm_conj, hy, hz, one_mul, one_mul]

/-- the eigenvector of a non-degenerate level, carried over -/
theorem level_carried {ι κ : Type*} [Fintype ι] [Fintype κ] [DecidableEq ι] [DecidableEq κ] (e : κ ≃ ι) {H : Matrix ι ι ℂ}
    {H' : Matrix κ κ ℂ} (hH' : H'.IsHermitian) (hrel : H.submatrix e e = H') {vs' : List (κ → ℂ)} {ws : List ℝ}
    (hl : Levels H' vs' ws) {p : ℕ} (hs : SimpleLevel ws p) {psi : ι → ℂ} {psi' : κ → ℂ} (hn : overlap psi psi = 1)
    (hn' : overlap psi' psi' = 1) (he : H *ᵥ psi = ((ws.getD p 0 : ℝ) : ℂ) • psi)
    (he' : H' *ᵥ psi' = ((ws.getD p 0 : ℝ) : ℂ) • psi') :
    ∃ z : ℂ, ‖z‖ = 1 ∧ psi' = z • fun x => psi (e x) := by
  have h1 : overlap (fun x => psi (e x)) (fun x => psi (e x)) = 1 := by
    rw [← hn]
    unfold overlap
    exact e.sum_comp (fun x => (starRingEnd ℂ) (psi x) * psi x)
  have h2 : H' *ᵥ (fun x => psi (e x)) = ((ws.getD p 0 : ℝ) : ℂ) • fun x => psi (e x) := by
    rw [← hrel]
    funext x
    have := congrFun he (e x)
    simp only [mulVec, dotProduct, submatrix_apply, Pi.smul_apply] at this ⊢
    rw [← this]
    exact e.sum_comp (fun y => H (e x) y * psi y)
  obtain ⟨y, hy, e1⟩ := simple_phase hH' hl hs hn' he'
  obtain ⟨z, hz, e2⟩ := simple_phase hH' hl hs h1 h2
  have hz0 : z ≠ 0 := by rintro rfl; simp at hz
  refine ⟨y * z⁻¹, by rw [norm_mul, norm_inv, hy, hz]; norm_num, ?_⟩
  rw [e2, smul_smul, mul_assoc, inv_mul_cancel₀ hz0, mul_one]
  exact e1

/-- C127: let two dictionaries of junctions and capacitors hold the same elements on edges that differ by a renumbering of all
the nodes (another node may be ground), by directions and by order. Then there are a correspondence `π` of the modes (the
identity, if the charging energies of the edges are all different) and signs `s` such that in any two reachable states with
the same element values and unit, with the same truncation numbers and offset charges of corresponding modes up to the signs,
`dec_rate` gives the same capacitive loss between any two states whose levels are not degenerate. -/
theorem C127_islands {c' : CircSpec} {eigs' : EigsFn} {as' : List ℂ → List ℕ}
    (he : EigsLowest eigs) (ha : CArgsortSpec as) (he' : EigsLowest eigs') (ha' : CArgsortSpec as')
    (hi : IslandCircuit c n) (hi' : IslandCircuit c' n) (hr : RoutinesOK c) (hr' : RoutinesOK c') (hO : c'.O = c.O)
    (hcaps : CapsOK c.O) (ρ : Equiv.Perm (Fin (n + 1))) (hren : Regrounded ρ c.els c'.els)
    (vals vals' : ElemId → ℝ) (hv : IslandValues c n vals) (hv' : IslandValues c n vals') (flux flux' : LoopId → ℝ) (u u' : ℝ)
    (w0 : World (circPhys c eigs as)) (hw : construct (circPhys c eigs as) vals flux u = .ok w0)
    (w0' : World (circPhys c' eigs' as')) (hw' : construct (circPhys c' eigs' as') vals' flux' u' = .ok w0')
    (h h' : List Act) (hh : Orderly w0 h) (hh' : Orderly w0' h')
    (hup : ∀ h1 h2, h = h1 ++ .update :: h2 → IslandValues c n (run w0 h1).vals)
    (hup' : ∀ h1 h2, h' = h1 ++ .update :: h2 → IslandValues c n (run w0' h1).vals) :
    let w := run w0 h
    let w' := run w0' h'
    (∀ i, (c.O.elem i).kind ≠ .jj → w.vals i = lastBuilt vals w0 h i) →
    (∀ i, (c.O.elem i).kind ≠ .jj → w'.vals i = lastBuilt vals' w0' h' i) →
    IslandValues c n w.vals → w'.vals = w.vals → w.circ.m ≠ [] → w'.circ.m ≠ [] →
    ∃ (π : Equiv.Perm (Fin n)) (s : Fin n → ℝ), (∀ i, s i = 1 ∨ s i = -1) ∧
      ((∀ i j, i ≠ j → junctionInvCap (c.O.withVals w.vals) c.els n i i ≠ junctionInvCap (c.O.withVals w.vals) c.els n j j) → π = 1) ∧
      ((∀ i : Fin n, w'.circ.m.getD (π i) 0 = w.circ.m.getD i 0) →
       (∀ i : Fin n, (w'.circ.ng (π i)).getD 0 = s i * (w.circ.ng i).getD 0) →
       ∀ num p q : ℕ, p + 1 < num → q + 1 < num → num + 1 < ∏ i : Fin n, (w.circ.m.getD i 0).toNat → p ≠ q →
       SimpleLevel (reported num w) p → SimpleLevel (reported num w) q →
       ∀ (noise : ObjNoise) (env : NoiseEnv) (total : Bool), 0 < env.T →
         ∃ x : ℝ, sessionRate noise env "capacitive" (p, q) total (diag (some num) w).2 = some (.ok (.val x)) ∧
           sessionRate noise env "capacitive" (p, q) total (diag (some num) w').2 = some (.ok (.val x))) := by
  intro w w' hl hl' hval hvv hm0 hm0'
  have hren0 := reground_corr hi hi' hO hren
  obtain ⟨k, d, σ1, rfl, hd, hord, -, hF⟩ := C127_formula he ha hi hr hcaps vals hv flux u w0 hw h hh hup hl hval hm0
  obtain ⟨k', d', σ2, hk', hd', hord', hham2, hF'⟩ := C127_formula he' ha' hi' hr' (by rw [hO]; exact hcaps) vals'
    (corr_values hO hren0 hv') flux' u' w0' hw' h' hh' (fun h1 h2 e => corr_values hO hren0 (hup' h1 h2 e))
    (by rw [hO]; exact hl') (by
      show IslandValues c' k w'.vals
      rw [hvv]; exact corr_values hO hren0 hval) hm0'
  subst hk'
  have hv1 : (run w0' h').vals = (run w0 h).vals := hvv
  change (hamiltonian (run w0' h')).1 = _ at hham2
  rw [hv1] at hord' hF' hham2
  change ∀ i, d i = ((run w0 h).circ.m.getD i 0).toNat at hd
  change ∀ i, d' i = ((run w0' h').circ.m.getD i 0).toNat at hd'
  obtain ⟨τ, r, hinc, hG, hE⟩ := reground_edges (O := c.O) hren hi.valid hi'.valid hi.indep
    (by have := hi'.indep; rwa [hO] at this) (hi.square.trans (by have := hi'.square; rw [hO] at this; exact this.symm))
    (run w0 h).vals
  have hF2 : ∃ σ3 : Fin (junctionEdges c.O c'.els).length ≃ Fin k',
      (∀ i j, junctionInvCap (c.O.withVals (run w0 h).vals) c'.els k' j j <
        junctionInvCap (c.O.withVals (run w0 h).vals) c'.els k' i i → σ3 i < σ3 j) ∧
      (hamiltonian (run w0' h')).1 = .ok ⟨k', d', islandHamiltonian σ3 (junctionInvCap (c.O.withVals (run w0 h).vals) c'.els k')
        (fun i => edgeEJ c.O c'.els (run w0 h).vals ((junctionEdges c.O c'.els).get i)) d'
        (fun p => ((run w0' h').circ.ng p).getD 0)⟩ ∧
      ∀ num : ℕ, 1 ≤ num → num + 1 < Fintype.card (Idx d') →
        ∃ (vs : List (Idx d' → ℂ)) (ws : List ℝ) (ev : List (Idx d' → ℂ)),
          Levels (islandHamiltonian σ3 (junctionInvCap (c.O.withVals (run w0 h).vals) c'.els k')
              (fun i => edgeEJ c.O c'.els (run w0 h).vals ((junctionEdges c.O c'.els).get i)) d'
              (fun p => ((run w0' h').circ.ng p).getD 0)) vs ws ∧
          (diag (some num) (run w0' h')).1 = .ok ((ws.take num).map (fun f => f / (2 * Real.pi * (run w0' h').unitFreq)),
            ev.map (fun v => ⟨k', d', v⟩)) ∧ ev.length = num ∧
          (∀ i v, ev[i]? = some v → overlap v v = 1 ∧
            (islandHamiltonian σ3 (junctionInvCap (c.O.withVals (run w0 h).vals) c'.els k')
              (fun i => edgeEJ c.O c'.els (run w0 h).vals ((junctionEdges c.O c'.els).get i)) d'
              (fun p => ((run w0' h').circ.ng p).getD 0)) *ᵥ v = ((ws.getD i 0 : ℝ) : ℂ) • v) ∧
          ∀ (p q : ℕ) (psi psi' : Idx d' → ℂ), ev[p]? = some psi → ev[q]? = some psi' → ws.getD p 0 ≠ ws.getD q 0 →
            ∀ (noise : ObjNoise) (env : NoiseEnv) (total : Bool), 0 < env.T →
            sessionRate noise env "capacitive" (p, q) total (diag (some num) (run w0' h')).2 = some (.ok (.val (
              lossWeight (hbar * |ws.getD q 0 - ws.getD p 0| / (kB * env.T)) p q total *
                ((placements c'.els).map (capacitorLoss c.O noise (run w0 h).vals |ws.getD q 0 - ws.getD p 0| psi psi'
                  (voltage (c.O.withVals (run w0 h).vals) c'.els k' σ3 d' (fun p => ((run w0' h').circ.ng p).getD 0)))).sum))) := by
    rw [← hO]
    exact ⟨σ2, hord', hham2, hF'⟩
  clear hF' hord' hham2
  obtain ⟨σ3, hord', hham2, hF'⟩ := hF2
  let π : Equiv.Perm (Fin k') := (σ1.symm.trans τ).trans σ3
  have hπ : ∀ i, π (σ1 i) = σ3 (τ i) := by
    intro i
    simp [π]
  refine ⟨π, fun a => flipSign (r (σ1.symm a)), ?_, ?_, ?_⟩
  · intro i
    show flipSign (r (σ1.symm i)) = 1 ∨ flipSign (r (σ1.symm i)) = -1
    generalize r (σ1.symm i) = b
    cases b <;> simp [flipSign]
  · intro hne
    have hmono : StrictMono π := by
      intro a b hab
      obtain ⟨i, rfl⟩ := σ1.surjective a
      obtain ⟨j, rfl⟩ := σ1.surjective b
      have hij : i ≠ j := by rintro rfl; exact lt_irrefl _ hab
      have hlt : junctionInvCap (c.O.withVals (run w0 h).vals) c.els k' j j <
          junctionInvCap (c.O.withVals (run w0 h).vals) c.els k' i i := by
        rcases lt_trichotomy (junctionInvCap (c.O.withVals (run w0 h).vals) c.els k' j j)
          (junctionInvCap (c.O.withVals (run w0 h).vals) c.els k' i i) with h1 | h1 | h1
        · exact h1
        · exact absurd h1.symm (hne i j hij)
        · exact absurd (hord j i h1) (not_lt.2 hab.le)
      rw [hπ, hπ]
      apply hord'
      rw [hG, hG]
      simpa only [flipSign_sq, one_mul] using hlt
    have : (⟨π, hmono.le_iff_le⟩ : Fin k' ≃o Fin k') = OrderIso.refl _ := Subsingleton.elim _ _
    ext a
    have h2 := congrArg (fun f : Fin k' ≃o Fin k' => ((f a : Fin k') : ℕ)) this
    exact h2
  · intro hmm hng num p q hp hq hnum hpq hsp hsq noise env total hT
    have hdd : d = fun a => d' (π a) := by
      funext a
      rw [hd, hd', hmm a]
    subst hdd
    have hrel := relabel_islands π (fun a => r (σ1.symm a)) d' σ1 σ3 τ hπ
      (junctionInvCap (c.O.withVals (run w0 h).vals) c.els k')
      (junctionInvCap (c.O.withVals (run w0 h).vals) c'.els k')
      (fun i => edgeEJ c.O c.els (run w0 h).vals ((junctionEdges c.O c.els).get i))
      (fun i => edgeEJ c.O c'.els (run w0 h).vals ((junctionEdges c.O c'.els).get i))
      (by intro i j; simp only [Equiv.symm_apply_apply]; exact hG i j) hE
      (fun p => ((run w0 h).circ.ng p).getD 0) (fun p => ((run w0' h').circ.ng p).getD 0) hng
    have hcard : Fintype.card (Idx fun a => d' (π a)) = Fintype.card (Idx d') :=
      Fintype.card_congr (relIdx π (fun a => r (σ1.symm a)) d').symm
    have hnum1 : num + 1 < Fintype.card (Idx fun a => d' (π a)) := by
      rw [Fintype.card_pi]
      simp only [Fintype.card_fin, hd]
      exact hnum
    obtain ⟨vs, ws, ev, hlev, hdg, hlen, heig, hrate⟩ := hF num (by omega) hnum1
    obtain ⟨vs', ws', ev', hlev', -, hlen', heig', hrate'⟩ := hF' num (by omega) (by rw [← hcard]; exact hnum1)
    obtain ⟨vs2, hlev2⟩ := levels_reindex (relIdx π (fun a => r (σ1.symm a)) d') hlev
    rw [hrel] at hlev2
    obtain rfl : ws' = ws := levels_unique hlev' hlev2
    have hwl : num ≤ ws'.length := by rw [hlev.len, hlev.card]; omega
    have hrep := reported_ok hdg
    change reported num (run w0 h) = _ at hrep
    change SimpleLevel (reported num (run w0 h)) p at hsp
    change SimpleLevel (reported num (run w0 h)) q at hsq
    rw [hrep] at hsp hsq
    have hs1 := simple_of_take hlev.sorted hp hwl hsp
    have hs2 := simple_of_take hlev.sorted hq hwl hsq
    have hne : ws'.getD p 0 ≠ ws'.getD q 0 := by
      intro h0
      rw [List.getD_eq_getElem?_getD, List.getD_eq_getElem?_getD, List.getElem?_eq_getElem hs1.1,
        List.getElem?_eq_getElem hs2.1] at h0
      refine hs1.2 q hs2.1 hpq.symm ?_
      rw [List.getElem?_eq_getElem hs2.1, List.getElem?_eq_getElem hs1.1]
      exact congrArg some h0.symm
    have gp : ev[p]? = some (ev[p]'(by omega)) := List.getElem?_eq_getElem _
    have gq : ev[q]? = some (ev[q]'(by omega)) := List.getElem?_eq_getElem _
    have gp' : ev'[p]? = some (ev'[p]'(by omega)) := List.getElem?_eq_getElem _
    have gq' : ev'[q]? = some (ev'[q]'(by omega)) := List.getElem?_eq_getElem _
    refine ⟨_, hrate p q _ _ gp gq hne noise env total hT, ?_⟩
    rw [show sessionRate noise env "capacitive" (p, q) total (diag (some (num : ℤ)) w').2 = _ from
      hrate' p q _ _ gp' gq' hne noise env total hT]
    have hherm' : (islandHamiltonian σ3 (junctionInvCap (c.O.withVals (run w0 h).vals) c'.els k')
              (fun i => edgeEJ c.O c'.els (run w0 h).vals ((junctionEdges c.O c'.els).get i)) d'
              (fun p => ((run w0' h').circ.ng p).getD 0)).IsHermitian := by
      obtain ⟨H2, e2, hherm⟩ := C40_circuit hi'.noSelf vals' flux' u' _ hw' h' hh' hm0'
      rw [hham2] at e2
      obtain rfl := Except.ok.inj e2
      exact hherm
    obtain ⟨y, hy, ey⟩ := level_carried _ hherm' hrel hlev' hs1 (heig p _ gp).1 (heig' p _ gp').1 (heig p _ gp).2 (heig' p _ gp').2
    obtain ⟨z, hz, ez⟩ := level_carried _ hherm' hrel hlev' hs2 (heig q _ gq).1 (heig' q _ gq').1 (heig q _ gq).2 (heig' q _ gq').2
    congr 4
    obtain ⟨l, hperm, hfor⟩ := id hren
    rw [(hperm.map _).sum_eq]
    have key : ∀ (L L' : List (Edge × ElemId)), List.Forall₂ (fun q q' => q'.2 = q.2 ∧ ReEdge ρ q.1 q'.1) L L' →
        (∀ x ∈ L, ValidEdge k' x.1) →
        (L'.map (capacitorLoss c.O noise (run w0 h).vals |ws'.getD q 0 - ws'.getD p 0| (ev'[p]'(by omega)) (ev'[q]'(by omega))
          (voltage (c.O.withVals (run w0 h).vals) c'.els k' σ3 d' (fun p => ((run w0' h').circ.ng p).getD 0)))).sum =
        (L.map (capacitorLoss c.O noise (run w0 h).vals |ws'.getD q 0 - ws'.getD p 0| (ev[p]'(by omega)) (ev[q]'(by omega))
          (voltage (c.O.withVals (run w0 h).vals) c.els k' σ1 (fun a => d' (π a)) (fun p => ((run w0 h).circ.ng p).getD 0)))).sum := by
      intro L L' hLL
      induction hLL with
      | nil => intro _; rfl
      | @cons x x' L L' h1 h2 ih =>
        intro hL
        rw [List.map_cons, List.map_cons, List.sum_cons, List.sum_cons, ih fun y hy => hL y (List.mem_cons_of_mem _ hy)]
        congr 1
        refine (loss_congr c.O noise _ _ h1.1 ?_).symm
        obtain ⟨b, hb⟩ := reEdge_inc (hL x List.mem_cons_self) h1.2
        have hvolt := rel_voltage (n := k') (O := c.O.withVals (run w0 h).vals) (els := c.els) (els' := c'.els) π
          (fun a => r (σ1.symm a)) d' σ1 σ3 τ hπ
          (fun p => ((run w0 h).circ.ng p).getD 0) (fun p => ((run w0' h').circ.ng p).getD 0) hng (e := x.1) (e' := x'.1)
          (s := flipSign b) (fun i => by
            have h3 := reground_edgeInvCap hren hi.valid (c.O.withVals (run w0 h).vals) hb (hinc i)
            have h4 : r (σ1.symm (σ1 i)) = r i := congrArg r (σ1.symm_apply_apply i)
            rw [← h4] at h3
            exact h3)
        rw [hvolt, braket_smul, norm_mul, braket_carried _ hy hz ey ez]
        have : ‖((flipSign b : ℝ) : ℂ)‖ = 1 := by cases b <;> simp [flipSign]
        rw [this, one_mul]
    exact key _ _ hfor (placements_valid hi.valid)

end SQ
