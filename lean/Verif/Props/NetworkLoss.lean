import Verif.Lemmas.Participation

/-!
# C129: losses of linear networks, mode by mode
-/

namespace SQ
open Matrix Spec

variable {c : CircSpec} {eigs : EigsFn} {as : List ℂ → List ℕ}

/-! ### branches -/

theorem pot_smul {n : ℕ} (a : ℝ) (x : Fin n → ℝ) (k : ℕ) : pot (fun i => a * x i) k = a * pot x k := by
  cases k with
  | zero => simp [pot]
  | succ k =>
    unfold pot
    split <;> simp

theorem branchDiff_smul {n : ℕ} (a : ℝ) (x : Fin n → ℝ) (e : Edge) :
    branchDiff (fun i => a * x i) e = a * branchDiff x e := by
  unfold branchDiff
  rw [pot_smul, pot_smul, mul_sub]

theorem coupleAt_sq {n : ℕ} (ty : String) (x : Fin n → ℝ) (e : Edge) : coupleAt ty x e ^ 2 = branchDiff x e ^ 2 := by
  unfold coupleAt branchDiff
  split_ifs with h1 h2
  · rcases h1 with h | h
    · rw [h, max_eq_right (Nat.zero_le _)]
      simp [pot]
    · rw [h, max_eq_left (Nat.zero_le _)]
      simp [pot]
  · ring
  · rfl

/-! ### matrix elements -/

theorem net_charge {nJ k : ℕ} (D : ModeData nJ k) (m : Fin k → ℕ) (ng : Fin k → ℝ) (i : Fin k) (a b : Fin (m i)) (hab : a ≠ b) :
    (D.omega i = 0 → chargeOpIso D m ng i a b = 0) ∧
    (D.omega i ≠ 0 → 0 ≤ D.impedance i → ‖chargeOpIso D m ng i a b‖ ^ 2 = 0.5 / D.impedance i * hop a b) := by
  constructor
  · intro h
    unfold chargeOpIso
    rw [if_pos h, Matrix.smul_apply, Matrix.sub_apply, Matrix.smul_apply, qCharge, diagonal_apply_ne _ hab, one_apply_ne hab]
    simp
  · intro h hZ
    have h1 : m i ≠ 1 := by
      intro h1
      apply hab
      apply Fin.ext
      have := a.isLt
      have := b.isLt
      omega
    unfold chargeOpIso
    rw [if_neg h, if_neg h1, Matrix.smul_apply, smul_eq_mul, norm_mul, mul_pow,
      show qDestroy (m i) - qCreate (m i) = qDestroy (m i) + (-1 : ℂ) • qCreate (m i) by rw [neg_one_smul, sub_eq_add_neg],
      destroy_hop _ _ _ (by simp), norm_mul, norm_neg, Complex.norm_I, one_mul, Complex.norm_real, Real.norm_eq_abs, sq_abs,
      Real.sq_sqrt (by positivity)]

theorem net_flux {nJ k : ℕ} (D : ModeData nJ k) (m : Fin k → ℕ) (i : Fin k) (a b : Fin (m i)) (hab : a ≠ b) :
    (D.omega i = 0 → fluxOpIso D m i a b = 0) ∧
    (D.omega i ≠ 0 → 0 ≤ D.impedance i → ‖fluxOpIso D m i a b‖ ^ 2 = 0.5 * D.impedance i * hop a b) := by
  constructor
  · intro h
    unfold fluxOpIso
    rw [if_pos h, one_apply_ne hab]
  · intro h hZ
    have h1 : m i ≠ 1 := by
      intro h1
      apply hab
      apply Fin.ext
      have := a.isLt
      have := b.isLt
      omega
    unfold fluxOpIso
    rw [if_neg h, if_neg h1, Matrix.smul_apply, smul_eq_mul, norm_mul, mul_pow,
      show qDestroy (m i) + qCreate (m i) = qDestroy (m i) + (1 : ℂ) • qCreate (m i) by rw [one_smul],
      destroy_hop _ _ _ (by simp), Complex.norm_real, Real.norm_eq_abs, sq_abs, Real.sq_sqrt (by positivity)]

section Rate

variable {v : ElemId → ℝ} {bd : Build} (hc : GoodCircuit c v) (hlin : Linear c.O c.els)
  (hb : buildCirc c v = .ok bd)

/-- node fluxes of mode `i`, normalised -/
noncomputable def netPattern (bd : Build) (hk : bd.M.keep.length = bd.n) (i : Fin bd.M.keep.length) : Fin bd.n → ℝ :=
  fun x => √(bd.M.cInv i i) * bd.M.S x (i.cast hk)

include hc hlin hb

theorem net_pattern (hk : bd.M.keep.length = bd.n) (i : Fin bd.M.keep.length) :
    ModePattern (nodeCap bd.n (c.O.withVals v) c.els) (nodeInvInd bd.n (c.O.withVals v) c.els) (bd.M.omega i)
      (netPattern bd hk i) ∧
    ∀ j, j ≠ i → netPattern bd hk j ⬝ᵥ (nodeCap bd.n (c.O.withVals v) c.els *ᵥ netPattern bd hk i) = 0 := by
  obtain ⟨-, -, hpos, -⟩ := linear_modes hc hlin hb
  obtain ⟨_, -, hfr⟩ := linear_frame hc hlin hb
  obtain ⟨-, ho, hm, -⟩ := hfr i
  have e : ∀ j, netPattern bd hk j = √(bd.M.cInv j j) • fun x => bd.M.S x (j.cast hk) := fun j => rfl
  refine ⟨⟨?_, ?_⟩, ?_⟩
  · rw [e, mulVec_smul, mulVec_smul, hm, smul_comm]
  · rw [e, mulVec_smul, smul_dotProduct, dotProduct_smul, ho i, if_pos rfl, smul_eq_mul, smul_eq_mul, ← mul_assoc,
      Real.mul_self_sqrt (hpos i).le, mul_inv_cancel₀ (hpos i).ne']
  · intro j hj
    rw [e, e, mulVec_smul, smul_dotProduct, dotProduct_smul, ho j, if_neg hj, smul_zero, smul_zero]

omit hlin in
theorem net_edge {x : Edge × ElemId} (hx : x ∈ placements c.els) : ValidEdge bd.n x.1 := by
  obtain ⟨n, a, B, t, hn, htr, hB, ht, rfl⟩ := buildCirc_stages hb
  obtain ⟨y, hy, hxy⟩ := List.mem_flatMap.1 hx
  obtain ⟨i, hi, rfl⟩ := List.mem_map.1 hxy
  have := buildEdges_nodes_le htr y hy
  exact ⟨hc.noSelf y hy, this.1, this.2⟩

variable (m : Fin bd.M.keep.length → ℕ) (ng : Fin bd.M.keep.length → ℝ) (x x' : Idx m)

/-- matrix elements of the voltage across an edge -/
theorem net_capacitive (hk : bd.M.keep.length = bd.n) {e : Edge} (he : ValidEdge bd.n e) {V : Op m}
    (hV : couplingOp "capacitive" bd.C bd.M (buildMem bd.M.data m ng).Q (buildMem bd.M.data m ng).phi e = .ok V) :
    (∀ i, OneQuantum x x' i → bd.M.omega i ≠ 0 →
      ‖V x x'‖ ^ 2 = branchDiff (netPattern bd hk i) e ^ 2 * (bd.M.omega i / 2 * (max (x i : ℕ) (x' i : ℕ) : ℕ))) ∧
    (x ≠ x' → (∀ i, OneQuantum x x' i → bd.M.omega i = 0) → V x x' = 0) := by
  obtain ⟨-, -, hpos, -⟩ := linear_modes hc hlin hb
  obtain ⟨_, -, hfr⟩ := linear_frame hc hlin hb
  have hop' := couplingOp_ok (ctype := "capacitive") (Or.inl rfl) bd.C bd.M hk.le (buildMem bd.M.data m ng).Q
    (buildMem bd.M.data m ng).phi he
  rw [if_pos rfl] at hop'
  have hVe := Except.ok.inj (hV.symm.trans hop')
  have hVs : V = ∑ j : Fin bd.M.keep.length, ((coupleAt "capacitive" (modeColumn "capacitive" bd.C bd.M ⟨j, lt_of_lt_of_le j.isLt hk.le⟩) e : ℝ) : ℂ) •
      single m j (chargeOpIso bd.M.data m ng j) := by
    rw [hVe]
    exact Finset.sum_congr rfl fun j _ => by rw [buildMem_Q]
  constructor
  · intro i hq h0
    have hne : x i ≠ x' i := fun h => by
      have := congrArg Fin.val h
      rcases hq.1 with h1 | h1 <;> omega
    obtain ⟨f1, -, -, f4⟩ := hfr i
    obtain ⟨hl, hω⟩ := f4 h0
    have hZ : bd.M.data.impedance i = √(bd.M.cInv i i / bd.M.l i i) := rfl
    have hZ0 : 0 < √(bd.M.cInv i i / bd.M.l i i) := Real.sqrt_pos.2 (div_pos (hpos i) hl)
    have hcol : modeColumn "capacitive" bd.C bd.M ⟨i, lt_of_lt_of_le i.isLt hk.le⟩ =
        fun y => bd.M.cInv i i * bd.M.S y (i.cast hk) := by
      funext y
      exact f1 y
    rw [hVs, net_sum_single _ _ x x' i hne hq.2, norm_mul, mul_pow, (net_charge _ m ng i _ _ hne).2 h0 (by rw [hZ]; exact hZ0.le),
      Complex.norm_real, Real.norm_eq_abs, sq_abs, coupleAt_sq, hcol, branchDiff_smul, hop_adjacent hq.1]
    unfold netPattern
    rw [branchDiff_smul, mul_pow, mul_pow, Real.sq_sqrt (hpos i).le, hZ, hω]
    have h1 : √(bd.M.cInv i i * bd.M.l i i) * √(bd.M.cInv i i / bd.M.l i i) = bd.M.cInv i i := by
      rw [← Real.sqrt_mul (mul_pos (hpos i) hl).le,
        show bd.M.cInv i i * bd.M.l i i * (bd.M.cInv i i / bd.M.l i i) = bd.M.cInv i i ^ 2 by field_simp,
        Real.sqrt_sq (hpos i).le]
    have h2 : √(bd.M.cInv i i * bd.M.l i i) = bd.M.cInv i i / √(bd.M.cInv i i / bd.M.l i i) := by
      rw [eq_div_iff hZ0.ne', h1]
    rw [h2]
    field_simp
    ring
  · intro hx hz
    rw [hVs]
    apply net_sum_zero _ _ x x' hx
    intro i hne hoth
    by_cases h0 : bd.M.omega i = 0
    · exact (net_charge bd.M.data m ng i _ _ hne).1 h0
    · have hnq : ¬ ((x i : ℕ) = x' i + 1 ∨ (x' i : ℕ) = x i + 1) := fun h => h0 (hz i ⟨h, hoth⟩)
      have := (net_charge bd.M.data m ng i _ _ hne).2 h0 (Real.sqrt_nonneg _)
      rw [hop, if_neg hnq, mul_zero] at this
      exact norm_eq_zero.1 (pow_eq_zero_iff two_ne_zero |>.1 this)

/-- matrix elements of the flux across an edge -/
theorem net_inductive (hk : bd.M.keep.length = bd.n) {e : Edge} (he : ValidEdge bd.n e) {V : Op m}
    (hV : couplingOp "inductive" bd.C bd.M (buildMem bd.M.data m ng).Q (buildMem bd.M.data m ng).phi e = .ok V) :
    (∀ i, OneQuantum x x' i → bd.M.omega i ≠ 0 →
      ‖V x x'‖ ^ 2 = branchDiff (netPattern bd hk i) e ^ 2 / (2 * bd.M.omega i) * (max (x i : ℕ) (x' i : ℕ) : ℕ)) ∧
    (x ≠ x' → (∀ i, OneQuantum x x' i → bd.M.omega i = 0) → V x x' = 0) := by
  obtain ⟨-, -, hpos, -⟩ := linear_modes hc hlin hb
  obtain ⟨_, -, hfr⟩ := linear_frame hc hlin hb
  have hop' := couplingOp_ok (ctype := "inductive") (Or.inr rfl) bd.C bd.M hk.le (buildMem bd.M.data m ng).Q
    (buildMem bd.M.data m ng).phi he
  rw [if_neg (by decide)] at hop'
  have hVe := Except.ok.inj (hV.symm.trans hop')
  have hVs : V = ∑ j : Fin bd.M.keep.length, ((coupleAt "inductive" (modeColumn "inductive" bd.C bd.M ⟨j, lt_of_lt_of_le j.isLt hk.le⟩) e : ℝ) : ℂ) •
      single m j (fluxOpIso bd.M.data m j) := by
    rw [hVe]
    exact Finset.sum_congr rfl fun j _ => by rw [buildMem_phi]
  constructor
  · intro i hq h0
    have hne : x i ≠ x' i := fun h => by
      have := congrArg Fin.val h
      rcases hq.1 with h1 | h1 <;> omega
    obtain ⟨-, -, -, f4⟩ := hfr i
    obtain ⟨hl, hω⟩ := f4 h0
    have hZ : bd.M.data.impedance i = √(bd.M.cInv i i / bd.M.l i i) := rfl
    have hZ0 : 0 < √(bd.M.cInv i i / bd.M.l i i) := Real.sqrt_pos.2 (div_pos (hpos i) hl)
    have hcol : modeColumn "inductive" bd.C bd.M ⟨i, lt_of_lt_of_le i.isLt hk.le⟩ = fun y => bd.M.S y (i.cast hk) := rfl
    rw [hVs, net_sum_single _ _ x x' i hne hq.2, norm_mul, mul_pow, (net_flux _ m i _ _ hne).2 h0 (by rw [hZ]; exact hZ0.le),
      Complex.norm_real, Real.norm_eq_abs, sq_abs, coupleAt_sq, hcol, hop_adjacent hq.1]
    unfold netPattern
    rw [branchDiff_smul, mul_pow, Real.sq_sqrt (hpos i).le, hZ, hω]
    have h1 : √(bd.M.cInv i i * bd.M.l i i) * √(bd.M.cInv i i / bd.M.l i i) = bd.M.cInv i i := by
      rw [← Real.sqrt_mul (mul_pos (hpos i) hl).le,
        show bd.M.cInv i i * bd.M.l i i * (bd.M.cInv i i / bd.M.l i i) = bd.M.cInv i i ^ 2 by field_simp,
        Real.sqrt_sq (hpos i).le]
    have h2 : √(bd.M.cInv i i * bd.M.l i i) = bd.M.cInv i i / √(bd.M.cInv i i / bd.M.l i i) := by
      rw [eq_div_iff hZ0.ne', h1]
    have hp := hpos i
    rw [h2]
    field_simp
    ring
  · intro hx hz
    rw [hVs]
    apply net_sum_zero _ _ x x' hx
    intro i hne hoth
    by_cases h0 : bd.M.omega i = 0
    · exact (net_flux bd.M.data m i _ _ hne).1 h0
    · have hnq : ¬ ((x i : ℕ) = x' i + 1 ∨ (x' i : ℕ) = x i + 1) := fun h => h0 (hz i ⟨h, hoth⟩)
      have := (net_flux bd.M.data m i _ _ hne).2 h0 (Real.sqrt_nonneg _)
      rw [hop, if_neg hnq, mul_zero] at this
      exact norm_eq_zero.1 (pow_eq_zero_iff two_ne_zero |>.1 this)

variable (fluxes : Fin bd.loops.length → ℝ) (P : ElemId → Matrix (Fin bd.n) (Fin bd.n) ℝ) (noise : ObjNoise)
  (islands : ℕ → Option ChargeObj) (env : NoiseEnv) (ef : List ℝ) (ev : List (Idx m → ℂ))
  (p q : ℕ) (psi psi' : Idx m → ℂ) (hp : ev[p]? = some psi) (hq : ev[q]? = some psi') (E E' : ℝ)
  (hpf : ef[p]? = some E) (hqf : ef[q]? = some E') (z z' : ℂ) (hz : ‖z‖ = 1) (hz' : ‖z'‖ = 1)
  (hpsi : ∀ y, psi y = if y = x then z else 0) (hpsi' : ∀ y, psi' y = if y = x' then z' else 0)
  (hT : 0 < env.T) (hE : E ≠ E') (h709 : hbar * |E' - E| / (kB * env.T) ≤ 709) (total : Bool)

include hp hq hpf hqf hz hz' hpsi hpsi' hT hE h709

theorem net_rate_cap (hk : bd.M.keep.length = bd.n) :
    (∀ i, OneQuantum x x' i → bd.M.omega i ≠ 0 → |E' - E| = bd.M.omega i →
      (bd.noise c m ng v fluxes P (noise.spec bd.loops islands) env ef ev).decRate "capacitive" (p, q) total =
        .ok (.val (quanta (hbar * bd.M.omega i / (kB * env.T)) p q total * (bd.M.omega i * (max (x i : ℕ) (x' i : ℕ) : ℕ) *
          capQinv c.O c.els noise v (bd.M.omega i) (netPattern bd hk i))))) ∧
    (x ≠ x' → (∀ i, OneQuantum x x' i → bd.M.omega i = 0) →
      (bd.noise c m ng v fluxes P (noise.spec bd.loops islands) env ef ev).decRate "capacitive" (p, q) total = .ok (.val 0)) := by
  obtain ⟨V, hV, hr⟩ := C91_capacitive c v bd m ng v fluxes P (noise.spec bd.loops islands) env ef ev p q psi psi' _ _
    hc.noSelf hb hp hq hpf hqf hE hT h709 total
  constructor
  · intro i h1 h0 hEω
    rw [hr, quanta_factor, hEω]
    congr 2
    have hterm : ∀ y ∈ placements c.els, capLoss c.O (noise.spec bd.loops islands) v (bd.M.omega i) psi psi' V y =
        bd.M.omega i * (max (x i : ℕ) (x' i : ℕ) : ℕ) / 2 * (match noise.capQ (capacitorOf c.O y.2) with
          | none => 0
          | some Q => capShare c.O v (netPattern bd hk i) y / Q (bd.M.omega i)) := by
      intro y hy
      unfold capLoss
      show (match noise.capQ (capacitorOf c.O y.2) with | none => _ | some Q => _) = _
      cases noise.capQ (capacitorOf c.O y.2) with
      | none => simp
      | some Q =>
        simp only
        rw [net_braket _ x x' psi psi' z z' hz hz' hpsi hpsi',
          (net_capacitive hc hlin hb m ng x x' hk (net_edge hc hb hy) (hV y hy)).1 i h1 h0]
        unfold capShare
        ring
    rw [List.map_congr_left hterm, List.sum_map_mul_left]
    change 2 * quanta _ p q total * (bd.M.omega i * _ / 2 * capQinv c.O c.els noise v _ _) = _
    ring
  · intro hx hno
    rw [hr]
    congr 2
    have hterm : ∀ y ∈ placements c.els, capLoss c.O (noise.spec bd.loops islands) v |E' - E| psi psi' V y = 0 := by
      intro y hy
      unfold capLoss
      show (match noise.capQ (capacitorOf c.O y.2) with | none => _ | some Q => _) = _
      cases noise.capQ (capacitorOf c.O y.2) with
      | none => rfl
      | some Q =>
        simp only
        rw [net_braket _ x x' psi psi' z z' hz hz' hpsi hpsi',
          (net_capacitive hc hlin hb m ng x x' hk (net_edge hc hb hy) (hV y hy)).2 hx hno]
        simp
    rw [List.map_congr_left hterm]
    simp

theorem net_rate_ind (hk : bd.M.keep.length = bd.n) :
    (∀ i, OneQuantum x x' i → bd.M.omega i ≠ 0 → |E' - E| = bd.M.omega i →
      (bd.noise c m ng v fluxes P (noise.spec bd.loops islands) env ef ev).decRate "inductive" (p, q) total =
        .ok (.val (quanta (hbar * bd.M.omega i / (kB * env.T)) p q total * (bd.M.omega i * (max (x i : ℕ) (x' i : ℕ) : ℕ) *
          indQinv c.O c.els noise v (bd.M.omega i) env.T (netPattern bd hk i))))) ∧
    (x ≠ x' → (∀ i, OneQuantum x x' i → bd.M.omega i = 0) →
      (bd.noise c m ng v fluxes P (noise.spec bd.loops islands) env ef ev).decRate "inductive" (p, q) total = .ok (.val 0)) := by
  obtain ⟨V, hV, hr⟩ := C91_inductive c v bd m ng v fluxes P (noise.spec bd.loops islands) env ef ev p q psi psi' _ _
    hc.noSelf hb hp hq hpf hqf hE hT h709 total
  constructor
  · intro i h1 h0 hEω
    rw [hr, quanta_factor, hEω]
    congr 2
    have hterm : ∀ y ∈ placedInds c.O c.els, indLoss (noise.spec bd.loops islands) v (bd.M.omega i) env.T psi psi' V y =
        bd.M.omega i * (max (x i : ℕ) (x' i : ℕ) : ℕ) / 2 * (match noise.indQ y.2 (bd.M.omega i) env.T with
          | none => 0
          | some Q => indShare v (bd.M.omega i) (netPattern bd hk i) y / Q) := by
      intro y hy
      have hy' := (List.mem_filter.1 hy).1
      unfold indLoss
      show (match noise.indQ y.2 (bd.M.omega i) env.T with | none => _ | some Q => _) = _
      cases noise.indQ y.2 (bd.M.omega i) env.T with
      | none => simp
      | some Q =>
        simp only
        rw [net_braket _ x x' psi psi' z z' hz hz' hpsi hpsi',
          (net_inductive hc hlin hb m ng x x' hk (net_edge hc hb hy') (hV y hy')).1 i h1 h0]
        unfold indShare
        have := hc.inds y hy' (of_decide_eq_true (List.mem_filter.1 hy).2)
        field_simp
    have hm := congrArg List.sum (List.map_congr_left hterm)
    rw [List.sum_map_mul_left] at hm
    change 2 * quanta _ p q total * ((placedInds c.O c.els).map _).sum = _
    rw [hm]
    change 2 * quanta _ p q total * (bd.M.omega i * _ / 2 * indQinv c.O c.els noise v _ _ _) = _
    ring
  · intro hx hno
    rw [hr]
    congr 2
    have hterm : ∀ y ∈ (placements c.els).filter (fun x => decide ((c.O.elem x.2).kind = .ind)),
        indLoss (noise.spec bd.loops islands) v |E' - E| env.T psi psi' V y = 0 := by
      intro y hy
      have hy' := (List.mem_filter.1 hy).1
      unfold indLoss
      show (match noise.indQ y.2 |E' - E| env.T with | none => _ | some Q => _) = _
      cases noise.indQ y.2 |E' - E| env.T with
      | none => rfl
      | some Q =>
        simp only
        rw [net_braket _ x x' psi psi' z z' hz hz' hpsi hpsi',
          (net_inductive hc hlin hb m ng x x' hk (net_edge hc hb hy') (hV y hy')).2 hx hno]
        simp
    rw [List.map_congr_left hterm]
    simp

end Rate

theorem ladder_step {k : ℕ} (ω κ ng : Fin k → ℝ) (d : Fin k → ℕ) (x x' : Idx d) (i : Fin k) (hq : OneQuantum x x' i)
    (h0 : 0 < ω i) : |ladder ω κ ng d x' - ladder ω κ ng d x| = ω i := by
  classical
  have e : ladder ω κ ng d x' - ladder ω κ ng d x = ω i * ((x' i : ℕ) - (x i : ℕ) : ℝ) := by
    unfold ladder
    rw [← Finset.sum_sub_distrib, Finset.sum_eq_single i]
    · rw [if_pos h0.ne', if_pos h0.ne']
      ring
    · intro j _ hj
      rw [hq.2 j hj, sub_self]
    · intro h; exact absurd (Finset.mem_univ _) h
  rw [e]
  rcases hq.1 with h | h
  · rw [h]
    push_cast
    rw [show ω i * ((x' i : ℕ) - ((x' i : ℕ) + 1) : ℝ) = -ω i by ring, abs_neg, abs_of_pos h0]
  · rw [h]
    push_cast
    rw [show ω i * ((x i : ℕ) + 1 - (x i : ℕ) : ℝ) = ω i by ring, abs_of_pos h0]

/-- C129: losses of a linear network.  For every circuit of capacitors and inductors without flux, after any orderly
history followed by `diag(num)`: the normal modes of the network, with frequencies `ω_i` and normalised patterns `y_i` of
node fluxes, decide all rates.  Between two product states that are the only ones of their energies and differ by one
quantum in the oscillator mode `i`, the rate due to the capacitors is the thermal factor times `ω_i·max(x_i, x'_i)` times
the sum of the inverse quality factors weighted with the share each capacitor has in the capacitive energy of the mode;
the rate due to the inductors is the same with the shares of the inductive energy.  Between all other such states both
rates are zero. -/
theorem C129_network (he : EigsLowest eigs) (ha : CArgsortSpec as) (hcaps : CapsOK c.O) (hlin : Linear c.O c.els)
    (vals : ElemId → ℝ) (flux : LoopId → ℝ) (u : ℝ)
    (w0 : World (circPhys c eigs as)) (hw : construct (circPhys c eigs as) vals flux u = .ok w0)
    (h : List Act) (hh : Orderly w0 h) (noise : ObjNoise) (env : NoiseEnv) (hT : 0 < env.T) :
    let w := run w0 h
    (∀ i, w.vals i = lastBuilt vals w0 h i) → GoodCircuit c w.vals → (∀ l, w.flux l = 0) → w.circ.m ≠ [] →
    ∃ (n k : ℕ) (ω κ : Fin k → ℝ) (y : Fin k → Fin n → ℝ), numNodes c.els = .ok n ∧
      NormalModes (nodeCap n (c.O.withVals w.vals) c.els) (nodeInvInd n (c.O.withVals w.vals) c.els) ω ∧
      (∀ i, 0 < κ i) ∧
      (∀ i, ModePattern (nodeCap n (c.O.withVals w.vals) c.els) (nodeInvInd n (c.O.withVals w.vals) c.els) (ω i) (y i)) ∧
      (∀ i j, i ≠ j → y i ⬝ᵥ (nodeCap n (c.O.withVals w.vals) c.els *ᵥ y j) = 0) ∧
      ∀ num p q : ℕ, num + 1 < ∏ i : Fin k, (w.circ.m.getD i 0).toNat → p < num → q < num →
        ∀ x x' : ∀ i : Fin k, Fin (w.circ.m.getD i 0).toNat,
        let E := ladder ω κ (fun i : Fin k => (w.circ.ng i).getD 0) (fun i : Fin k => (w.circ.m.getD i 0).toNat)
        (lowest E num)[p]? = some (E x) → (lowest E num)[q]? = some (E x') → OnlyState E x → OnlyState E x' → x ≠ x' →
        hbar * |E x' - E x| / (kB * env.T) ≤ 709 → ∀ total : Bool,
        (∀ i, OneQuantum x x' i → ω i ≠ 0 →
          sessionRate noise env "capacitive" (p, q) total (diag (some num) w).2 = some (.ok (.val
            (quanta (hbar * ω i / (kB * env.T)) p q total *
              (ω i * (max (x i : ℕ) (x' i : ℕ) : ℕ) * capQinv c.O c.els noise w.vals (ω i) (y i))))) ∧
          sessionRate noise env "inductive" (p, q) total (diag (some num) w).2 = some (.ok (.val
            (quanta (hbar * ω i / (kB * env.T)) p q total *
              (ω i * (max (x i : ℕ) (x' i : ℕ) : ℕ) * indQinv c.O c.els noise w.vals (ω i) env.T (y i)))))) ∧
        ((∀ i, OneQuantum x x' i → ω i = 0) →
          sessionRate noise env "capacitive" (p, q) total (diag (some num) w).2 = some (.ok (.val 0)) ∧
          sessionRate noise env "inductive" (p, q) total (diag (some num) w).2 = some (.ok (.val 0))) := by
  intro w hlast hgood hflux hm0
  have hb : buildCirc c (run w0 h).vals = .ok (run w0 h).circ.bd := linear_bd_now hcaps hlin vals flux u w0 hw h hh hlast hgood.noSelf
  obtain ⟨hn, hk⟩ := linear_keep hgood.noSelf hlin hb
  obtain ⟨-, -, hpos, hmodes⟩ := linear_modes hgood hlin hb
  refine ⟨(run w0 h).circ.bd.n, _, (run w0 h).circ.bd.M.omega, fun i => islandCoef ((run w0 h).circ.bd.M.cInv i i),
    netPattern (run w0 h).circ.bd hk, hn, hmodes, ?_, fun i => (net_pattern hgood hlin hb hk i).1,
    fun i j hij => (net_pattern hgood hlin hb hk j).2 i hij, ?_⟩
  · intro i
    have := hpos i
    have h2 : (0 : ℝ) < (2 * eCharge / √hbar) ^ 2 := by unfold eCharge hbar; positivity
    unfold islandCoef
    positivity
  intro num p q hnum hp hq x x' E hEp hEq hox hox' hxx h709 total
  obtain ⟨-, -, -, hham⟩ := ham_now hgood.noSelf hw hh hm0
  have hham' := hham (run w0 h) rfl
  rw [linear_ham hgood hlin hb _ _ _ _ hflux] at hham'
  have hherm : (diagonal fun x : Idx ((run w0 h).circ.bd.dims (run w0 h).circ.m) =>
      ((ladder (Modes.omega (Build.M (run w0 h).circ.bd)) (fun i => islandCoef ((Build.M (run w0 h).circ.bd).cInv i i))
        (fun i => ((run w0 h).circ.ng i).getD 0) (Build.dims (run w0 h).circ.bd (run w0 h).circ.m) x : ℝ) : ℂ)).IsHermitian := by
    rw [IsHermitian, diagonal_conjTranspose]
    congr 1
    funext x
    exact Complex.conj_ofReal _
  obtain ⟨vs, ws, ev, w', hlev, hd, hef, hevs, hlen, hev⟩ := diag_lowest he ha hm0 hham' hherm num (by omega)
    (by
      refine lt_of_lt_of_eq hnum ?_
      show _ = Fintype.card (∀ i, Fin ((run w0 h).circ.bd.dims (run w0 h).circ.m i))
      rw [Fintype.card_pi]
      simp only [Fintype.card_fin]
      rfl)
  obtain ⟨vs', hlev'⟩ := levels_diagonal (ladder (Modes.omega (Build.M (run w0 h).circ.bd))
    (fun i => islandCoef ((Build.M (run w0 h).circ.bd).cInv i i))
    (fun i => ((run w0 h).circ.ng i).getD 0) (Build.dims (run w0 h).circ.bd (run w0 h).circ.m))
  have hws : ws.take num = lowest E num := by
    rw [levels_unique hlev hlev']
    rfl
  have hgetD : ∀ r e, r < num → (lowest E num)[r]? = some e → ws.getD r 0 = e := by
    intro r e hr he
    rw [← hws, List.getElem?_take_of_lt hr] at he
    rw [List.getD_eq_getElem?_getD, he]
    rfl
  have hd2 : (diag (some (num : ℤ)) (run w0 h)).2 = w' := congrArg Prod.snd hd
  have hses := fun ty => C112_session hgood.noSelf vals flux u w0 hw h hh noise env ty (p, q) total num ⟨_, congrArg Prod.fst hd⟩
    (by
      rw [hd2, hef, hws]
      intro h0
      rw [h0] at hEp
      cases hEp) ev (by rw [hd2, hevs])
  have hpe : ev[p]? = some (ev[p]'(by omega)) := List.getElem?_eq_getElem (by omega)
  have hqe : ev[q]? = some (ev[q]'(by omega)) := List.getElem?_eq_getElem (by omega)
  obtain ⟨z, hz, hpsi⟩ := net_state E x hox _ (hev p _ hpe).1 ((hev p _ hpe).2.trans (by rw [hgetD p _ hp hEp]; rfl))
  obtain ⟨z', hz', hpsi'⟩ := net_state E x' hox' _ (hev q _ hqe).1 ((hev q _ hqe).2.trans (by rw [hgetD q _ hq hEq]; rfl))
  have hpf : (diag (some (num : ℤ)) (run w0 h)).2.circ.efreqs[p]? = some (E x) := by rw [hd2, hef, hws]; exact hEp
  have hqf : (diag (some (num : ℤ)) (run w0 h)).2.circ.efreqs[q]? = some (E x') := by rw [hd2, hef, hws]; exact hEq
  have hEne : E x ≠ E x' := fun h => hxx (hox' x h)
  obtain ⟨c1, c2⟩ := net_rate_cap hgood hlin hb _ (fun i => ((run w0 h).circ.ng i).getD 0) x x' _ (fun _ => 0) noise
    (run w0 h).circ.islands env _ ev p q _ _ hpe hqe _ _ hpf hqf z z' hz hz' hpsi hpsi' hT hEne h709 total hk
  obtain ⟨i1, i2⟩ := net_rate_ind hgood hlin hb _ (fun i => ((run w0 h).circ.ng i).getD 0) x x' _ (fun _ => 0) noise
    (run w0 h).circ.islands env _ ev p q _ _ hpe hqe _ _ hpf hqf z z' hz hz' hpsi hpsi' hT hEne h709 total hk
  refine ⟨fun i h1 h0 => ?_, fun hno => ?_⟩
  · have hst := ladder_step (Modes.omega (Build.M (run w0 h).circ.bd)) (fun i => islandCoef ((Build.M (run w0 h).circ.bd).cInv i i))
      (fun i => ((run w0 h).circ.ng i).getD 0) _ x x' i h1 (lt_of_le_of_ne (hmodes.nonneg i) (Ne.symm h0))
    exact ⟨(hses _).trans (congrArg some (c1 i h1 h0 hst)), (hses _).trans (congrArg some (i1 i h1 h0 hst))⟩
  · exact ⟨(hses _).trans (congrArg some (c2 hxx hno)), (hses _).trans (congrArg some (i2 hxx hno))⟩

theorem net_qf {l : List (Edge × ElemId)} {n : ℕ} (hv : ∀ q ∈ l, ValidEdge n q.1)
    (f : ElemId → ℝ) (y : Fin n → ℝ) :
    y ⬝ᵥ ((l.map fun q => f q.2 • edgeMat n q.1).sum *ᵥ y) = (l.map fun q => f q.2 * branchDiff y q.1 ^ 2).sum := by
  induction l with
  | nil => simp
  | cons q l ih =>
    rw [List.map_cons, List.sum_cons, List.map_cons, List.sum_cons, add_mulVec, dotProduct_add,
      ih fun x hx => hv x (List.mem_cons_of_mem _ hx), smul_mulVec, dotProduct_smul, smul_eq_mul]
    congr 2
    exact qf_eMat (hv q (List.mem_cons_self ..)) y

/-- the inverse inductances of all placements, weighted, are those of the inductors -/
theorem net_invInd (O : Objs) (vals : ElemId → ℝ) (els : Elements) (g : Edge → ℝ) :
    ((placements els).map fun q => placedInvInd (O.withVals vals) q.2 * g q.1).sum =
      ((placedInds O els).map fun q => g q.1 / vals q.2).sum := by
  unfold placedInds
  generalize placements els = l
  induction l with
  | nil => rfl
  | cons q l ih =>
    rw [List.map_cons, List.sum_cons, ih]
    by_cases hk : (O.elem q.2).kind = .ind
    · rw [List.filter_cons_of_pos (by simp [hk])]
      simp only [List.map_cons, List.sum_cons]
      congr 1
      unfold placedInvInd Objs.withVals
      simp only [hk]
      ring
    · rw [List.filter_cons_of_neg (by simp [hk])]
      have : placedInvInd (O.withVals vals) q.2 = 0 := by
        unfold placedInvInd Objs.withVals
        simp only
      rw [this, zero_mul, zero_add]

theorem net_edges {els : Elements} {n : ℕ} (hv : ValidElements n els) : ∀ q ∈ placements els, ValidEdge n q.1 := by
  intro q hq
  obtain ⟨y, hy, hxy⟩ := List.mem_flatMap.1 hq
  obtain ⟨i, hi, rfl⟩ := List.mem_map.1 hxy
  exact hv y hy

/-- C129: the weights are shares.  In every normal mode the capacitors' weights are nonnegative and add up to one, and so
do the inductors' weights if the mode oscillates. -/
theorem C129_shares {O : Objs} {els : Elements} {vals : ElemId → ℝ} {n : ℕ} (hv : ValidElements n els)
    (hcap : ∀ q ∈ placements els, 0 < vals (capacitorOf O q.2))
    (hind : ∀ q ∈ placements els, (O.elem q.2).kind = .ind → 0 < vals q.2) {ω : ℝ} {y : Fin n → ℝ}
    (hy : ModePattern (nodeCap n (O.withVals vals) els) (nodeInvInd n (O.withVals vals) els) ω y) :
    (∀ q ∈ placements els, 0 ≤ capShare O vals y q) ∧ ((placements els).map (capShare O vals y)).sum = 1 ∧
    (∀ q ∈ placedInds O els, 0 ≤ indShare vals ω y q) ∧ (ω ≠ 0 → ((placedInds O els).map (indShare vals ω y)).sum = 1) := by
  have hve := net_edges hv
  refine ⟨fun q hq => mul_nonneg (hcap q hq).le (sq_nonneg _), ?_, fun q hq => ?_, fun h0 => ?_⟩
  · have := hy.unit
    unfold nodeCap at this
    rw [net_qf hve (placedCap (O.withVals vals))] at this
    simp only [placedCap_withVals] at this
    exact this
  · have := hind q (List.mem_filter.1 hq).1 (of_decide_eq_true (List.mem_filter.1 hq).2)
    unfold indShare
    positivity
  · have h1 : y ⬝ᵥ (nodeInvInd n (O.withVals vals) els *ᵥ y) = ω ^ 2 := by
      rw [hy.mode, dotProduct_smul, hy.unit, smul_eq_mul, mul_one]
    unfold nodeInvInd at h1
    rw [net_qf hve (placedInvInd (O.withVals vals)),
      net_invInd O vals els (fun e => branchDiff y e ^ 2)] at h1
    unfold indShare
    simp only [div_eq_mul_inv _ (ω ^ 2)]
    rw [List.sum_map_mul_right, h1, mul_inv_cancel₀ (pow_ne_zero 2 h0)]

/-- C129: equal quality factors.  If all capacitors have the same quality factor at the frequency of the mode its inverse
is the weighted sum, and the same holds for the inductors. -/
theorem C129_uniform {O : Objs} {els : Elements} {vals : ElemId → ℝ} {n : ℕ} (hv : ValidElements n els)
    (hcap : ∀ q ∈ placements els, 0 < vals (capacitorOf O q.2))
    (hind : ∀ q ∈ placements els, (O.elem q.2).kind = .ind → 0 < vals q.2) {ω : ℝ} {y : Fin n → ℝ}
    (hy : ModePattern (nodeCap n (O.withVals vals) els) (nodeInvInd n (O.withVals vals) els) ω y) (noise : ObjNoise) (Q T : ℝ) :
    ((∀ q ∈ placements els, ∃ f, noise.capQ (capacitorOf O q.2) = some f ∧ f ω = Q) →
      capQinv O els noise vals ω y = 1 / Q) ∧
    (ω ≠ 0 → (∀ q ∈ placedInds O els, noise.indQ q.2 ω T = some Q) → indQinv O els noise vals ω T y = 1 / Q) := by
  obtain ⟨-, h2, -, h4⟩ := C129_shares hv hcap hind hy
  constructor
  · intro h
    have : capQinv O els noise vals ω y = ((placements els).map fun q => capShare O vals y q * Q⁻¹).sum := by
      unfold capQinv
      congr 1
      refine List.map_congr_left fun q hq => ?_
      obtain ⟨f, hf, hQ⟩ := h q hq
      rw [hf]
      show capShare O vals y q / f ω = _
      rw [hQ, div_eq_mul_inv]
    rw [this, List.sum_map_mul_right, h2, one_mul, one_div]
  · intro h0 h
    have : indQinv O els noise vals ω T y = ((placedInds O els).map fun q => indShare vals ω y q * Q⁻¹).sum := by
      unfold indQinv
      congr 1
      refine List.map_congr_left fun q hq => ?_
      rw [h q hq]
      show indShare vals ω y q / Q = _
      rw [div_eq_mul_inv]
    rw [this, List.sum_map_mul_right, h4 h0, one_mul, one_div]

theorem sorted_rank (l : List ℝ) (hl : l.Pairwise (· ≤ ·)) (a : ℝ) (ha : a ∈ l) :
    open Classical in l[l.countP fun b => decide (b < a)]? = some a := by
  classical
  induction l with
  | nil => cases ha
  | cons b t ih =>
    rw [List.pairwise_cons] at hl
    by_cases hb : b < a
    · rw [List.countP_cons_of_pos (by simpa using hb), List.getElem?_cons_succ]
      exact ih hl.2 ((List.mem_cons.1 ha).resolve_left (fun h => hb.ne h.symm))
    · have hab : a = b := by
        rcases List.mem_cons.1 ha with h | h
        · exact h
        · exact le_antisymm (not_lt.1 hb) (hl.1 a h)
      rw [List.countP_cons_of_neg (by simpa using hb), List.countP_eq_zero.2, List.getElem?_cons_zero, hab]
      intro x hx
      have := hl.1 x hx
      simp [hab, this]

/-- C129: which number a state has.  A product state is listed at the position given by the number of states of lower
energy. -/
theorem C129_position {ι : Type*} [Fintype ι] (E : ι → ℝ) (x : ι) (num p : ℕ) (hp : p < num)
    (hcard : Nat.card {z // E z < E x} = p) : (lowest E num)[p]? = some (E x) := by
  classical
  unfold lowest
  rw [List.getElem?_take_of_lt hp]
  have h := sorted_rank ((Finset.univ.val.map E).sort (· ≤ ·)) (Multiset.pairwise_sort _ _) (E x)
    ((Multiset.mem_sort (r := (· ≤ ·))).2 (Multiset.mem_map_of_mem E (Finset.mem_univ x)))
  have hc : ((Finset.univ.val.map E).sort (· ≤ ·)).countP (fun b => decide (b < E x)) = p := by
    have e1 : ((Finset.univ.val.map E).sort (· ≤ ·)).countP (fun b => decide (b < E x)) =
        Multiset.countP (fun b => b < E x) (((Finset.univ.val.map E).sort (· ≤ ·) : List ℝ) : Multiset ℝ) := by
      rw [Multiset.coe_countP]
    rw [e1, Multiset.sort_eq, Multiset.countP_map, ← hcard, Nat.card_eq_fintype_card, Fintype.card_subtype]
    rfl
  rw [hc] at h
  exact h

end SQ
