import Verif.Lemmas.State

/-! # C11, C42, C43, C45–C49: the circuit object -/

namespace SQ
open SQ.Spec

variable {P : Phys}

/-! ## C11 set_charge_noise -/

/-- `set_charge_noise` fails for every charge mode, without setting the noise. -/
theorem C11_refuted (w : World P) (k : ℕ) (o : ChargeObj) (hk : w.circ.islands k = some o) (amp : ℝ) :
    setChargeNoise (some (k + 1 : ℤ)) amp w = (.error .attributeError, w) := by
  have h0 : ¬ ((k : ℤ) + 1 - 1 < 0) := by omega
  have h1 : ((k : ℤ) + 1 - 1).toNat = k := by omega
  unfold setChargeNoise islandOf
  simp only [h0, h1, if_false, hk, Option.map_some]

/-- Other arguments are rejected with ValueError, without effect. (Missing: the noise of a valid mode
is not set, see `C11_refuted`.) -/
theorem C11_rejected_partial (w : World P) (mode : Option ℤ)
    (h : ∀ k : ℕ, mode = some (k + 1 : ℤ) → w.circ.islands k = none) (amp : ℝ) :
    setChargeNoise mode amp w = (.error .valueError, w) := by
  unfold setChargeNoise islandOf
  cases mode with
  | none => rfl
  | some z =>
    by_cases hz : z - 1 < 0
    · simp [hz]
    · have h2 := h (z - 1).toNat (by congr 1; omega)
      simp only [hz, if_false, h2, Option.map_none]

/-! ## C42 truncation numbers -/

theorem setTruncNums_circ (nums : List ℤ) (w : World P) (h : nums.length = P.nModes w.circ.bd) :
    (setTruncNums (.list nums) w).2.circ.bd = w.circ.bd ∧
    (setTruncNums (.list nums) w).2.circ.m = dimsOf P w.circ.bd nums ∧
    (setTruncNums (.list nums) w).2.circ.ms = (dimsOf P w.circ.bd nums).filter (fun x => x ≠ 1) := by
  rcases setTruncNums_cases (.list nums) w with h1 | ⟨nums', hn, -, ⟨e, -, h1⟩ | ⟨mem, -, -, h1⟩⟩
  · exact absurd h (h1.2 nums rfl)
  · cases hn; rw [h1]; exact ⟨rfl, rfl, rfl⟩
  · cases hn; rw [h1]; exact ⟨rfl, rfl, rfl⟩

/-- Whatever the numbers, `trunc_nums` returns them afterwards; the total dimension is the product of
2N-1 for charge modes and N for harmonic modes, which is also the product of the squeezed
dimensions. -/
theorem C42_roundtrip (nums : List ℤ) (w : World P) (h : nums.length = P.nModes w.circ.bd) :
    let w' := (setTruncNums (.list nums) w).2
    truncNums w' = .ok nums ∧
    w'.circ.m.prod = ∏ i : Fin nums.length,
      (if P.isCharge w.circ.bd i = true then 2 * nums[i] - 1 else nums[i]) ∧
    w'.circ.ms.prod = w'.circ.m.prod := by
  intro w'
  obtain ⟨h1, h2, h3⟩ := setTruncNums_circ nums w h
  have hget : ∀ i, i < nums.length → nums.getD i 0 = nums[i]! := by
    intro i hi; simp [hi]
  refine ⟨?_, ?_, ?_⟩
  · unfold truncNums
    simp only [w', h1, h2, dimsOf_length, lt_irrefl, if_false]
    congr 1
    apply List.ext_getElem
    · simp [h]
    · intro i hi1 hi2
      have hin : i < P.nModes w.circ.bd := h ▸ hi2
      have hd : (dimsOf P w.circ.bd nums).getD i 0 =
          if P.isCharge w.circ.bd i then 2 * nums.getD i 0 - 1 else nums.getD i 0 := by
        simp [dimsOf, hin]
      have hn : nums.getD i 0 = nums[i] := by simp [hi2]
      simp only [List.getElem_map, List.getElem_range, hd, hn]
      split
      · rw [show (2 * nums[i] - 1 + 1 : ℤ) = 2 * nums[i] by ring]
        exact Int.mul_tdiv_cancel_left _ (by norm_num)
      · rfl
  · simp only [w', h2]
    unfold dimsOf
    rw [← h, ← List.prod_ofFn]
    congr 1
    apply List.ext_getElem
    · simp
    · intro i h1 h2
      have : i < nums.length := by simpa using h1
      simp [this]
  · simp only [w', h2, h3]
    generalize dimsOf P w.circ.bd nums = l
    induction l with
    | nil => rfl
    | cons x l ih =>
      by_cases hx : x = 1
      · subst hx; simpa using ih
      · simp [hx] at ih ⊢
        exact Or.inl ih

/-- Anything that is not a list of the right length raises ValueError and changes nothing. -/
theorem C42_rejected (w : World P) (a : NumsArg)
    (h : ∀ nums, a = .list nums → nums.length ≠ P.nModes w.circ.bd) :
    setTruncNums a w = (.error .valueError, w) := by
  unfold setTruncNums
  cases a with
  | other => rfl
  | list nums => simp [h nums rfl]

/-! ## C43 truncate_circuit -/

/-- For K ≥ 1 the truncation numbers are at least 1 and the total dimension is at most K; other
arguments raise ValueError without effect. -/
theorem C43_budget (w : World P) :
    (∀ K : ℤ, 1 ≤ K → 0 < P.nModes w.circ.bd →
      let r := truncateCircuit (some K) w
      (∀ nums, r.1 = .ok nums → truncNums r.2 = .ok nums) ∧
      (∃ nums, truncNums r.2 = .ok nums ∧ nums.length = P.nModes w.circ.bd ∧ ∀ x ∈ nums, 1 ≤ x) ∧
      r.2.circ.m.prod ≤ K ∧ (∀ d ∈ r.2.circ.m, 1 ≤ d)) ∧
    (∀ K : ℤ, K < 1 → truncateCircuit (some K) w = (.error .valueError, w)) ∧
    truncateCircuit none w = (.error .valueError, w) := by
  refine ⟨?_, ?_, rfl⟩
  · intro K hK hn r
    set nums := truncChoice P w.circ.bd K with hnums
    have hlen : nums.length = P.nModes w.circ.bd := by simp [hnums, truncChoice]
    have hr2 : r.2 = (setTruncNums (.list nums) w).2 := by
      simp only [r, truncateCircuit, not_lt.2 hK, if_false, hn.ne', ← hnums]
      cases hs : setTruncNums (.list nums) w with
      | mk x w' => cases x <;> rfl
    have hr1 : ∀ l, r.1 = .ok l → l = nums := by
      intro l
      simp only [r, truncateCircuit, not_lt.2 hK, if_false, hn.ne', ← hnums]
      cases hs : setTruncNums (.list nums) w with
      | mk x w' =>
        cases x with
        | error e => intro h; cases h
        | ok u => intro h; simp at h; exact h.symm
    obtain ⟨hrt, hprod, -⟩ := C42_roundtrip nums w hlen
    set avg : ℝ := (K : ℝ) ^ (1 / (P.nModes w.circ.bd : ℝ)) with havg
    have hK1 : (1 : ℝ) ≤ K := by exact_mod_cast hK
    have hn0 : (P.nModes w.circ.bd : ℝ) ≠ 0 := by exact_mod_cast hn.ne'
    have ha1 : 1 ≤ avg := Real.one_le_rpow hK1 (by positivity)
    have hpow : avg ^ P.nModes w.circ.bd = K := by
      rw [havg, ← Real.rpow_natCast, ← Real.rpow_mul (by linarith), one_div,
        inv_mul_cancel₀ hn0, Real.rpow_one]
    have hget : ∀ i (hi : i < nums.length), nums[i] =
        if P.isCharge w.circ.bd i then ⌊(1 / 2) * (avg + 1)⌋ else ⌊avg⌋ := by
      intro i hi
      simp only [hnums, truncChoice, List.getElem_map, List.getElem_range, ← havg]
    have hone : ∀ i (hi : i < nums.length), 1 ≤ nums[i] := by
      intro i hi
      rw [hget]
      split <;> rw [Int.le_floor] <;> push_cast <;> linarith
    have hdim : ∀ i (hi : i < nums.length),
        let d := (if P.isCharge w.circ.bd i = true then 2 * nums[i] - 1 else nums[i])
        1 ≤ d ∧ ((d : ℤ) : ℝ) ≤ avg := by
      intro i hi d
      have h1 := hone i hi
      simp only [d]
      by_cases hc : P.isCharge w.circ.bd i = true
      · rw [if_pos hc]
        refine ⟨by omega, ?_⟩
        rw [hget i hi, if_pos hc]
        have := Int.floor_le ((1 / 2) * (avg + 1))
        push_cast
        linarith
      · rw [if_neg hc]
        refine ⟨h1, ?_⟩
        rw [hget i hi, if_neg hc]
        exact Int.floor_le _
    refine ⟨?_, ⟨nums, ?_, hlen, ?_⟩, ?_, ?_⟩
    · intro l hl
      rw [hr1 l hl, hr2]
      exact hrt
    · rw [hr2]; exact hrt
    · intro x hx
      obtain ⟨i, hi, rfl⟩ := List.getElem_of_mem hx
      exact hone i hi
    · rw [hr2, hprod]
      have : ((∏ i : Fin nums.length,
          (if P.isCharge w.circ.bd i = true then 2 * nums[i] - 1 else nums[i]) : ℤ) : ℝ) ≤ (K : ℝ) := by
        rw [← hpow, ← hlen, Int.cast_prod]
        calc _ ≤ ∏ _i : Fin nums.length, avg := by
              apply Finset.prod_le_prod
              · intro i _
                have := (hdim i i.isLt).1
                have h0 : (0 : ℤ) ≤ (if P.isCharge w.circ.bd i = true then 2 * nums[i] - 1 else nums[i]) :=
                  le_trans zero_le_one this
                exact_mod_cast h0
              · intro i _
                exact (hdim i i.isLt).2
          _ = _ := by simp
      exact_mod_cast this
    · rw [hr2, (setTruncNums_circ nums w hlen).2.1]
      intro d hd
      obtain ⟨i, hi, rfl⟩ := List.getElem_of_mem hd
      have hi' : i < nums.length := by rw [hlen]; simpa [dimsOf_length] using hi
      have := (hdim i hi').1
      simpa [dimsOf, hi'] using this
  · intro K hK
    simp [truncateCircuit, hK]

/-! ## C45 sorting -/

theorem npSort_perm (l : List ℝ) : (npSort l).Perm l := List.mergeSort_perm _ _

theorem npSort_sorted (l : List ℝ) : (npSort l).Pairwise (· ≤ ·) := by
  classical
  have := List.pairwise_mergeSort (le := fun a b : ℝ => decide (a ≤ b))
    (by intro a b c; simp only [decide_eq_true_eq]; exact le_trans)
    (by intro a b; simp only [Bool.or_eq_true, decide_eq_true_eq]; exact le_total a b) l
  unfold npSort
  convert this using 2
  simp

/-- Sorting keeps eigenpairs together: the frequencies are the sorted real parts, and the k-th vector
is the solver's vector of an eigenvalue whose real part is the k-th frequency; all pairs are kept. -/
theorem C45_sorted {V : Type} (argsort : List ℂ → List ℕ) (ha : CArgsortSpec argsort)
    (raw : List (ℂ × V)) :
    let s := sortEigs argsort raw
    s.1.Pairwise (· ≤ ·) ∧ s.1.Perm (raw.map (fun p => p.1.re)) ∧ s.2.length = s.1.length ∧
    ∃ pairs : List (ℂ × V), pairs.Perm raw ∧ s.1 = pairs.map (fun p => p.1.re) ∧
      s.2 = pairs.map Prod.snd := by
  intro s
  have h1 : s.1.Pairwise (· ≤ ·) := npSort_sorted _
  have h2 : s.1.Perm (raw.map (fun p => p.1.re)) := npSort_perm _
  obtain ⟨hperm, hsort⟩ := ha (raw.map Prod.fst)
  set arg := argsort (raw.map Prod.fst) with harg
  have hlt : ∀ i ∈ arg, i < raw.length := by
    intro i hi
    have := hperm.mem_iff.1 hi
    simpa using this
  let pairs := arg.filterMap (fun i => raw[i]?)
  have hrange : (List.range raw.length).filterMap (fun i => raw[i]?) = raw := by
    apply List.ext_getElem?
    intro i
    have : ∀ (l : List (ℂ × V)), (List.range l.length).filterMap (fun i => l[i]?) = l := by
      intro l
      induction l using List.reverseRecOn with
      | nil => rfl
      | append_singleton l x ih =>
        rw [List.length_append, List.length_singleton, List.range_succ, List.filterMap_append]
        congr 1
        · have : (List.range l.length).filterMap (fun i => (l ++ [x])[i]?) =
              (List.range l.length).filterMap (fun i => l[i]?) := by
            apply List.filterMap_congr
            intro i hi
            rw [List.mem_range] at hi
            rw [List.getElem?_append_left hi]
          rw [this, ih]
        · simp
    rw [this]
  have hp : pairs.Perm raw := by
    have := hperm.filterMap (fun i => raw[i]?)
    simp only [List.length_map] at this
    rw [hrange] at this
    exact this
  have hsnd : s.2 = pairs.map Prod.snd := by
    change arg.filterMap (fun i => (raw[i]?).map Prod.snd) = _
    simp only [pairs, List.map_filterMap]
  have hre : pairs.map (fun p => p.1.re) = arg.map (fun i => ((raw.map Prod.fst).getD i 0).re) := by
    have : ∀ l : List ℕ, (∀ i ∈ l, i < raw.length) →
        (l.filterMap (fun i => raw[i]?)).map (fun p => p.1.re) =
          l.map (fun i => ((raw.map Prod.fst).getD i 0).re) := by
      intro l hl
      induction l with
      | nil => rfl
      | cons i l ih =>
        have hi := hl i (by simp)
        rw [List.filterMap_cons_some (List.getElem?_eq_getElem hi), List.map_cons, List.map_cons,
          ih (fun j hj => hl j (by simp [hj]))]
        simp [hi]
    exact this arg hlt
  have hsp : (pairs.map (fun p => p.1.re)).Pairwise (· ≤ ·) := by
    rw [hre, List.pairwise_map]
    exact hsort.imp (fun h => h.elim le_of_lt (fun h => h.1.le))
  have heq : s.1 = pairs.map (fun p => p.1.re) :=
    List.Perm.eq_of_pairwise (fun a b _ _ h1 h2 => le_antisymm h1 h2) h1 hsp
      (h2.trans (hp.map (fun p => p.1.re)).symm)
  refine ⟨h1, h2, ?_, pairs, hp, heq, hsnd⟩
  rw [heq, hsnd]
  simp

/-- `diag` returns and stores the sorted eigenpairs of the Hamiltonian. -/
theorem C45_diag (ha : CArgsortSpec P.argsort) (w : World P) (k : Option ℤ) (fr : List ℝ)
    (vs : List P.Vec) (w' : World P) (h : diag k w = (.ok (fr, vs), w')) :
    ∃ H k', k = some k' ∧ (hamiltonian w).1 = .ok H ∧ ∃ raw, P.eigs H k' = .ok raw ∧
      w'.circ.efreqs.Pairwise (· ≤ ·) ∧
      ∃ pairs : List (ℂ × P.Vec), pairs.Perm raw ∧ w'.circ.efreqs = pairs.map (fun p => p.1.re) ∧
        w'.circ.evecs = pairs.map Prod.snd ∧ vs = w'.circ.evecs ∧
        fr = w'.circ.efreqs.map (fun f => f / (2 * Real.pi * w.unitFreq)) := by
  obtain ⟨H, k', raw, t, hk, hH, hraw, hfr, hvs, hw'⟩ := diag_ok h
  obtain ⟨s1, -, -, pairs, hp, hf, hv⟩ := C45_sorted P.argsort ha raw
  refine ⟨H, k', hk, hH, raw, hraw, ?_⟩
  subst hw'
  exact ⟨s1, pairs, hp, hf, hv, hvs, hfr⟩

/-! ## C46 frequency unit -/

/-- `diag`'s frequencies equal `efreqs` read afterwards, and after any later unit changes the product
of `efreqs` with the unit is the same; stored eigenvalues are untouched. -/
theorem C46_unit (w w' : World P) (k : Option ℤ) (fr : List ℝ)
    (vs : List P.Vec) (h : diag k w = (.ok (fr, vs), w')) (hne : fr ≠ []) (us : List ℝ)
    (hu0 : w.unitFreq ≠ 0) (hu : ∀ u ∈ us, u ≠ 0) :
    efreqs w' = .ok fr ∧
    let w'' := run w' (us.map .setUnitFreq)
    w''.circ = w'.circ ∧
    ∃ fr', efreqs w'' = .ok fr' ∧
      fr'.map (fun f => f * w''.unitFreq) = fr.map (fun f => f * w.unitFreq) := by
  obtain ⟨H, k', raw, t, hk, hH, hraw, hfr, hvs, hw'⟩ := diag_ok h
  have hunit : w'.unitFreq = w.unitFreq := by rw [hw']
  have hef : w'.circ.efreqs = (sortEigs P.argsort raw).1 := by rw [hw']
  rw [← hef] at hfr
  have hlen : w'.circ.efreqs.length ≠ 0 := by
    intro h0
    apply hne
    rw [hfr, List.length_eq_zero_iff.1 h0]; rfl
  have hrun : ∀ (us : List ℝ) (v : World P), (∀ u ∈ us, u ≠ 0) → v.unitFreq ≠ 0 →
      (run v (us.map .setUnitFreq)).circ = v.circ ∧ (run v (us.map .setUnitFreq)).unitFreq ≠ 0 := by
    intro us
    induction us with
    | nil => intro v _ h; exact ⟨rfl, h⟩
    | cons u us ih =>
      intro v h hv
      have := ih { v with unitFreq := u } (fun x hx => h x (by simp [hx])) (h u (by simp))
      exact this
  constructor
  · unfold efreqs
    rw [if_neg hlen, hunit, hfr]
  · intro w''
    obtain ⟨hc, hnz⟩ := hrun us w' hu (by rw [hunit]; exact hu0)
    refine ⟨hc, _, by unfold efreqs; rw [hc, if_neg hlen], ?_⟩
    rw [hfr, List.map_map, List.map_map]
    apply List.map_congr_left
    intro f _
    have := Real.pi_ne_zero
    have hnz' : w''.unitFreq ≠ 0 := hnz
    change f / (2 * Real.pi * w''.unitFreq) * w''.unitFreq = f / (2 * Real.pi * w.unitFreq) * w.unitFreq
    field_simp

/-! ## C47 state guards -/

/-- Before truncation numbers are set, `hamiltonian`, `diag` and `charge_op` raise CircuitStateError
whatever else has been called, and do not change anything. -/
theorem C47_needs_truncation (vals : ElemId → ℝ) (flux : LoopId → ℝ) (u : ℝ) (w : World P)
    (hw : construct P vals flux u = .ok w) (h : List Act) (hh : noTrunc h) :
    hamiltonian (run w h) = (.error .circuitState, run w h) ∧
    (∀ k, diag k (run w h) = (.error .circuitState, run w h)) ∧
    (∀ (α : Type) (body : World P → Except PyErr α),
      Reader.run .chargeOp body (run w h) = .error .circuitState) := by
  have hm : ∀ (h : List Act) (w : World P), noTrunc h → (run w h).circ.m = w.circ.m := by
    intro h
    induction h with
    | nil => intro w _; rfl
    | cons a h ih =>
      intro w hn
      change (run (a.exec w).2 h).circ.m = _
      rw [ih _ (fun b hb => hn b (by simp [hb])), exec_m a w (hn a (by simp))]
  have h0 : w.circ.m = [] := by
    unfold construct at hw
    split at hw
    · cases hw
    · injection hw with hw; rw [← hw]
  have hz : (run w h).circ.m.length = 0 := by rw [hm h w hh, h0]; rfl
  refine ⟨?_, ?_, ?_⟩
  · unfold hamiltonian; rw [if_pos hz]
  · intro k; unfold diag; rw [if_pos hz]
  · intro α body; simp only [Reader.run]; rw [if_pos hz]

/-- Before `diag` has been called, and also after a successful `update`, everything that needs
eigenpairs raises CircuitStateError; the readers have no effect on the circuit. -/
theorem C47_needs_diag (vals : ElemId → ℝ) (flux : LoopId → ℝ) (u : ℝ) (w : World P)
    (hw : construct P vals flux u = .ok w) (h : List Act) (hh : noDiag h) :
    efreqs (run w h) = .error .circuitState ∧ evecs (run w h) = .error .circuitState ∧
    (∀ (α : Type) (body : World P → Except PyErr α) (r : Reader), r ≠ .chargeOp →
      r.run body (run w h) = .error .circuitState) := by
  have hm : ∀ (h : List Act) (w : World P), noDiag h → w.circ.efreqs = [] → w.circ.evecs = [] →
      (run w h).circ.efreqs = [] ∧ (run w h).circ.evecs = [] := by
    intro h
    induction h with
    | nil => intro w _ h1 h2; exact ⟨h1, h2⟩
    | cons a h ih =>
      intro w hn h1 h2
      have : (a.exec w).2.circ.efreqs = [] ∧ (a.exec w).2.circ.evecs = [] := by
        by_cases hu : a = .update
        · subst hu
          rcases update_eigs w with ⟨e1, e2⟩ | ⟨e1, e2⟩
          · exact ⟨e1.trans h1, e2.trans h2⟩
          · exact ⟨e1, e2⟩
        · obtain ⟨e1, e2⟩ := exec_eigs a w ⟨hn a (by simp), hu⟩
          exact ⟨e1.trans h1, e2.trans h2⟩
      exact ih _ (fun b hb => hn b (by simp [hb])) this.1 this.2
  have h0 : w.circ.efreqs = [] ∧ w.circ.evecs = [] := by
    unfold construct at hw
    split at hw
    · cases hw
    · injection hw with hw; rw [← hw]; exact ⟨rfl, rfl⟩
  obtain ⟨h1, h2⟩ := hm h w hh h0.1 h0.2
  refine ⟨by simp [efreqs, h1], by simp [evecs, h2], ?_⟩
  intro α body r hr
  cases r <;> simp_all [Reader.run]

/-- Once set, the guards no longer fire: `hamiltonian` can only raise what assembling operators
raises. -/
theorem C47_guard_iff (w : World P) (α : Type) (body : World P → Except PyErr α) (r : Reader) :
    (r = .chargeOp → w.circ.m ≠ [] → r.run body w = body w) ∧
    (r ≠ .chargeOp → w.circ.efreqs ≠ [] → w.circ.evecs ≠ [] → r.run body w = body w) := by
  refine ⟨?_, ?_⟩
  · rintro rfl h
    simp [Reader.run, h]
  · intro hr h1 h2
    cases r <;> simp_all [Reader.run]

/-! ## C48 operator caches -/

/-- After any history, whatever the order of calls, `hamiltonian()` equals the Hamiltonian of a
circuit built from scratch with the current element values, fluxes, offsets and dimensions, provided
values of elements other than junctions have not changed since the last `update` (or construction).
Assumptions on the physics: junction energies do not enter the matrices, and wherever `update` is
called it recomputes what construction would compute (true unless modes were removed, see C36).
`C48_circuit` discharges them for actual circuits. -/
theorem C48_coherence (isJ : ElemId → Prop)
    (hJ : ∀ v v' : ElemId → ℝ, (∀ i, ¬ isJ i → v i = v' i) → P.build v = P.build v')
    (vals : ElemId → ℝ) (flux : LoopId → ℝ) (u : ℝ) (w0 : World P)
    (hw : construct P vals flux u = .ok w0) (h : List Act) (hh : Orderly w0 h)
    (hre : ∀ h1 h2, h = h1 ++ .update :: h2 →
      P.rebuild (P.nModes (run w0 h1).circ.bd) (run w0 h1).vals = P.build (run w0 h1).vals) :
    let w := run w0 h
    (∀ i, ¬ isJ i → w.vals i = lastBuilt vals w0 h i) → w.circ.m ≠ [] →
      (hamiltonian w).1 = freshHam P w.vals w.flux w.circ.ng w.circ.m := by
  intro w hv hmne
  obtain ⟨hb, hops⟩ := coherent_run (fun v bd => P.build v = .ok bd) h w0 vals
    (coherent_construct hw fun _ hb => hb) hh (fun h1 h2 he bd hbd => hre h1 h2 he ▸ hbd)
  rcases hops with h0 | ⟨mem, hmem, h1, h2, h3⟩
  · exact absurd h0 hmne
  · have hbuild : P.build w.vals = .ok w.circ.bd := by
      rw [hJ _ _ hv]; exact hb
    unfold freshHam
    rw [hbuild]
    simp only
    rw [hmem]
    simp only
    unfold hamiltonian
    rw [if_neg (by rw [List.length_eq_zero_iff]; exact hmne), h1, h2, h3]
    simp only
    cases P.ham w.circ.bd mem (P.expOps w.circ.bd w.circ.m) (P.lc w.circ.bd mem) w.vals w.flux <;> rfl

/-! ## C49 eigen-data freshness -/

/-- Right after a successful `diag`, and as long as the circuit (apart from stored trigonometric
operators), the element values and the loop values stay as they are, the readable eigenpairs are those
of the present Hamiltonian. (Missing: after changes of offset, flux, values or truncation they are
stale, see `C49_stale` and `C49_refuted`.) -/
theorem C49_fresh_partial (w w' w'' : World P) (k : Option ℤ) (fr : List ℝ) (vs : List P.Vec)
    (h : diag k w = (.ok (fr, vs), w'))
    (hsame : ∃ t u, w'' = { w' with circ := { w'.circ with trig := t }, unitFreq := u }) :
    ∃ H k' raw, k = some k' ∧ (hamiltonian w'').1 = .ok H ∧ P.eigs H k' = .ok raw ∧
      w''.circ.efreqs = (sortEigs P.argsort raw).1 ∧ w''.circ.evecs = (sortEigs P.argsort raw).2 := by
  obtain ⟨H, k', raw, t, hk, hH, hraw, hfr, hvs, hw'⟩ := diag_ok h
  obtain ⟨t', u, rfl⟩ := hsame
  subst hw'
  refine ⟨H, k', raw, hk, ?_, hraw, rfl, rfl⟩
  rw [← hH]
  unfold hamiltonian
  simp only
  split
  · rfl
  · split
    · split <;> rfl
    · rfl

/-- After a successful `update` the eigenpairs cannot be read. -/
theorem C49_update_clears_partial (w : World P) (h : (update w).1 = .ok ()) :
    efreqs (update w).2 = .error .circuitState ∧ evecs (update w).2 = .error .circuitState := by
  rcases update_cases w with ⟨e, h1⟩ | ⟨bd, hbd, ⟨e, h1⟩ | ⟨mem, hmem, h1⟩⟩
  · rw [h1] at h; cases h
  · rw [h1] at h; cases h
  · rw [h1]; exact ⟨rfl, rfl⟩

/-- Every other call leaves the readable eigenpairs exactly as they were, although most change the
Hamiltonian. -/
theorem C49_stale (a : Act) (w : World P) (h : (∀ x, a ≠ .diag x) ∧ a ≠ .update) :
    (a.exec w).2.circ.efreqs = w.circ.efreqs ∧ evecs (a.exec w).2 = evecs w := by
  obtain ⟨h1, h2⟩ := exec_eigs a w h
  exact ⟨h1, by unfold evecs; rw [h2]⟩

end SQ
