import Verif.Props.DephasingSession
import Verif.Props.ChargePeriod

/-!
# C113: charge noise
-/

namespace SQ
open Matrix Complex SQ.Spec Filter Topology

variable {c : CircSpec} {eigs : EigsFn} {as : List ℂ → List ℕ}

theorem diag_of_ham {P : Phys} {w w' : World P} (hm : w.circ.m ≠ []) (hm' : w'.circ.m ≠ [])
    (hu : w'.unitFreq = w.unitFreq) (hH : (hamiltonian w').1 = (hamiltonian w).1) (k : ℤ) :
    (diag (some k) w').1 = (diag (some k) w).1 := by
  have key : ∀ v : World P, v.circ.m ≠ [] → (diag (some k) v).1 = match (hamiltonian v).1 with
      | .error e => .error e
      | .ok H => match P.eigs H k with
        | .error e => .error e
        | .ok raw => .ok ((sortEigs P.argsort raw).1.map (fun f => f / (2 * Real.pi * v.unitFreq)),
            (sortEigs P.argsort raw).2) := by
    intro v hv
    unfold diag diagNp
    rw [if_neg (by rw [List.length_eq_zero_iff]; exact hv)]
    simp only
    have hun : (hamiltonian v).2.unitFreq = v.unitFreq := by
      unfold hamiltonian
      rw [if_neg (by rw [List.length_eq_zero_iff]; exact hv)]
      split
      · split <;> rfl
      · rfl
    rcases hh : hamiltonian v with ⟨r, v'⟩
    rw [hh] at hun
    cases r with
    | error e => rfl
    | ok H =>
      simp only
      cases P.eigs H k with
      | error e => rfl
      | ok raw =>
        simp only at hun ⊢
        rw [hun]
  rw [key w hm, key w' hm', hH, hu]

/-- one call of `set_charge_offset` on a charge mode of a truncated circuit -/
theorem offset_one {w : World (circPhys c eigs as)} (hm : w.circ.m ≠ [])
    (hmem : ∃ mem, w.circ.bd.memOps w.circ.m w.circ.ng = .ok mem) {i : ℕ} (hi : w.circ.bd.isCharge i = true) (t : ℝ) :
    (Act.exec (.setChargeOffset (some ((i : ℤ) + 1)) t) w).1 = .ok () ∧
    (Act.exec (.setChargeOffset (some ((i : ℤ) + 1)) t) w).2.circ.bd = w.circ.bd ∧
    (Act.exec (.setChargeOffset (some ((i : ℤ) + 1)) t) w).2.circ.m = w.circ.m ∧
    (Act.exec (.setChargeOffset (some ((i : ℤ) + 1)) t) w).2.vals = w.vals ∧
    (Act.exec (.setChargeOffset (some ((i : ℤ) + 1)) t) w).2.flux = w.flux ∧
    (Act.exec (.setChargeOffset (some ((i : ℤ) + 1)) t) w).2.unitFreq = w.unitFreq ∧
    (Act.exec (.setChargeOffset (some ((i : ℤ) + 1)) t) w).2.circ.ng = Function.update w.circ.ng i (some t) := by
  obtain ⟨mem, hmem⟩ := hmem
  unfold Build.memOps at hmem
  split at hmem
  · cases hmem
  rename_i c1
  split at hmem
  · cases hmem
  rename_i c2
  split at hmem
  · cases hmem
  rename_i c3
  have hne : w.circ.ng i ≠ none := fun hn => c3 ⟨i, hi, hn⟩
  rcases ho : w.circ.islands i with _ | o
  · exact absurd (by simp [Circ.ng, ho]) hne
  have hisl : islandOf w.circ (some ((i : ℤ) + 1)) = some (i, o) := by
    unfold islandOf
    simp [ho]
  have hng : (w.circ.setIsland i (o.setOffset t)).ng = Function.update w.circ.ng i (some t) := by
    funext j
    by_cases hja : j = i
    · subst hja
      simp [Circ.ng, Circ.setIsland, ChargeObj.setOffset]
    · simp [Circ.ng, Circ.setIsland, hja]
  have hok : ∃ mem', (circPhys c eigs as).memOps w.circ.bd w.circ.m (w.circ.setIsland i (o.setOffset t)).ng = .ok mem' := by
    show ∃ mem', Build.memOps w.circ.bd w.circ.m (w.circ.setIsland i (o.setOffset t)).ng = .ok mem'
    unfold Build.memOps
    rw [if_neg c1, if_neg c2, if_neg]
    · exact ⟨_, rfl⟩
    · rintro ⟨j, hj, hn⟩
      refine c3 ⟨j, hj, ?_⟩
      rw [hng] at hn
      by_cases hji : j = i
      · subst hji; simp at hn
      · rwa [Function.update_of_ne hji] at hn
  obtain ⟨mem', hmem'⟩ := hok
  have he : Act.exec (.setChargeOffset (some ((i : ℤ) + 1)) t) w = (.ok (), { w with circ :=
      { w.circ.setIsland i (o.setOffset t) with mem := some mem',
                                                      lc := some ((circPhys c eigs as).lc w.circ.bd mem') } }) := by
    show setChargeOffset (some ((i : ℤ) + 1)) t w = _
    unfold setChargeOffset
    rw [hisl]
    simp only
    rw [if_neg (by rw [List.length_eq_zero_iff]; exact hm), hmem']
  rw [he]
  exact ⟨rfl, rfl, rfl, rfl, rfl, rfl, hng⟩

/-- the charge-noise rate of stored eigenvectors -/
theorem noise_charge {bd : Build} {m : Fin bd.M.keep.length → ℕ} {ng val fluxes P} {noise : NoiseSpec bd.loops.length}
    {env : NoiseEnv} {ef : List ℝ} {ev : List (Idx m → ℂ)} {p q : ℕ} {psi psi' : Idx m → ℂ} {total : Bool}
    (hp : ev[p]? = some psi) (hq : ev[q]? = some psi') (hpf : p < ef.length) (hqf : q < ef.length) :
    open Classical in
    (bd.noise c m ng val fluxes P noise env ef ev).decRate "charge" (p, q) total =
      .ok (.val (∑ i, if bd.M.omega i = 0 then |sens psi psi' (partialHng bd.M.cInv (buildMem bd.M.data m ng) i) *
        (noise.chargeA i * 2 * eCharge)| * √(2 * |Real.log (env.omegaLow * env.tExp)|) else 0)) := by
  classical
  rw [decRate_eq]
  obtain ⟨w, w', hpair⟩ := pair_stored (bd.noise c m ng val fluxes P noise env ef ev) hp hq hpf hqf
  rw [hpair]
  simp only
  unfold NoiseCirc.rateOf
  simp only [String.reduceEq, if_false, if_true]
  rw [chargeRate_eq (bd.noise c m ng val fluxes P noise env ef ev)
    (fun i => partialHng_herm bd.M.data m ng bd.M.cInv i) psi psi']
  congr 2
  refine (sum_filter_finRange _ _).trans (Finset.sum_congr rfl fun i _ => ?_)
  by_cases hi : bd.M.omega i = 0
  · rw [if_pos hi, if_pos (by exact decide_eq_true hi)]
    rfl
  · rw [if_neg hi, if_neg (by exact fun h => hi (of_decide_eq_true h))]

/-- slope of a reported transition frequency along a family of states in which only one charge offset changes -/
theorem charge_core (he : EigsLowest eigs) (ha : CArgsortSpec as) (w : World (circPhys c eigs as)) (hm : w.circ.m ≠ [])
    (bd : Build) (hbok : BuildOK bd) (hsym : bd.M.cInv.IsSymm) (d : Fin bd.M.keep.length → ℕ)
    (ng : Fin bd.M.keep.length → ℝ) (i : Fin bd.M.keep.length) (hi : bd.M.omega i = 0)
    (wt : ℝ → World (circPhys c eigs as)) (hmt : ∀ t, (wt t).circ.m ≠ []) (hut : ∀ t, (wt t).unitFreq = w.unitFreq)
    (hham : (hamiltonian w).1 =
      (fullHamiltonian bd.C bd.M d ng w.vals (bd.fluxes w.flux) bd.inds bd.juns).map
        (fun H => (⟨_, d, H⟩ : Σ (k : ℕ) (d : Fin k → ℕ), Op d)))
    (hhamt : ∀ t, (hamiltonian (wt t)).1 =
      (fullHamiltonian bd.C bd.M d (Function.update ng i t) w.vals (bd.fluxes w.flux) bd.inds bd.juns).map
        (fun H => (⟨_, d, H⟩ : Σ (k : ℕ) (d : Fin k → ℕ), Op d)))
    (num p q : ℕ) (hp : p + 1 < num) (hq : q + 1 < num) (hdim : num + 1 < Fintype.card (Idx d))
    (hsp : SimpleLevel (reported num w) p) (hsq : SimpleLevel (reported num w) q)
    (F : List ℝ) (ev : List (Idx d → ℂ)) (hev : (diag (some num) w).1 = .ok (F, ev.map fun v => ⟨_, d, v⟩))
    (psi psi' : Idx d → ℂ) (hpsi : ev[p]? = some psi) (hpsi' : ev[q]? = some psi') :
    HasDerivAt (fun t => transition num p q (wt t))
      (-(2 * eCharge) * sens psi psi' (partialHng bd.M.cInv (buildMem bd.M.data d ng) i) / (2 * Real.pi * w.unitFreq))
      (ng i) := by
  obtain ⟨G, hG, hd⟩ := ham_ng_deriv bd.C bd.M hbok.1 bd.M.data hsym d ng w.vals (bd.fluxes w.flux) bd.inds bd.juns
    hbok.2 hi
  have hGh : ∀ t, (G t).IsHermitian := by
    intro t
    obtain ⟨X, hX, hXh⟩ := C40_hermitian bd.C bd.M hbok.1 d (Function.update ng i t) w.vals (bd.fluxes w.flux) bd.inds
      bd.juns hbok.2
    rw [← Except.ok.inj (hX.symm.trans (hG t))]; exact hXh
  have hH : ∀ t, (hamiltonian (wt t)).1 = .ok ⟨_, d, G t⟩ := by
    intro t
    rw [hhamt t, show fullHamiltonian bd.C bd.M d (Function.update ng i t) w.vals (bd.fluxes w.flux) bd.inds bd.juns =
      .ok (G t) from hG t]
    rfl
  have hxd : (diag (some (num : ℤ)) (wt (ng i))).1 = (diag (some (num : ℤ)) w).1 := by
    refine diag_of_ham hm (hmt _) (hut _) ?_ _
    rw [hhamt, hham, Function.update_eq_self]
  have hx : reported num (wt (ng i)) = reported num w := by
    unfold reported
    rw [hxd]
  have := transition_slope he ha wt hmt G hH hGh w.unitFreq hut num hdim p q hp hq _ _ hd (by rw [hx]; exact hsp)
    (by rw [hx]; exact hsq) F ev (by rw [hxd]; exact hev) psi psi' hpsi hpsi'
  refine this.congr_deriv ?_
  have e : -((2 * eCharge : ℝ) : ℂ) = ((-(2 * eCharge) : ℝ) : ℂ) := (ofReal_neg _).symm
  rw [e, sens_smul]
  rfl

/-- C113, charge noise: in every state of a circuit object reached without `update`, for two levels which the frequencies
returned by `diag(num)` show not to be degenerate, `dec_rate("charge", (p, q))` is the sum over the charge modes of
|noise amplitude of the island × slope of the reported transition frequency, in rad/s, as a function of the argument of
`set_charge_offset` for that mode| × √(2|ln(ω_low t_exp)|). -/
theorem C113_charge (he : EigsLowest eigs) (ha : CArgsortSpec as) (vals : ElemId → ℝ) (hc : GoodCircuit c vals)
    (flux : LoopId → ℝ) (u : ℝ)
    (w0 : World (circPhys c eigs as)) (hw : construct (circPhys c eigs as) vals flux u = .ok w0)
    (h : List Act) (hh : Orderly w0 h) (hup : ∀ x ∈ h, x ≠ .update) (hm : (run w0 h).circ.m ≠ [])
    (hu : 0 < (run w0 h).unitFreq) (num p q : ℕ) (hp : p + 1 < num) (hq : q + 1 < num)
    (hdim : num + 1 < Fintype.card (Idx ((run w0 h).circ.bd.dims (run w0 h).circ.m)))
    (hsp : SimpleLevel (reported num (run w0 h)) p) (hsq : SimpleLevel (reported num (run w0 h)) q)
    (noise : ObjNoise) (env : NoiseEnv) (total : Bool) :
    (∀ i, (run w0 h).circ.bd.isCharge i = true →
      DifferentiableAt ℝ (fun t => transition num p q (run w0 (h ++ [.setChargeOffset (some ((i : ℤ) + 1)) t])))
        (((run w0 h).circ.ng i).getD 0)) ∧
    sessionRate noise env "charge" (p, q) total (run w0 (h ++ [.diag (some num)])) =
      some (.ok (.val (∑ i ∈ (Finset.range (run w0 h).circ.bd.M.keep.length).filter
          (fun i => (run w0 h).circ.bd.isCharge i = true),
        |(((run w0 h).circ.islands i).map ChargeObj.A).getD 0 * (2 * Real.pi * (run w0 h).unitFreq *
          deriv (fun t => transition num p q (run w0 (h ++ [.setChargeOffset (some ((i : ℤ) + 1)) t])))
            (((run w0 h).circ.ng i).getD 0))| * √(2 * |Real.log (env.omegaLow * env.tExp)|)))) := by
  classical
  have hs := hc.noSelf
  have hb : buildCirc c vals = .ok (run w0 h).circ.bd := by
    rw [run_bd h w0 hup]; exact (construct_build hw).1
  have hsym := good_cInv_symm hc hb
  obtain ⟨F, ef, ev, psi, psi', hd, hpsi, hpsi', hpf, hqf, hrate⟩ :=
    session_pair he ha hs vals flux u w0 hw h hh hm num p q hp hq hdim noise env total
  obtain ⟨hbok, hkeys, hnd, hham⟩ := ham_now hs hw hh hm
  obtain ⟨-, hops⟩ := coherent_run (P := circPhys c eigs as) (fun _ _ => True) h w0 vals
    (coherent_construct hw fun _ _ => trivial) hh (fun _ _ _ _ _ => trivial)
  obtain ⟨mem, hmem, -⟩ := hops.resolve_left hm
  have hone := fun (i : ℕ) hi t => offset_one (w := run w0 h) hm ⟨mem, hmem⟩ (i := i) hi t
  have key : ∀ i : Fin (run w0 h).circ.bd.M.keep.length, (run w0 h).circ.bd.M.omega i = 0 →
      HasDerivAt (fun t => transition num p q ((Act.setChargeOffset (some (((i : ℕ) : ℤ) + 1)) t).exec (run w0 h)).2)
      (-(2 * eCharge) * sens psi psi' (partialHng (run w0 h).circ.bd.M.cInv (buildMem (run w0 h).circ.bd.M.data _
        (fun i => ((run w0 h).circ.ng i).getD 0)) i) / (2 * Real.pi * (run w0 h).unitFreq))
      (((run w0 h).circ.ng i).getD 0) := by
    intro i hi
    have hone' := hone i ((isCharge_iff_omega _ i).2 hi)
    refine charge_core he ha (run w0 h) hm (run w0 h).circ.bd hbok hsym _ _ i hi _ (fun t => ?_) (fun t => ?_)
      (hham _ rfl) (fun t => ?_) num p q hp hq hdim hsp hsq F ev hd psi psi' hpsi hpsi'
    · rw [(hone' t).2.2.1]; exact hm
    · exact (hone' t).2.2.2.2.2.1
    · obtain ⟨i1, i2, i3, i4, i5, i6, i7⟩ := hone' t
      have hh' : Orderly w0 (h ++ [.setChargeOffset (some (((i : ℕ) : ℤ) + 1)) t]) := orderly_snoc hh fun _ => i1
      have hr' : run w0 (h ++ [.setChargeOffset (some (((i : ℕ) : ℤ) + 1)) t]) = _ := run_snoc w0 h _
      obtain ⟨-, -, -, hham'⟩ := ham_now hs hw hh' (by rw [hr', i3]; exact hm)
      have hh2 := hham' _ rfl
      rw [hr'] at hh2
      refine hh2.trans ?_
      have gen : ∀ (bd' bd : Build) (m' m : List ℤ) (ng' ng : ℕ → Option ℝ) (v v' : ElemId → ℝ) (f f' : LoopId → ℝ)
          (i : Fin bd.M.keep.length), bd' = bd → m' = m → ng' = Function.update ng i (some t) → v' = v → f' = f →
          (fullHamiltonian bd'.C bd'.M (bd'.dims m') (fun i => (ng' i).getD 0) v' (bd'.fluxes f') bd'.inds bd'.juns).map
            (fun H => (⟨_, _, H⟩ : Σ (k : ℕ) (d : Fin k → ℕ), Op d)) =
          (fullHamiltonian bd.C bd.M (bd.dims m) (Function.update (fun i : Fin bd.M.keep.length => (ng i).getD 0) i t)
            v (bd.fluxes f) bd.inds bd.juns).map (fun H => (⟨_, _, H⟩ : Σ (k : ℕ) (d : Fin k → ℕ), Op d)) := by
        rintro bd' bd m' m ng' ng v v' f f' i rfl rfl rfl rfl rfl
        congr 2
        funext j
        by_cases hj : j = i
        · subst hj; simp
        · rw [Function.update_of_ne hj, Function.update_of_ne (fun h => hj (Fin.ext h))]
      exact gen _ _ _ _ _ _ _ _ _ _ i i2 i3 i7 i4 i5
  have hr := (hrate "charge").trans (congrArg some (noise_charge hpsi hpsi' hpf hqf))
  simp only [run_snoc]
  refine ⟨?_, hr.trans ?_⟩
  · intro i hi
    have hlt : i < (run w0 h).circ.bd.M.keep.length := by
      unfold Build.isCharge at hi
      by_contra hlt
      rw [dif_neg hlt] at hi
      cases hi
    exact (key ⟨i, hlt⟩ ((isCharge_iff_omega _ ⟨i, hlt⟩).1 hi)).differentiableAt
  · congr 3
    rw [Finset.sum_filter, Finset.sum_range]
    refine Finset.sum_congr rfl fun i _ => ?_
    by_cases hi : (run w0 h).circ.bd.M.omega i = 0
    · rw [if_pos hi, if_pos ((isCharge_iff_omega _ i).2 hi), (key i hi).deriv]
      generalize sens psi psi' _ = s
      have hπ := Real.pi_pos.ne'
      have hu' := hu.ne'
      rw [← abs_neg]
      congr 2
      show -(s * ((((run w0 h).circ.islands i).map ChargeObj.A).getD 0 * 2 * eCharge)) = _
      field_simp
    · rw [if_neg hi, if_neg (fun h => hi ((isCharge_iff_omega _ i).1 h))]

end SQ
