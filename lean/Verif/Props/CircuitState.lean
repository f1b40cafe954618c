import Verif.Lemmas.LcState
import Verif.Props.State
import Verif.Spec.CircuitState

/-! # C36, C40, C45, C48, C49 for circuit objects of actual circuits -/

namespace SQ
open Matrix Spec

variable {c : CircSpec} {eigs : EigsFn} {as : List ℂ → List ℕ}

theorem construct_build {vals : ElemId → ℝ} {flux : LoopId → ℝ} {u : ℝ}
    {w0 : World (circPhys c eigs as)} (hw : construct (circPhys c eigs as) vals flux u = .ok w0) :
    buildCirc c vals = .ok w0.circ.bd ∧ w0.circ.m = [] := by
  unfold construct at hw
  split at hw
  · cases hw
  · rename_i bd hbd
    injection hw with hw
    subst hw
    exact ⟨hbd, rfl⟩

theorem run_k (h : List Act) (w : World (circPhys c eigs as)) :
    (run w h).circ.bd.k = w.circ.bd.k :=
  run_nModes (P := circPhys c eigs as) (fun n v b hb => rebuild_k n v b hb) h w

/-- `update` recomputes what construction computes where no modes are removed -/
theorem rebuild_at {vals : ElemId → ℝ} {flux : LoopId → ℝ} {u : ℝ}
    {w0 : World (circPhys c eigs as)} (hw : construct (circPhys c eigs as) vals flux u = .ok w0)
    (h1 h2 : List Act) (hrem : NoRemoval c w0 (h1 ++ .update :: h2)) :
    rebuildCirc c (run w0 h1).circ.bd.k (run w0 h1).vals = buildCirc c (run w0 h1).vals := by
  have hb := (construct_build hw).1
  rw [run_k h1 w0]
  rcases hrem h1 h2 rfl with ht | ⟨hn, hfull⟩
  · exact rebuild_eq_torch c ht hb _
  · exact rebuild_eq_full c hn _ hfull

/-! ## C36 update -/

/-- If construction removed modes, `update` raises an exception in every later state. -/
theorem C36_removed (vals : ElemId → ℝ) (flux : LoopId → ℝ) (u : ℝ)
    (w0 : World (circPhys c eigs as)) (hw : construct (circPhys c eigs as) vals flux u = .ok w0)
    (hk : w0.circ.bd.k < w0.circ.bd.n) (h : List Act) :
    ∃ e, (update (run w0 h)).1 = .error e := by
  have hb := (construct_build hw).1
  obtain ⟨e, he⟩ := rebuild_removed c (v := (run w0 h).vals) hb hk
  refine ⟨e, ?_⟩
  unfold update
  have he' : (circPhys c eigs as).rebuild ((circPhys c eigs as).nModes (run w0 h).circ.bd)
      (run w0 h).vals = .error e := by
    have h1 : (circPhys c eigs as).nModes (run w0 h).circ.bd = w0.circ.bd.k := run_k h w0
    rw [h1]; exact he
  rw [he']

/-- Before truncation numbers are set, `update` raises an exception for every circuit with modes. -/
theorem C36_untruncated (vals : ElemId → ℝ) (flux : LoopId → ℝ) (u : ℝ)
    (w0 : World (circPhys c eigs as)) (hw : construct (circPhys c eigs as) vals flux u = .ok w0)
    (hk : 0 < w0.circ.bd.k) (h : List Act) (hh : noTrunc h) :
    ∃ e, (update (run w0 h)).1 = .error e := by
  have hm : (run w0 h).circ.m = [] := by
    rw [run_m h w0 hh]; exact (construct_build hw).2
  have hkk := run_k h w0
  rcases update_cases (run w0 h) with ⟨e, h1⟩ | ⟨bd, hbd, ⟨e, h1⟩ | ⟨mem, hmem, h1⟩⟩
  · exact ⟨e, by rw [h1]⟩
  · exact ⟨e, by rw [h1]⟩
  · exfalso
    have hb : bd.k = (run w0 h).circ.bd.k := rebuild_k _ _ _ hbd
    rw [hm] at hmem
    have hmem' : bd.memOps [] (run w0 h).circ.ng = .ok mem := hmem
    unfold Build.memOps at hmem'
    rw [if_pos (by simp only [List.length_nil]; change 0 < bd.k; omega)] at hmem'
    cases hmem'

/-- Where no modes are removed, `update` (if the operators can be built with the stored truncation
numbers and charge islands) succeeds, and the circuit then has the matrices, transformations and
Hamiltonian of a circuit built from the current element values; truncation numbers and charge offsets
are kept, eigenpairs are discarded. (Missing: circuits from which modes were removed, and circuits
without truncation numbers, where `update` raises an exception, see `C36_removed`, `C36_untruncated`,
`C36_refuted`; circuits whose charge modes change.) -/
theorem C36_update_partial (vals : ElemId → ℝ) (flux : LoopId → ℝ) (u : ℝ)
    (w0 : World (circPhys c eigs as)) (hw : construct (circPhys c eigs as) vals flux u = .ok w0)
    (h : List Act) (hrem : NoRemoval c w0 (h ++ [.update])) (b : Build)
    (hb : buildCirc c (run w0 h).vals = .ok b) (mem)
    (hm : b.memOps (run w0 h).circ.m (run w0 h).circ.ng = .ok mem)
    (hm0 : (run w0 h).circ.m ≠ []) :
    let w := run w0 h
    let w' := (update w).2
    (update w).1 = .ok () ∧ w'.circ.bd = b ∧ w'.circ.m = w.circ.m ∧ w'.circ.ms = w.circ.ms ∧
    w'.circ.islands = w.circ.islands ∧ w'.circ.efreqs = [] ∧ w'.circ.evecs = [] ∧
    w'.vals = w.vals ∧ w'.flux = w.flux ∧
    (hamiltonian w').1 = (fullHamiltonian b.C b.M (b.dims w.circ.m) (fun i => (w.circ.ng i).getD 0)
      w.vals (b.fluxes w.flux) b.inds b.juns).map
        (fun H => (⟨_, _, H⟩ : Σ (k : ℕ) (d : Fin k → ℕ), Op d)) := by
  intro w w'
  have hre := rebuild_at hw h [] hrem
  have hre' : (circPhys c eigs as).rebuild ((circPhys c eigs as).nModes w.circ.bd) w.vals = .ok b :=
    hre.trans hb
  have hm' : (circPhys c eigs as).memOps b w.circ.m w.circ.ng = .ok mem := hm
  have hu := update_ok hre' hm'
  have hw' : w' = _ := congrArg Prod.snd hu
  simp only at hw'
  refine ⟨by rw [hu], by rw [hw'], by rw [hw'], by rw [hw'], by rw [hw'], by rw [hw'], by rw [hw'],
    by rw [hw'], by rw [hw'], ?_⟩
  rw [← freshHam_circuit c eigs as hb w.flux w.circ.ng w.circ.m hm, hw']
  unfold hamiltonian freshHam
  have hb' : (circPhys c eigs as).build w.vals = .ok b := hb
  rw [if_neg (by rw [List.length_eq_zero_iff]; exact hm0), hb']
  simp only
  rw [hm']
  simp only
  cases (circPhys c eigs as).ham b mem ((circPhys c eigs as).expOps b w.circ.m)
    ((circPhys c eigs as).lc b mem) w.vals w.flux <;> rfl

/-! ## C48 operator caches of actual circuits -/

/-- After any orderly history, `hamiltonian()` is the Hamiltonian determined by the current element
values, loop fluxes, charge offsets and truncation dimensions, whatever the order in which they were
set, provided values of elements other than junctions were not changed since construction or the last
`update`, and no `update` took place in a situation where modes are removed (see C36). -/
theorem C48_circuit (hcaps : CapsOK c.O) (vals : ElemId → ℝ) (flux : LoopId → ℝ) (u : ℝ)
    (w0 : World (circPhys c eigs as)) (hw : construct (circPhys c eigs as) vals flux u = .ok w0)
    (h : List Act) (hh : Orderly w0 h) (hrem : NoRemoval c w0 h) :
    let w := run w0 h
    (∀ i, (c.O.elem i).kind ≠ .jj → w.vals i = lastBuilt vals w0 h i) → w.circ.m ≠ [] →
      ∃ b, buildCirc c w.vals = .ok b ∧
        (hamiltonian w).1 = (fullHamiltonian b.C b.M (b.dims w.circ.m)
          (fun i => (w.circ.ng i).getD 0) w.vals (b.fluxes w.flux) b.inds b.juns).map
            (fun H => (⟨_, _, H⟩ : Σ (k : ℕ) (d : Fin k → ℕ), Op d)) := by
  intro w hv hm
  have hJ : ∀ v v' : ElemId → ℝ, (∀ i, ¬ (c.O.elem i).kind = .jj → v i = v' i) →
      (circPhys c eigs as).build v = (circPhys c eigs as).build v' := by
    intro v v' hvv
    exact buildCirc_congr c hcaps (fun i hi => (hvv i hi).symm)
  have hre : ∀ h1 h2, h = h1 ++ .update :: h2 →
      (circPhys c eigs as).rebuild ((circPhys c eigs as).nModes (run w0 h1).circ.bd)
        (run w0 h1).vals = (circPhys c eigs as).build (run w0 h1).vals := by
    intro h1 h2 he
    subst he
    exact rebuild_at hw h1 h2 hrem
  have hcoh := coherent_run (P := circPhys c eigs as) (fun v bd => buildCirc c v = .ok bd) h w0 vals
    (coherent_construct hw fun _ hb => hb) hh (fun h1 h2 he bd hbd => (hre h1 h2 he).symm.trans hbd)
  have hcirc := C48_coherence (P := circPhys c eigs as) (fun i => (c.O.elem i).kind = .jj) hJ vals flux
    u w0 hw h hh hre hv hm
  obtain ⟨hb, hops⟩ := hcoh
  have hb' : buildCirc c w.vals = .ok w.circ.bd := (hJ _ _ hv).trans hb
  refine ⟨_, hb', ?_⟩
  rcases hops with h0 | ⟨mem, hmem, -⟩
  · exact absurd h0 hm
  · rw [hcirc]
    exact freshHam_circuit c eigs as hb' w.flux w.circ.ng w.circ.m hmem

/-! ## C40 the Hamiltonian returned by a circuit is Hermitian -/

/-- Whatever the history, once truncation numbers are set `hamiltonian()` succeeds and returns a
Hermitian operator. -/
theorem C40_circuit (hs : NoSelfLoops c.els) (vals : ElemId → ℝ) (flux : LoopId → ℝ) (u : ℝ)
    (w0 : World (circPhys c eigs as)) (hw : construct (circPhys c eigs as) vals flux u = .ok w0)
    (h : List Act) (hh : Orderly w0 h) (hm : (run w0 h).circ.m ≠ []) :
    ∃ H : Σ (k : ℕ) (d : Fin k → ℕ), Op d,
      (hamiltonian (run w0 h)).1 = .ok H ∧ H.2.2.IsHermitian := by
  obtain ⟨hb, hops⟩ := coherent_run (P := circPhys c eigs as) (fun _ bd => BuildOK bd) h w0 vals
    (coherent_construct hw fun _ hb => build_valid hs hb) hh
    (fun h1 h2 he bd hbd => rebuild_valid hs hbd)
  rcases hops with h0 | ⟨mem, hmem, h1, h2, h3⟩
  · exact absurd h0 hm
  · obtain ⟨H, hH, hherm⟩ := C40_hermitian _ _ hb.1 (Build.dims _ (run w0 h).circ.m)
      (fun i => ((run w0 h).circ.ng i).getD 0) (run w0 h).vals (Build.fluxes _ (run w0 h).flux) _
      (Build.juns _) hb.2
    refine ⟨⟨_, _, H⟩, ?_, hherm⟩
    have hham := ham_mem hmem c eigs as (run w0 h).vals (run w0 h).flux
    rw [hH] at hham
    unfold hamiltonian
    rw [if_neg (by rw [List.length_eq_zero_iff]; exact hm), h1, h2, h3]
    simp only
    rw [hham]
    rfl

/-! ## C45 the stored eigenpairs are eigenpairs of the Hamiltonian -/

/-- After a successful `diag(num)` in any reachable state (with fewer eigenpairs requested than the
dimension minus one), every returned vector is an eigenvector of `hamiltonian()` for the stored
eigenvalue at the same position, the stored eigenvalues are non-decreasing, and there are `num` of
them. -/
theorem C45_eigenpairs (he : EigsSpec eigs) (ha : CArgsortSpec as) (hs : NoSelfLoops c.els)
    (vals : ElemId → ℝ) (flux : LoopId → ℝ) (u : ℝ)
    (w0 : World (circPhys c eigs as)) (hw : construct (circPhys c eigs as) vals flux u = .ok w0)
    (h : List Act) (hh : Orderly w0 h) (hm : (run w0 h).circ.m ≠ []) (num : ℤ) (h1 : 1 ≤ num) :
    ∃ (k : ℕ) (d : Fin k → ℕ) (H : Op d), (hamiltonian (run w0 h)).1 = .ok ⟨k, d, H⟩ ∧
      (num < (Fintype.card (Idx d) : ℤ) - 1 → ∃ pairs : List (ℝ × (Idx d → ℂ)), ∃ w',
        diag (some num) (run w0 h) = (.ok (pairs.map (fun p => p.1 / (2 * Real.pi * (run w0 h).unitFreq)),
          pairs.map (fun p => ⟨k, d, p.2⟩)), w') ∧
        w'.circ.efreqs = pairs.map Prod.fst ∧ w'.circ.evecs = pairs.map (fun p => ⟨k, d, p.2⟩) ∧
        (pairs.length : ℤ) = num ∧ (pairs.map Prod.fst).Pairwise (· ≤ ·) ∧
        ∀ p ∈ pairs, p.2 ≠ 0 ∧ H *ᵥ p.2 = (p.1 : ℂ) • p.2) := by
  obtain ⟨⟨k, d, H⟩, hH, hherm⟩ := C40_circuit hs vals flux u w0 hw h hh hm
  refine ⟨k, d, H, hH, ?_⟩
  intro hnum
  obtain ⟨l, hl, hlen, hpairs⟩ := he k d H num h1 hnum
  have hreal : ∀ p ∈ l, H *ᵥ p.2 = ((p.1.re : ℝ) : ℂ) • p.2 := by
    intro p hp
    have := hermitian_eigen_real hherm (hpairs p hp).1 (hpairs p hp).2
    rw [this]; exact (hpairs p hp).2
  obtain ⟨t, hd⟩ := diag_of_eigs (P := circPhys c eigs as) hm hH hl
  obtain ⟨hsort, -, -, prs, hperm, h1', h2'⟩ := C45_sorted as ha
    (l.map (fun p => (p.1, (⟨k, d, p.2⟩ : Σ (k : ℕ) (d : Fin k → ℕ), Idx d → ℂ))))
  -- the permuted pairs come from a permutation of `l`
  obtain ⟨l', hl', hprs⟩ := perm_map_exists hperm.symm
  have e1 : (sortEigs as
      (l.map (fun p => (p.1, (⟨k, d, p.2⟩ : Σ (k : ℕ) (d : Fin k → ℕ), Idx d → ℂ))))).1 =
      (l'.map (fun p => (p.1.re, p.2))).map Prod.fst := by
    rw [h1', ← hprs]; simp [List.map_map, Function.comp_def]
  have e2 : (sortEigs as
      (l.map (fun p => (p.1, (⟨k, d, p.2⟩ : Σ (k : ℕ) (d : Fin k → ℕ), Idx d → ℂ))))).2 =
      (l'.map (fun p => (p.1.re, p.2))).map (fun p => ⟨k, d, p.2⟩) := by
    rw [h2', ← hprs]; simp [List.map_map, Function.comp_def]
  have hd' := hd
  refine ⟨l'.map (fun p => (p.1.re, p.2)), (diag (P := circPhys c eigs as) (some num) (run w0 h)).2,
    ?_, by rw [hd']; exact e1, by rw [hd']; exact e2, ?_, ?_, ?_⟩
  · have e3 : (sortEigs as (l.map (fun p => (p.1,
        (⟨k, d, p.2⟩ : Σ (k : ℕ) (d : Fin k → ℕ), Idx d → ℂ))))).1.map
        (fun f => f / (2 * Real.pi * (run w0 h).unitFreq)) =
        (l'.map (fun p => (p.1.re, p.2))).map (fun p => p.1 / (2 * Real.pi * (run w0 h).unitFreq)) := by
      rw [e1, List.map_map]; rfl
    refine Prod.ext ?_ rfl
    rw [hd']
    exact congrArg Except.ok (Prod.ext e3 e2)
  · rw [List.length_map, ← hl'.length_eq]; exact hlen
  · rw [← e1]; exact hsort
  · intro p hp
    obtain ⟨q, hq, rfl⟩ := List.mem_map.1 hp
    have hq' := hl'.mem_iff.2 hq
    exact ⟨(hpairs q hq').1, hreal q hq'⟩

/-! ## Concrete circuits -/

section lc
variable {sv : SvdFn} {argsort : ArgsortFn} {argmax : ∀ k, ArgmaxFn k}

theorem lcBuild_k : (lcBuild false).k = 1 := by
  change (finishModes false lcFinal).keep.length = 1
  rw [lc_keep]; rfl

theorem lc_construct (hsv : SvdSpec sv) (ha : ArgsortSpec argsort) (v : ElemId → ℝ)
    (hv : ∀ i, i ≠ 2 → v i = lcVals i) (torch : Bool) (flux : LoopId → ℝ) (u : ℝ) :
    ∃ w0, construct (circPhys (lcSpec torch sv argsort argmax) eigs as) v flux u = .ok w0 ∧
      w0.circ.bd = lcBuild torch := by
  have hb : (circPhys (lcSpec torch sv argsort argmax) eigs as).build v = .ok (lcBuild torch) :=
    lc_build hsv ha argmax torch v hv
  unfold construct
  rw [hb]
  exact ⟨_, rfl, rfl⟩

/-- `update()` can never succeed on the circuit of a capacitor and an inductor next to a junction with
its capacitor, whatever calls and value changes were made before. -/
theorem C36_refuted (hsv : SvdSpec sv) (ha : ArgsortSpec argsort) (flux : LoopId → ℝ) (u : ℝ) :
    ∃ w0, construct (circPhys (lcSpec false sv argsort argmax) eigs as) lcVals flux u = .ok w0 ∧
      ∀ h, ∃ e, (update (run w0 h)).1 = .error e := by
  obtain ⟨w0, hw, hbd⟩ := lc_construct (eigs := eigs) (as := as) (argmax := argmax) hsv ha lcVals
    (fun _ _ => rfl) false flux u
  refine ⟨w0, hw, fun h => C36_removed lcVals flux u w0 hw ?_ h⟩
  rw [hbd, lcBuild_k]
  exact Nat.one_lt_two

theorem lc_isCharge (i : ℕ) : (lcBuild false).isCharge i = decide (i = 0) := by
  unfold Build.isCharge
  have hk : (lcBuild false).M.keep.length = 1 := lcBuild_k
  by_cases h : i < (lcBuild false).M.keep.length
  · rw [dif_pos h]
    have h0 := (C34_refuted (V := ℂ) (fun _ => 0) (fun _ => 0)).1 ⟨i, h⟩
    have h0' : (lcBuild false).M.omega ⟨i, h⟩ = 0 := h0
    rw [h0']
    simp [show i = 0 by omega]
  · rw [dif_neg h]
    simp [show i ≠ 0 by omega]

theorem lc_memOps (ng : ℕ → Option ℝ) (h : ng 0 ≠ none) :
    ∃ mem, (lcBuild false).memOps [3] ng = .ok mem := by
  have hk : (lcBuild false).M.keep.length = 1 := lcBuild_k
  unfold Build.memOps
  rw [if_neg (by simp [hk]), if_neg ?_, if_neg ?_]
  · exact ⟨_, rfl⟩
  · rintro ⟨i, hi, h0⟩
    rw [lc_isCharge] at hi
    have : i = 0 := by simpa using hi
    subst this
    exact h h0
  · rintro ⟨i, hi, h0⟩
    have : i = 0 := by omega
    subst this
    simp at h0

/-- Hamiltonian of the circuit with dimension 3 and without junction energy -/
theorem lc_ham (ng : ℕ → Option ℝ) (flux : LoopId → ℝ) (v : ElemId → ℝ) (hv : v 2 = 0) :
    fullHamiltonian (lcBuild false).C (lcBuild false).M ((lcBuild false).dims [3])
      (fun i => (ng i).getD 0) v ((lcBuild false).fluxes flux) (lcBuild false).inds
      (lcBuild false).juns = .ok (diagonal (fun x : Idx ((lcBuild false).dims [3]) =>
        ((chargeCoef * (((x ⟨0, by rw [show (lcBuild false).M.keep.length = 1 from lcBuild_k]; simp⟩ : ℕ) : ℝ)
          - 1 - (ng 0).getD 0) ^ 2 : ℝ) : ℂ))) := by
  have hk : (lcBuild false).M.keep.length = 1 := lcBuild_k
  rw [oneCharge_ham (lcBuild false).C (lcBuild false).M ((lcBuild false).dims [3])
      (fun i => (ng i).getD 0) v ((lcBuild false).fluxes flux) (lcBuild false).inds
      (lcBuild false).juns ⟨0, by rw [hk]; simp⟩ hk (by decide)]
  · congr 2
    funext x
    have : (((lcBuild false).dims [3] ⟨0, by rw [hk]; simp⟩ : ℕ) : ℝ) = 3 := by simp [Build.dims]
    rw [this]
    norm_num
  · intro key hkey
    have := List.mem_singleton.1 (show key ∈ [(⟨(0, 1), 0, 0⟩ : IndKey 2)] from hkey)
    subst this
    exact ⟨by simp, Nat.zero_le _, show 1 ≤ 2 by norm_num⟩
  · exact (C34_refuted (V := ℂ) (fun _ => 0) (fun _ => 0)).1
  · intro i
    rw [show (lcBuild false).M.cInv i i = _ from
      (((C32_uncoupled_removal lcFinal).2.2 false).2.2.2 i i).1]
    simp [lcFinal]
  · intro key hkey
    unfold Build.fluxes
    exact rfl
  · intro key hkey
    have := List.mem_singleton.1 (show key ∈ [(⟨(0, 2), 2, 1, 0⟩ : JunKey 2 1)] from hkey)
    subst this
    exact hv

theorem lc_islands (hsv : SvdSpec sv) (ha : ArgsortSpec argsort) (v : ElemId → ℝ)
    (hv : ∀ i, i ≠ 2 → v i = lcVals i) (flux : LoopId → ℝ) (u : ℝ) (w0)
    (hw : construct (circPhys (lcSpec false sv argsort argmax) eigs as) v flux u = .ok w0) :
    w0.circ.islands 0 = some (ChargeObj.init 0 1e-4) ∧ w0.vals = v ∧ w0.circ.bd = lcBuild false ∧
    w0.circ.m = [] := by
  have hb : (circPhys (lcSpec false sv argsort argmax) eigs as).build v = .ok (lcBuild false) :=
    lc_build hsv ha argmax false v hv
  unfold construct at hw
  rw [hb] at hw
  injection hw with hw
  subst hw
  refine ⟨if_pos ⟨?_, ?_⟩, rfl, rfl, rfl⟩
  · change 0 < (lcBuild false).k; rw [lcBuild_k]; exact Nat.one_pos
  · change (lcBuild false).isCharge 0 = true; rw [lc_isCharge]; rfl

/-- the circuit after `set_trunc_nums([2])` -/
theorem lc_trunc (hsv : SvdSpec sv) (ha : ArgsortSpec argsort) (v : ElemId → ℝ)
    (hv : ∀ i, i ≠ 2 → v i = lcVals i) (flux : LoopId → ℝ) (u : ℝ) (w0)
    (hw : construct (circPhys (lcSpec false sv argsort argmax) eigs as) v flux u = .ok w0) :
    (Act.exec (.setTruncNums (.list [2])) w0).1 = .ok () ∧
    (Act.exec (.setTruncNums (.list [2])) w0).2.circ.m = [3] ∧
    (Act.exec (.setTruncNums (.list [2])) w0).2.circ.islands = w0.circ.islands := by
  obtain ⟨hi, hvv, hbd, -⟩ := lc_islands hsv ha v hv flux u w0 hw
  have hlen : [(2 : ℤ)].length = (circPhys (lcSpec false sv argsort argmax) eigs as).nModes w0.circ.bd := by
    rw [hbd]; exact lcBuild_k.symm
  have hdims : dimsOf (circPhys (lcSpec false sv argsort argmax) eigs as) w0.circ.bd [2] = [3] := by
    unfold dimsOf
    rw [← hlen, hbd]
    have : (circPhys (lcSpec false sv argsort argmax) eigs as).isCharge (lcBuild false) 0 = true := by
      change (lcBuild false).isCharge 0 = true; rw [lc_isCharge]; rfl
    simp [List.range_succ, this]
  obtain ⟨mem, hmem⟩ := lc_memOps w0.circ.ng (by unfold Circ.ng; rw [hi]; simp)
  have hmem' : ∃ mem, (circPhys (lcSpec false sv argsort argmax) eigs as).memOps w0.circ.bd
      (dimsOf (circPhys (lcSpec false sv argsort argmax) eigs as) w0.circ.bd [2]) w0.circ.ng = .ok mem := by
    rw [hdims, hbd]; exact ⟨mem, hmem⟩
  obtain ⟨mem', hm'⟩ := hmem'
  have := setTruncNums_ok hlen hm'
  simp only [Act.exec]
  rw [this]
  exact ⟨rfl, hdims, rfl⟩

theorem lc_noSelf (torch : Bool) : NoSelfLoops (lcSpec torch sv argsort argmax).els := by
  intro p hp
  have hp' : p ∈ lcEls := hp
  have : ∀ p ∈ lcEls, p.1.1 ≠ p.1.2 := by decide
  exact this p hp'

theorem lc_card : Fintype.card (Idx ((lcBuild false).dims [3])) = 3 := by
  have hk : (lcBuild false).M.keep.length = 1 := lcBuild_k
  have h : ∀ i, (lcBuild false).dims [3] i = 3 := by
    intro i
    have : (i : ℕ) = 0 := by omega
    simp [Build.dims, this]
  rw [Fintype.card_pi]
  simp only [Fintype.card_fin, h]
  rw [Finset.prod_const, Finset.card_univ, Fintype.card_fin, hk]
  rfl

/-- the Hamiltonian after a history without `update` or changes of element values -/
theorem lc_ham_run (hsv : SvdSpec sv) (ha : ArgsortSpec argsort) (v : ElemId → ℝ)
    (hv : ∀ i, i ≠ 2 → v i = lcVals i) (hv2 : v 2 = 0) (flux : LoopId → ℝ) (u : ℝ) (w0)
    (hw : construct (circPhys (lcSpec false sv argsort argmax) eigs as) v flux u = .ok w0)
    (h : List Act) (hh : Orderly w0 h) (hu : Act.update ∉ h) (hvals : (run w0 h).vals = v)
    (hlb : lastBuilt v w0 h = v) (hm : (run w0 h).circ.m = [3]) :
    (hamiltonian (run w0 h)).1 = .ok (⟨_, (lcBuild false).dims [3],
      diagonal (fun x : Idx ((lcBuild false).dims [3]) =>
        ((chargeCoef * (((x ⟨0, by rw [show (lcBuild false).M.keep.length = 1 from lcBuild_k]; simp⟩ : ℕ) : ℝ)
          - 1 - ((run w0 h).circ.ng 0).getD 0) ^ 2 : ℝ) : ℂ))⟩ :
            Σ (k : ℕ) (d : Fin k → ℕ), Op d) := by
  obtain ⟨b, hb, hham⟩ := C48_circuit (c := lcSpec false sv argsort argmax) (eigs := eigs) (as := as)
    lcObjs_caps v flux u w0 hw h hh (by
      intro h1 h2 he
      exact absurd (by rw [he]; simp) hu) (by intro i _; rw [hvals, hlb]) (by rw [hm]; simp)
  rw [hvals, lc_build hsv ha argmax false v hv] at hb
  injection hb with hb
  subst hb
  rw [hham, hm, hvals, lc_ham _ _ v hv2]
  rfl

/-- The eigenfrequencies stored by `diag` outlive a change of the charge offset: in the circuit of
`C36_refuted` (whose junction has been given zero energy) after `set_trunc_nums([2])`, `diag(1)` and
`set_charge_offset(1, 1/2)`, the value returned by `efreqs` is not an eigenvalue of the Hamiltonian,
whatever correct eigensolver is used. -/
theorem C49_refuted (hsv : SvdSpec sv) (ha : ArgsortSpec argsort) (he : EigsSpec eigs)
    (hs : CArgsortSpec as) (flux : LoopId → ℝ) (u : ℝ) :
    ∃ w0, construct (circPhys (lcSpec false sv argsort argmax) eigs as)
        (fun i => if i = 2 then 0 else lcVals i) flux u = .ok w0 ∧
      let w := run w0 [.setTruncNums (.list [2]), .diag (some 1), .setChargeOffset (some 1) (1 / 2)]
      ∃ f H, w.circ.efreqs = [f] ∧ (hamiltonian w).1 = .ok H ∧ ¬ IsEigenvalue H (f : ℂ) := by
  set v : ElemId → ℝ := fun i => if i = 2 then 0 else lcVals i with hvdef
  have hv : ∀ i, i ≠ 2 → v i = lcVals i := by intro i hi; simp [hvdef, hi]
  have hv2 : v 2 = 0 := by simp [hvdef]
  obtain ⟨w0, hw, -⟩ := lc_construct (eigs := eigs) (as := as) (argmax := argmax) hsv ha v hv false flux u
  obtain ⟨hi, hvv, hbd, hm0⟩ := lc_islands hsv ha v hv flux u w0 hw
  obtain ⟨ht1, ht2, ht3⟩ := lc_trunc hsv ha v hv flux u w0 hw
  refine ⟨w0, hw, ?_⟩
  have ho1 : Orderly w0 [.setTruncNums (.list [2])] := ⟨fun _ => .inl ht1, trivial⟩
  have hvals1 : (run w0 [.setTruncNums (.list [2])]).vals = v := by
    rw [← hvv]
    change (setTruncNums _ w0).2.vals = _
    rcases setTruncNums_cases (.list [2]) w0 with ⟨h, -⟩ | ⟨nums, -, -, ⟨e, -, h⟩ | ⟨mem, -, -, h⟩⟩ <;> rw [h]
  have hm1 : (run w0 [.setTruncNums (.list [2])]).circ.m = [3] := ht2
  have hH1 := lc_ham_run hsv ha v hv hv2 flux u w0 hw [.setTruncNums (.list [2])] ho1 (by simp) hvals1
    rfl hm1
  obtain ⟨k, d, H, hH, hpairs⟩ := C45_eigenpairs he hs (lc_noSelf false) v flux u w0 hw
    [.setTruncNums (.list [2])] ho1 (by rw [hm1]; simp) 1 le_rfl
  rw [hH1] at hH
  injection hH with hH
  cases hH
  obtain ⟨pairs, w2, hdiag, hef, -, hlen, -, hpair⟩ := hpairs (by rw [lc_card]; norm_num)
  obtain ⟨t, f, vs, hfr⟩ := diag_frame (some 1) (run w0 [.setTruncNums (.list [2])])
  obtain ⟨p, rfl⟩ : ∃ p, pairs = [p] := List.length_eq_one_iff.1 (by exact_mod_cast hlen)
  have hng1 : ((run w0 [.setTruncNums (.list [2])]).circ.ng 0) = some 0 := by
    unfold Circ.ng
    rw [show (run w0 [.setTruncNums (.list [2])]).circ.islands = _ from ht3, hi]
    simp [ChargeObj.init]
  obtain ⟨x, hx⟩ := diagonal_eigen (hpair p (by simp)).1 (hpair p (by simp)).2
  set w1 := run w0 [.setTruncNums (.list [2])] with hw1
  have hw2 : (Act.exec (.diag (some 1)) w1).2 = w2 := by
    simp only [Act.exec]; rw [hdiag]
  rw [hdiag] at hfr
  simp only at hfr
  have hbd2 : w2.circ.bd = lcBuild false := by
    rw [hfr]
    exact (exec_bd _ w0 (by simp)).trans hbd
  have hvals2 : w2.vals = v := by rw [hfr]; exact hvals1
  have hm2 : w2.circ.m = [3] := by rw [hfr]; exact hm1
  have hi2 : w2.circ.islands 0 = some (ChargeObj.init 0 1e-4) := by
    rw [hfr]; exact (congrFun ht3 0).trans hi
  have hio : islandOf w2.circ (some 1) = some (0, ChargeObj.init 0 1e-4) := by
    simp [islandOf, hi2]
  obtain ⟨mem, hmem⟩ := lc_memOps (w2.circ.setIsland 0 ((ChargeObj.init 0 1e-4).setOffset (1 / 2))).ng
    (by simp [Circ.ng, Circ.setIsland])
  have hmem' : ∃ mem, (circPhys (lcSpec false sv argsort argmax) eigs as).memOps w2.circ.bd w2.circ.m
      (w2.circ.setIsland 0 ((ChargeObj.init 0 1e-4).setOffset (1 / 2))).ng = .ok mem := by
    rw [hm2, hbd2]; exact ⟨mem, hmem⟩
  obtain ⟨mem', hm'⟩ := hmem'
  have hso := setChargeOffset_ok hio (by rw [hm2]; simp) hm'
  set hist : List Act := [.setTruncNums (.list [2]), .diag (some 1), .setChargeOffset (some 1) (1 / 2)]
    with hhist
  have hrun : run w0 hist = (setChargeOffset (some 1) (1 / 2) w2).2 := by
    rw [hhist, ← hw2]; rfl
  have ho : Orderly w0 hist := by
    refine ⟨fun _ => .inl ht1, fun h => by simp [modifies] at h, fun _ => .inl ?_, trivial⟩
    change (setChargeOffset (some 1) (1 / 2) (Act.exec (.diag (some 1)) w1).2).1 = _
    rw [hw2, hso]
  have hH2 := lc_ham_run hsv ha v hv hv2 flux u w0 hw hist ho (by simp [hhist])
    (by rw [hrun, hso]; exact hvals2) rfl (by rw [hrun, hso]; exact hm2)
  refine ⟨p.1, _, ?_, hH2, ?_⟩
  · rw [hrun, hso]
    exact hef
  · rintro ⟨y, hy, hey⟩
    obtain ⟨z, hz⟩ := diagonal_eigen hy hey
    have hng2 : ((run w0 hist).circ.ng 0) = some (1 / 2) := by
      rw [hrun, hso]
      simp [Circ.ng, Circ.setIsland, ChargeObj.setOffset]
    rw [hng2] at hz
    rw [hng1] at hx
    rw [hx] at hz
    have hz' := Complex.ofReal_injective hz
    have hz2 := mul_left_cancel₀ chargeCoef_pos.ne' hz'
    simp only [Option.getD_some] at hz2
    generalize ((x _ : Fin _) : ℕ) = a at hz2
    generalize ((z _ : Fin _) : ℕ) = b at hz2
    have h4 : (2 * ((a : ℤ) - 1)) ^ 2 = (2 * (b : ℤ) - 3) ^ 2 := by
      have : (2 * ((a : ℝ) - 1)) ^ 2 = (2 * (b : ℝ) - 3) ^ 2 := by linarith [hz2]
      exact_mod_cast this
    rcases sq_eq_sq_iff_eq_or_eq_neg.1 h4 with h | h <;> omega

/-- the hypotheses of the theorems above are met: the routines exist -/
example : ∃ (sv : SvdFn) (argsort : ArgsortFn) (eigs : EigsFn) (as : List ℂ → List ℕ),
    SvdSpec sv ∧ ArgsortSpec argsort ∧ EigsSpec eigs ∧ CArgsortSpec as := by
  obtain ⟨sv, h1⟩ := exists_svdFn
  obtain ⟨ar, h2⟩ := exists_argsort
  obtain ⟨ei, h3⟩ := exists_eigs
  obtain ⟨as, h4⟩ := exists_cargsort
  exact ⟨sv, ar, ei, as, h1, h2, h3, h4⟩

/-- Hypotheses of `C40_circuit`, `C45_eigenpairs` and `C48_circuit` on a concrete circuit and history:
set truncation numbers, change the junction energy and the charge offset. -/
example (hsv : SvdSpec sv) (ha : ArgsortSpec argsort) (flux : LoopId → ℝ) (u : ℝ) : ∃ w0,
    construct (circPhys (lcSpec false sv argsort argmax) eigs as) lcVals flux u = .ok w0 ∧
    NoSelfLoops (lcSpec false sv argsort argmax).els ∧ CapsOK (lcSpec false sv argsort argmax).O ∧
    Orderly w0 [.setTruncNums (.list [2]), .setValue 2 5] ∧
    NoRemoval (lcSpec false sv argsort argmax) w0 [.setTruncNums (.list [2]), .setValue 2 5] ∧
    (run w0 [.setTruncNums (.list [2]), .setValue 2 5]).circ.m ≠ [] ∧
    (∀ i, ((lcSpec false sv argsort argmax).O.elem i).kind ≠ .jj →
      (run w0 [.setTruncNums (.list [2]), .setValue 2 5]).vals i =
        lastBuilt lcVals w0 [.setTruncNums (.list [2]), .setValue 2 5] i) := by
  obtain ⟨w0, hw, -⟩ := lc_construct (eigs := eigs) (as := as) (argmax := argmax) hsv ha lcVals
    (fun _ _ => rfl) false flux u
  obtain ⟨ht1, ht2, ht3⟩ := lc_trunc hsv ha lcVals (fun _ _ => rfl) flux u w0 hw
  obtain ⟨-, hvv, -⟩ := lc_islands hsv ha lcVals (fun _ _ => rfl) flux u w0 hw
  refine ⟨w0, hw, lc_noSelf false, lcObjs_caps, ⟨fun _ => .inl ht1, fun h => by simp [modifies] at h,
    trivial⟩, ?_, ?_, ?_⟩
  · intro h1 h2 he
    have : Act.update ∈ [Act.setTruncNums (.list [2]), .setValue 2 5] := by rw [he]; simp
    simp at this
  · change (Act.exec (.setTruncNums (.list [2])) w0).2.circ.m ≠ []
    rw [ht2]; simp
  · intro i hi
    have h2 : i ≠ 2 := by
      rintro rfl
      exact hi (by simp [lcSpec, lcObjs])
    change Function.update ((Act.exec (.setTruncNums (.list [2])) w0).2.vals) 2 5 i = lcVals i
    rw [Function.update_of_ne h2, ← hvv]
    change (setTruncNums _ w0).2.vals i = _
    rcases setTruncNums_cases (.list [2]) w0 with ⟨h, -⟩ | ⟨nums, -, -, ⟨e, -, h⟩ | ⟨mem, -, -, h⟩⟩ <;> rw [h]

/-- Hypotheses of `C36_update_partial` on a concrete circuit (PyTorch engine, where both modes are
kept): truncation numbers are set, the junction energy is changed, and `update` is called. -/
example (hsv : SvdSpec sv) (ha : ArgsortSpec argsort) (flux : LoopId → ℝ) (u : ℝ) : ∃ w0,
    construct (circPhys (lcSpec true sv argsort argmax) eigs as) lcVals flux u = .ok w0 ∧
    NoRemoval (lcSpec true sv argsort argmax) w0 ([.setTruncNums (.list [2, 2])] ++ [.update]) ∧
    buildCirc (lcSpec true sv argsort argmax) (run w0 [.setTruncNums (.list [2, 2])]).vals =
      .ok (lcBuild true) ∧
    (∃ mem, (lcBuild true).memOps (run w0 [.setTruncNums (.list [2, 2])]).circ.m
      (run w0 [.setTruncNums (.list [2, 2])]).circ.ng = .ok mem) ∧
    (run w0 [.setTruncNums (.list [2, 2])]).circ.m = [2, 3] := by
  have hkeep : (lcBuild true).M.keep = List.finRange 2 := ((C32_uncoupled_removal lcFinal).2.1).2
  have hk : (lcBuild true).M.keep.length = 2 := by rw [hkeep]; rfl
  have hget : ∀ i : Fin (lcBuild true).M.keep.length, ((lcBuild true).M.keep.get i : ℕ) = i := by
    have : ∀ (l : List (Fin 2)) (_ : l = List.finRange 2) (i : Fin l.length), ((l.get i : Fin 2) : ℕ) = i := by
      rintro l rfl i; simp
    exact this _ hkeep
  have hom : ∀ i, (lcBuild true).M.omega i = (![1, 0] : Fin 2 → ℝ) (Fin.cast hk i) := by
    intro i
    have h1 := ((C32_uncoupled_removal lcFinal).2.2 true).2.1 i
    refine h1.trans ?_
    change (![1, 0] : Fin 2 → ℝ) _ = _
    congr 1
    exact Fin.ext (hget i)
  have hch : ∀ i, (lcBuild true).isCharge i = decide (i = 1) := by
    intro i
    unfold Build.isCharge
    by_cases h : i < (lcBuild true).M.keep.length
    · rw [dif_pos h, hom]
      have : i = 0 ∨ i = 1 := by omega
      rcases this with rfl | rfl <;> simp
    · rw [dif_neg h]
      simp [show i ≠ 1 by omega]
  have hb : (circPhys (lcSpec true sv argsort argmax) eigs as).build lcVals = .ok (lcBuild true) :=
    lc_build_init hsv ha argmax true
  obtain ⟨w0, hw, hbd⟩ := lc_construct (eigs := eigs) (as := as) (argmax := argmax) hsv ha lcVals
    (fun _ _ => rfl) true flux u
  have hw' := hw
  unfold construct at hw'
  rw [hb] at hw'
  injection hw' with hw'
  have hvv : w0.vals = lcVals := by rw [← hw']
  have hi : w0.circ.islands 1 = some (ChargeObj.init 0 1e-4) := by
    rw [← hw']
    refine if_pos ⟨?_, ?_⟩
    · change 1 < (lcBuild true).M.keep.length; rw [hk]; exact Nat.one_lt_two
    · change (lcBuild true).isCharge 1 = true; rw [hch]; rfl
  have hmem : ∃ mem, (lcBuild true).memOps [2, 3] w0.circ.ng = .ok mem := by
    unfold Build.memOps
    rw [if_neg (by simp [hk]), if_neg ?_, if_neg ?_]
    · exact ⟨_, rfl⟩
    · rintro ⟨i, h1, h0⟩
      rw [hch] at h1
      have : i = 1 := by simpa using h1
      subst this
      unfold Circ.ng at h0
      rw [hi] at h0
      simp at h0
    · rintro ⟨i, h1, h0⟩
      have : i = 0 ∨ i = 1 := by omega
      rcases this with rfl | rfl <;> simp at h0
  have hlen : [(2 : ℤ), 2].length = (circPhys (lcSpec true sv argsort argmax) eigs as).nModes w0.circ.bd := by
    rw [hbd]; exact hk.symm
  have hdims : dimsOf (circPhys (lcSpec true sv argsort argmax) eigs as) w0.circ.bd [2, 2] = [2, 3] := by
    unfold dimsOf
    rw [← hlen, hbd]
    have h0 : (circPhys (lcSpec true sv argsort argmax) eigs as).isCharge (lcBuild true) 0 = false := by
      change (lcBuild true).isCharge 0 = false; rw [hch]; rfl
    have h1 : (circPhys (lcSpec true sv argsort argmax) eigs as).isCharge (lcBuild true) 1 = true := by
      change (lcBuild true).isCharge 1 = true; rw [hch]; rfl
    simp [List.range_succ, h0, h1]
  have hmem' : ∃ mem, (circPhys (lcSpec true sv argsort argmax) eigs as).memOps w0.circ.bd
      (dimsOf (circPhys (lcSpec true sv argsort argmax) eigs as) w0.circ.bd [2, 2]) w0.circ.ng = .ok mem := by
    rw [hdims, hbd]; exact hmem
  obtain ⟨mem', hm'⟩ := hmem'
  have hst := setTruncNums_ok hlen hm'
  have hrun : run w0 [.setTruncNums (.list [2, 2])] = (setTruncNums (.list [2, 2]) w0).2 := rfl
  refine ⟨w0, hw, fun h1 h2 _ => .inl rfl, ?_, ?_, ?_⟩
  · rw [hrun, hst]
    rw [show (_ : World _).vals = w0.vals from rfl, hvv]
    exact hb
  · rw [hrun, hst]
    simp only
    rw [hdims]
    exact hmem
  · rw [hrun, hst]
    exact hdims

end lc

end SQ
