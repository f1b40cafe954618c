import Verif.Lemmas.FluxInteger
import Verif.Props.FluxDist
import Verif.Props.Reversal

/-!
# C105: frequencies of junction circuits are periodic in the external fluxes
-/

namespace SQ
open Matrix Complex SQ.Spec

theorem nodeEntry_inc {n : ℕ} (e : Edge) {j : ℕ} (hj : j < n) : nodeEntry (incVec n e) j = (incidence e (j + 1) : ℝ) := by
  unfold nodeEntry incVec
  rw [List.getD_eq_getElem?_getD, List.getElem?_map, List.getElem?_range hj]
  rfl

/-- independent junction edges: closed vectors cancel on parallel branches -/
theorem parallel_only {O : Objs} {els : Elements} {n : ℕ} (hL : NoInductors O els) (hli : IndependentJunctions O els n)
    {kMat : List (List ℤ)} (hk : kMat = (inductivePlacements O els).map fun q => incVec n q.1) : ParallelOnly n kMat := by
  classical
  intro x hx i
  have hlen : kMat.length = (inductivePlacements O els).length := by rw [hk, List.length_map]
  have hf : ∀ b : Fin kMat.length, ∃ t : Fin (junctionEdges O els).length,
      kMat.get b = incVec n ((junctionEdges O els).get t) := by
    intro b
    have h1 : kMat.get b ∈ (inductivePlacements O els).map fun q => incVec n q.1 := by
      have := List.get_mem kMat b
      rwa [← hk]
    obtain ⟨q, hq, hq2⟩ := List.mem_map.1 h1
    have hq' := hq
    unfold inductivePlacements at hq'
    rw [List.mem_filter] at hq'
    have hkind : (O.elem q.2).kind = .jj := by
      have h2 := hL q hq'.1
      have h3 := hq'.2
      simp only [ne_eq, decide_eq_true_eq] at h3
      cases hc : (O.elem q.2).kind
      all_goals first | rfl | exact absurd hc h3 | exact absurd hc h2
    have hmem : q.1 ∈ junctionEdges O els := by
      unfold placements at hq'
      obtain ⟨p, hp, hqp⟩ := List.mem_flatMap.1 hq'.1
      obtain ⟨e, he, rfl⟩ := List.mem_map.1 hqp
      unfold junctionEdges
      refine List.mem_map.2 ⟨p, List.mem_filter.2 ⟨hp, ?_⟩, rfl⟩
      rw [List.any_eq_true]
      exact ⟨e, he, by simpa using hkind⟩
    obtain ⟨t, ht⟩ := List.get_of_mem hmem
    exact ⟨t, by rw [ht, ← hq2]⟩
  choose f hf using hf
  have hrow : ∀ b (j : Fin n), nodeEntry (kMat.get b) j = (junctionIncidence O els n).row (f b) j := by
    intro b j
    rw [hf, nodeEntry_inc _ j.isLt]
    rfl
  have hinj := hli.injective
  have hclass : ∀ b b', kMat.get b = kMat.get b' ↔ f b = f b' := by
    intro b b'
    constructor
    · intro h
      refine hinj (funext fun j => ?_)
      rw [← hrow, ← hrow, h]
    · intro h; rw [hf, hf, h]
  have hzero := Fintype.linearIndependent_iff.1 hli (fun t => ∑ b, if f b = t then x b else 0) (by
    funext j
    rw [Finset.sum_apply, Pi.zero_apply]
    refine Eq.trans ?_ (hx j j.isLt)
    simp only [Pi.smul_apply, smul_eq_mul, Finset.sum_mul]
    rw [Finset.sum_comm]
    refine Finset.sum_congr rfl fun b _ => ?_
    rw [Finset.sum_eq_single (f b)]
    · rw [if_pos rfl, hrow]
    · intro t _ ht; rw [if_neg (Ne.symm ht), zero_mul]
    · intro h; exact absurd (Finset.mem_univ _) h) (f i)
  refine Eq.trans (Finset.sum_congr rfl fun b _ => ?_) hzero
  simp only [hclass]

/-- the shares of junctions on one edge differ by integers -/
theorem parallel_shares {c : CircSpec} {vals : ElemId → ℝ} (hs : NoSelfLoops c.els)
    (ho : LoopsListedOnce c.O) (hsv : SvdSpec c.sv) (hL : NoInductors c.O c.els) {n : ℕ} (hn : numNodes c.els = .ok n)
    (hli : IndependentJunctions c.O c.els n) {b : Build} (hb : buildCirc c vals = .ok b) :
    (∀ key ∈ b.juns, ∀ key' ∈ b.juns, key.bId = key'.bId → incVec n key.edge = incVec n key'.edge) ∧
    ∀ key ∈ b.juns, ∀ key' ∈ b.juns, key.edge = key'.edge → ∀ l, ∃ z : ℤ, b.B key.bId l = b.B key'.bId l + z := by
  obtain ⟨n', a, B, t, hn', htr, hB, ht, rfl⟩ := buildCirc_stages hb
  have hnn : n' = n := by
    rw [hn] at hn'
    exact (Except.ok.inj hn').symm
  subst hnn
  have hv : ValidElements n' c.els := by
    intro p hp
    have := buildEdges_nodes_le htr p hp
    exact ⟨hs p hp, this.1, this.2⟩
  obtain ⟨k1, k2, -, -, -, k6⟩ := C18_branch_numbering _ _ _ _ _ _ hv a htr
  have hpar : ParallelOnly n' a.st.kMat := parallel_only (O := c.O.withVals vals) (els := c.els) hL hli k6
  have hjun : ∀ key ∈ junKeysOf a.st.kMat.length a.wMat.length a.st.junKeys,
      a.st.kMat.get key.bId = incVec n' key.edge := by
    intro key hkey
    simp only [junKeysOf, List.mem_filterMap] at hkey
    obtain ⟨x, hx, hx2⟩ := hkey
    split at hx2
    · rename_i hlt
      injection hx2 with hx2
      subst hx2
      have h1 : (x.1, x.2.1, x.2.2.1) ∈ a.st.junKeys.map (fun k => (k.1, k.2.1, k.2.2.1)) := List.mem_map.2 ⟨x, hx, rfl⟩
      rw [k2] at h1
      obtain ⟨q, hq, hq2⟩ := List.mem_map.1 h1
      obtain ⟨⟨e, i⟩, j⟩ := q
      simp only [Prod.mk.injEq] at hq2
      obtain ⟨e1, e2, e3⟩ := hq2
      subst e3
      have hq := List.mem_of_mem_filter hq
      unfold numbered at hq
      rw [List.mem_zipIdx_iff_getElem?] at hq
      simp only at hq
      have h1 : a.st.kMat[x.2.2.1]? = some (incVec n' e) := by
        rw [k6, List.getElem?_map, hq]; rfl
      rw [List.getElem?_eq_getElem hlt.1] at h1
      rw [← e1]
      exact Option.some.inj h1
    · cases hx2
  have hcon := traverse_loopsConsistent (O := c.O.withVals vals) hv ho htr
  refine ⟨fun key hkey key' hkey' hbb => ?_, ?_⟩
  · have e1 := hjun key hkey
    have e2 := hjun key' hkey'
    rw [← e1, ← e2]
    exact congrArg _ hbb
  intro key hkey key' hkey' hee l
  have hne : (a.st.loops.map a.st.loopHeap).length ≠ 0 := by
    rw [List.length_map]
    have : (l : ℕ) < a.st.loops.length := l.isLt
    omega
  have hsome : ∃ B1, B = some B1 := by
    cases B with
    | some B1 => exact ⟨B1, rfl⟩
    | none =>
      exfalso
      unfold fluxMatrix at hB
      simp only at hB
      cases hr : loopRows c.sv n' a.st.kMat.length (a.st.loops.map a.st.loopHeap) with
      | error e => rw [hr] at hB; cases e <;> simp at hB
      | ok gRows =>
        rw [hr] at hB
        simp only [hne, if_false] at hB
        split at hB
        · rename_i heq
          split at heq
          · cases heq
          · split at heq
            · cases heq
            · split at heq <;> cases heq
        · cases hB
        · cases hB
        · cases hB
        · cases hB
  obtain ⟨B1, rfl⟩ := hsome
  have h1 : a.st.kMat.get key.bId = a.st.kMat.get key'.bId := by
    rw [hjun key hkey, hjun key' hkey', hee]
  exact integer_shares c.sv hsv n' _ _ _ hcon hpar hB key.bId key'.bId h1 (Fin.cast (by simp) l)

/-- phases that agree modulo 2π give the same Hamiltonian -/
theorem ham_phase {n b nJ : ℕ} (C : Matrix (Fin n) (Fin n) ℝ) (M : Modes nJ n)
    (m : Fin M.keep.length → ℕ) (ng : Fin M.keep.length → ℝ) (val : ElemId → ℝ) (phi phi' : Fin b → ℝ)
    (juns : List (JunKey b nJ)) (hj : ∀ key ∈ juns, ∃ z : ℤ, phi' key.bId = phi key.bId + 2 * Real.pi * z) :
    fullHamiltonian C M m ng val phi' [] juns = fullHamiltonian C M m ng val phi [] juns := by
  have hphase : ∀ (x : ℝ) (c : ℤ), phase (x + 2 * Real.pi * c) = phase x := by
    intro x c
    unfold phase
    have : I * ((x + 2 * Real.pi * c : ℝ) : ℂ) = I * x + (c : ℂ) * (2 * Real.pi * I) := by
      push_cast; ring
    rw [this, Complex.exp_add, Complex.exp_int_mul_two_pi_mul_I, mul_one]
  have hjun : ∀ acc, junTerms (buildMem M.data m ng) val phi' juns acc =
      junTerms (buildMem M.data m ng) val phi juns acc := by
    intro acc
    rw [junTerms_eq, junTerms_eq]
    congr 2
    apply List.map_congr_left
    intro key hkey
    obtain ⟨z, hz⟩ := hj key hkey
    unfold cosOp
    rw [hz, hphase]
  unfold fullHamiltonian hamiltonianOf indHamil
  simp only [hjun, indTerms]

section
variable {c : CircSpec} {eigs : EigsFn} {as : List ℂ → List ℕ}

/-- C105: in circuits of junctions and capacitors whose junction edges close no loops through several nodes, the
frequencies are exactly periodic in the external fluxes, with period one flux quantum in every loop: after any calls,
setting the flux of each loop to `f l` or to `f l + z l` flux quanta (`z l` an integer) gives the same frequencies,
although the flux shares of the branches are rounded and need not be integers. -/
theorem C105_periodic (he : EigsLowest eigs) (ha : CArgsortSpec as)
    (vals : ElemId → ℝ) (hc : GoodCircuit c vals) (hL : NoInductors c.O c.els)
    (hJ0 : junctionEdges c.O c.els ≠ []) (n : ℕ) (hn : numNodes c.els = .ok n)
    (hli : IndependentJunctions c.O c.els n)
    (hcond : WellConditioned n (junctionInvCap (c.O.withVals vals) c.els n))
    (hsv : SvdSpec c.sv) (has : ArgsortSpec c.argsort)
    (htn : c.torch = false ∨ (junctionEdges c.O c.els).length = n) (ho : LoopsListedOnce c.O)
    (flux : LoopId → ℝ) (u : ℝ)
    (w0 : World (circPhys c eigs as)) (hw : construct (circPhys c eigs as) vals flux u = .ok w0)
    (h : List Act) (hh : Orderly w0 h) (hnu : ∀ x ∈ h, x ≠ .update)
    (hm : (run w0 h).circ.m ≠ []) (f : LoopId → ℝ) (z : LoopId → ℤ)
    (num : ℕ) (h1 : 1 ≤ num) (hnum : num + 1 < Fintype.card (Idx ((run w0 h).circ.bd.dims (run w0 h).circ.m))) :
    ∃ F v v', F.length = num ∧
      (diag (some num) (run w0 (h ++ fluxCalls (run w0 h).circ.bd.loops f))).1 = .ok (F, v) ∧
      (diag (some num) (run w0 (h ++ fluxCalls (run w0 h).circ.bd.loops fun l => f l + z l))).1 = .ok (F, v') := by
  have hs := hc.noSelf
  have hb : buildCirc c vals = .ok (run w0 h).circ.bd := by rw [run_bd h w0 hnu]; exact (construct_build hw).1
  obtain ⟨hbok, -, -, hham⟩ := ham_now hs hw hh hm
  obtain ⟨-, hin, hom, hJ, σ, hed, -, hwσ, -⟩ := isl_facts c vals hc hL hJ0 n hn hli hcond hsv has htn _ hb
  obtain ⟨hsame, hsh⟩ := parallel_shares hs ho hsv hL hn hli hb
  have hfl : ∀ g : LoopId → ℝ, (run w0 h).circ.bd.fluxes (run w0 (h ++ fluxCalls (run w0 h).circ.bd.loops g)).flux =
      extFlux (run w0 h).circ.bd.B fun i => g ((run w0 h).circ.bd.loops.get i) * 2 * Real.pi := by
    intro g
    rw [run_append]
    unfold Build.fluxes
    congr 1
    funext i
    exact (fluxCalls_run g _ (run w0 h)).2.2.2 _ (Or.inl (List.get_mem _ _))
  have hst : ∀ g : LoopId → ℝ, (run w0 (h ++ fluxCalls (run w0 h).circ.bd.loops g)).circ = (run w0 h).circ ∧
      (run w0 (h ++ fluxCalls (run w0 h).circ.bd.loops g)).vals = (run w0 h).vals ∧
      (run w0 (h ++ fluxCalls (run w0 h).circ.bd.loops g)).unitFreq = (run w0 h).unitFreq := by
    intro g
    rw [run_append]
    obtain ⟨i1, i2, i3, -⟩ := fluxCalls_run g (run w0 h).circ.bd.loops (run w0 h)
    exact ⟨i1, i2, i3⟩
  have hr := hham _ (hst f).1
  have hr' := hham _ (hst fun l => f l + z l).1
  rw [(hst _).2.1, hfl] at hr hr'
  have hm1 : (run w0 (h ++ fluxCalls (run w0 h).circ.bd.loops f)).circ.m ≠ [] := by rw [(hst _).1]; exact hm
  have hm2 : (run w0 (h ++ fluxCalls (run w0 h).circ.bd.loops fun l => f l + z l)).circ.m ≠ [] := by
    rw [(hst _).1]; exact hm
  have hu1 := (hst f).2.2
  have hu2 := (hst fun l => f l + z l).2.2
  generalize run w0 (h ++ fluxCalls (run w0 h).circ.bd.loops f) = wa at *
  generalize run w0 (h ++ fluxCalls (run w0 h).circ.bd.loops fun l => f l + z l) = wb at *
  generalize hbd : (run w0 h).circ.bd = bd at *
  set phi : Fin bd.nB → ℝ := extFlux bd.B fun i => f (bd.loops.get i) * 2 * Real.pi with hphi
  set phi' : Fin bd.nB → ℝ := extFlux bd.B fun i => (f (bd.loops.get i) + z (bd.loops.get i)) * 2 * Real.pi with hphi'
  let D : Fin bd.nB → ℝ := fun i => ∑ l, z (bd.loops.get l) * bd.B i l
  have hD : ∀ i, phi' i = phi i + 2 * Real.pi * D i := by
    intro i
    rw [hphi, hphi', extFlux_sum, extFlux_sum, Finset.mul_sum, ← Finset.sum_add_distrib]
    exact Finset.sum_congr rfl fun l _ => by ring
  -- one phase for each edge
  have hΘ : ∀ t : Fin (junctionEdges c.O c.els).length, ∃ x : ℝ, ∀ key ∈ bd.juns, key.wId.cast hJ = t →
      ∃ k : ℤ, D key.bId = x + k := by
    intro t
    by_cases hex : ∃ key ∈ bd.juns, key.wId.cast hJ = t
    · obtain ⟨key', hkey', ht'⟩ := hex
      refine ⟨D key'.bId, fun key hkey ht => ?_⟩
      choose k hk using hsh key hkey key' hkey' (by rw [← hed key hkey, ← hed key' hkey', ht, ht'])
      refine ⟨∑ l, z (bd.loops.get l) * k l, ?_⟩
      push_cast
      rw [← Finset.sum_add_distrib]
      exact Finset.sum_congr rfl fun l _ => by rw [hk l]; ring
    · exact ⟨0, fun key hkey ht => absurd ⟨key, hkey, ht⟩ hex⟩
  choose x hx using hΘ
  let θ : Fin bd.M.keep.length → ℝ := fun j => 2 * Real.pi * x (σ.symm j)
  have hθsum : ∀ w : Fin bd.nJ, ∑ j, θ j * bd.M.w w j = 2 * Real.pi * x (w.cast hJ) := by
    intro w
    rw [Finset.sum_eq_single (σ (w.cast hJ))]
    · rw [hwσ, if_pos rfl, mul_one]
      simp only [θ, Equiv.symm_apply_apply]
    · intro j _ hj
      rw [hwσ, if_neg hj, mul_zero]
    · intro hcon; exact absurd (Finset.mem_univ _) hcon
  -- fluxes that differ from `phi` by the phases of the edges and from `phi'` by multiples of 2π
  have hmid : ∃ phi2 : Fin bd.nB → ℝ, (∀ key ∈ bd.juns, phi2 key.bId = phi key.bId + ∑ j, θ j * bd.M.w key.wId j) ∧
      ∀ key ∈ bd.juns, ∃ k : ℤ, phi' key.bId = phi2 key.bId + 2 * Real.pi * k := by
    classical
    have hwid : ∀ key ∈ bd.juns, ∀ key' ∈ bd.juns, key.bId = key'.bId → key.wId = key'.wId := by
      intro key hkey key' hkey' hbb
      have e0 := hsame key hkey key' hkey' hbb
      have e1 : key.wId.cast hJ = key'.wId.cast hJ := by
        refine hli.injective (funext fun j => ?_)
        have e2 : nodeEntry (incVec n key.edge) (j : ℕ) = nodeEntry (incVec n key'.edge) (j : ℕ) := by rw [e0]
        rw [nodeEntry_inc _ j.isLt, nodeEntry_inc _ j.isLt, ← hed key hkey, ← hed key' hkey'] at e2
        exact e2
      exact Fin.cast_injective hJ e1
    refine ⟨fun i => if hex : ∃ key ∈ bd.juns, key.bId = i then phi i + ∑ j, θ j * bd.M.w hex.choose.wId j else 0, ?_, ?_⟩
    all_goals
      intro key hkey
      have hex : ∃ key' ∈ bd.juns, key'.bId = key.bId := ⟨key, hkey, rfl⟩
      have e1 := hwid _ hex.choose_spec.1 key hkey hex.choose_spec.2
      simp only [dif_pos hex, e1]
    obtain ⟨k, hk⟩ := hx _ key hkey rfl
    exact ⟨k, by rw [hD, hk, hθsum]; ring⟩
  obtain ⟨phi2, hp1, hp2⟩ := hmid
  have hwv : ∀ key ∈ bd.juns, ∀ j, bd.M.omega j = 0 →
      bd.M.w key.wId j = 0 ∨ bd.M.w key.wId j = 1 ∨ bd.M.w key.wId j = -1 := by
    intro key _ j _
    rw [hwσ]
    split <;> simp
  obtain ⟨H, hH, hherm⟩ := C40_hermitian bd.C bd.M hbok.1 (bd.dims (run w0 h).circ.m)
    (fun i => ((run w0 h).circ.ng i).getD 0) (run w0 h).vals phi bd.inds bd.juns hbok.2
  obtain ⟨H', hH', hherm'⟩ := C40_hermitian bd.C bd.M hbok.1 (bd.dims (run w0 h).circ.m)
    (fun i => ((run w0 h).circ.ng i).getD 0) (run w0 h).vals phi' bd.inds bd.juns hbok.2
  have hH2 := hH'
  rw [hin, ham_phase _ _ _ _ _ phi2 phi' _ hp2, ← hin] at hH2
  have hg := gauge_ham bd.C bd.M hbok.1 (bd.dims (run w0 h).circ.m)
    (fun i => ((run w0 h).circ.ng i).getD 0) (run w0 h).vals phi phi2 bd.inds bd.juns hbok.2 θ
    (fun i hi => absurd (hom i) hi) (by rw [hin]; intro key hkey; cases hkey) hwv hp1 hH hH2
  have hr2 := hr.trans (congrArg _ hH)
  have hr2' := hr'.trans (congrArg _ hH')
  obtain ⟨vs, ws, ev, w1, hlev, hd, -⟩ := diag_lowest he ha hm1 hr2 hherm num h1 hnum
  obtain ⟨vs', ws', ev', w1', hlev', hd', -⟩ := diag_lowest he ha hm2 hr2' hherm' num h1 hnum
  have hlev1 := levels_gauge _ (gauge_prod (m := bd.dims (run w0 h).circ.m) (fun i => gaugePhase (θ i))
    (fun i => gaugePhase_norm (θ i))) hlev
  obtain ⟨vs1, hlev1'⟩ : ∃ vs1, Levels H' vs1 ws := ⟨_, by rw [hg]; exact hlev1⟩
  have hws : ws' = ws := levels_unique hlev' hlev1'
  subst hws
  have hl' : ws'.length = Fintype.card (Idx (bd.dims (run w0 h).circ.m)) := hlev'.len.trans hlev'.card
  exact ⟨_, _, _, (getD_take_map (ws := ws') (num := num) (by omega) _).1, by rw [hd, hu1], by rw [hd', hu2]⟩

/-- C105, symmetry: fluxes `f l` and `z l - f l` (`z l` an integer number of flux quanta) give the same frequencies; for
`z l = 1` the spectrum is symmetric about half a flux quantum. -/
theorem C105_symmetric (he : EigsLowest eigs) (ha : CArgsortSpec as)
    (vals : ElemId → ℝ) (hc : GoodCircuit c vals) (hL : NoInductors c.O c.els)
    (hJ0 : junctionEdges c.O c.els ≠ []) (n : ℕ) (hn : numNodes c.els = .ok n)
    (hli : IndependentJunctions c.O c.els n)
    (hcond : WellConditioned n (junctionInvCap (c.O.withVals vals) c.els n))
    (hsv : SvdSpec c.sv) (has : ArgsortSpec c.argsort)
    (htn : c.torch = false ∨ (junctionEdges c.O c.els).length = n) (ho : LoopsListedOnce c.O)
    (flux : LoopId → ℝ) (u : ℝ)
    (w0 : World (circPhys c eigs as)) (hw : construct (circPhys c eigs as) vals flux u = .ok w0)
    (h : List Act) (hh : Orderly w0 h) (hnu : ∀ x ∈ h, x ≠ .update)
    (hm : (run w0 h).circ.m ≠ []) (f : LoopId → ℝ) (z : LoopId → ℤ)
    (num : ℕ) (h1 : 1 ≤ num) (hnum : num + 1 < Fintype.card (Idx ((run w0 h).circ.bd.dims (run w0 h).circ.m))) :
    ∃ F v v', F.length = num ∧
      (diag (some num) (run w0 (h ++ fluxCalls (run w0 h).circ.bd.loops f))).1 = .ok (F, v) ∧
      (diag (some num) (run w0 (h ++ fluxCalls (run w0 h).circ.bd.loops fun l => z l - f l))).1 = .ok (F, v') := by
  obtain ⟨F, v, v', e0, e1, e2⟩ := C105_periodic he ha vals hc hL hJ0 n hn hli hcond hsv has htn ho flux u w0 hw h hh hnu hm
    (fun l => -f l) z num h1 hnum
  obtain ⟨F1, v1, v1', s, d1, d2, d3⟩ := C94_flux_reversal he ha hc.noSelf vals flux u w0 hw h hh hm f num h1 hnum
  have hb : buildCirc c vals = .ok (run w0 h).circ.bd := by rw [run_bd h w0 hnu]; exact (construct_build hw).1
  obtain ⟨-, hin, -⟩ := isl_facts c vals hc hL hJ0 n hn hli hcond hsv has htn _ hb
  have hs0 : s = 0 := d3 (by rw [hin]; intro key hkey; cases hkey)
  subst hs0
  rw [e1] at d2
  injection d2 with d2
  injection d2 with d2 _
  rw [show (fun x : ℝ => x + 0) = id from funext fun x => add_zero x, List.map_id] at d2
  subst d2
  refine ⟨F, v1, v', e0, d1, ?_⟩
  have e : (fun l => (z l : ℝ) - f l) = fun l => -f l + z l := by funext l; ring
  rw [e]
  exact e2

end
end SQ

namespace SQ
open Spec Real

/-- the hypotheses can be met: a SQUID whose three lowest frequencies agree at fluxes 1/4, 5/4 and 3/4 -/
theorem C105_example : ∃ (c : CircSpec) (eigs : EigsFn) (as : List ℂ → List ℕ) (w0 : World (circPhys c eigs as)),
    EigsLowest eigs ∧ CArgsortSpec as ∧
    construct (circPhys c eigs as) (fun _ => 1) (fun _ => 0) 1 = .ok w0 ∧
    ∃ F v v' v'', F.length = 3 ∧
      (diag (some 3) (run w0 [.setTruncNums (.list [4]), .setFlux 0 (1 / 4)])).1 = .ok (F, v) ∧
      (diag (some 3) (run w0 [.setTruncNums (.list [4]), .setFlux 0 (1 / 4 + 1)])).1 = .ok (F, v') ∧
      (diag (some 3) (run w0 [.setTruncNums (.list [4]), .setFlux 0 (1 - 1 / 4)])).1 = .ok (F, v'') := by
  choose lib hlib using exists_lib
  choose argmax hm using exists_argmax
  obtain ⟨argsort, hsrt⟩ := exists_argsort
  obtain ⟨eigs, he⟩ := exists_eigs_lowest
  obtain ⟨as, ha⟩ := exists_cargsort
  have hj : OnlyJunctions squidObjs [4, 0, 2] := by
    refine ⟨?_, 0, by simp, rfl⟩
    intro i hi
    simp at hi
    rcases hi with rfl | rfl | rfl <;> decide
  have hlo : LoopsListedOnce squidObjs := by
    intro i
    unfold squidObjs
    simp only
    split_ifs <;> simp
  obtain ⟨w0, hw, ho, hl, hbd, hm7, hng, hu, hv, hf, hcard⟩ :=
    squid_truncated .junctions lib hlib argsort hsrt argmax hm eigs as (fun _ => 0)
  have hgood := oe_good (vals := fun _ => 1) (torch := false) (fd := .junctions) (h := fun _ => LoopObj.init 0 0)
    (sv := exSv) (argsort := argsort) (draws := fun _ _ => 0) hj hlib hm squid_values
  obtain ⟨i1, i2, i3, i4⟩ := oe_islands hj squid_values
  have hne : junctionEdges squidObjs (oneEdge [4, 0, 2]) ≠ [] := by intro h0; rw [h0] at i2; cases i2
  have hloops : (run w0 [.setTruncNums (.list [4])]).circ.bd.loops = [0] := by rw [hbd]; exact hl
  refine ⟨_, eigs, as, w0, he, ha, hw, ?_⟩
  obtain ⟨F, v, v', g0, g1, g2⟩ := C105_periodic he ha (fun _ => 1) hgood i1 hne 1 rfl i3 i4
    exSv_spec hsrt (Or.inl rfl) hlo _ 1 w0 hw _ ho (by simp)
    (by rw [hm7]; simp) (fun _ => 1 / 4) (fun _ => 1) 3 (by norm_num) (by rw [hcard]; norm_num)
  obtain ⟨F', v1, v'', -, g4, g5⟩ := C105_symmetric he ha (fun _ => 1) hgood i1 hne 1 rfl i3 i4
    exSv_spec hsrt (Or.inl rfl) hlo _ 1 w0 hw _ ho (by simp)
    (by rw [hm7]; simp) (fun _ => 1 / 4) (fun _ => 1) 3 (by norm_num) (by rw [hcard]; norm_num)
  rw [hloops] at g1 g2 g4 g5
  simp only [Int.cast_one] at g2 g5
  have hF : F' = F := by
    have := g4.symm.trans g1
    injection this with this
    exact congrArg Prod.fst this
  subst hF
  exact ⟨F', v, v', v'', g0, g1, g2, g5⟩

end SQ
