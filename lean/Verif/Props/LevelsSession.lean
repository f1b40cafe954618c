import Verif.Props.Levels
import Verif.Props.Inputs
import Verif.Props.Traverse

/-!
# C45, C90 for circuit objects: the levels `diag` returns, and their slopes
-/

namespace SQ
open Matrix Complex SQ.Spec Filter Topology

variable {c : CircSpec} {eigs : EigsFn} {as : List ℂ → List ℕ}

theorem buildWith_loops {c : CircSpec} (hs : NoSelfLoops c.els) {n : ℕ} {v : ElemId → ℝ}
    {finish : ∀ {nJ : ℕ}, Trans nJ n → Modes nJ n} {b : Build}
    (h : buildWith c n v finish = .ok b) : b.loops.Nodup := by
  rw [buildWith_eq] at h
  split at h
  · cases h
  · rename_i a htr
    have hv : ValidElements n c.els := by
      intro p hp
      have := buildEdges_nodes_le htr p hp
      exact ⟨hs p hp, this.1, this.2⟩
    have hl := (C19_loop_membership _ _ _ _ _ _ hv a htr).2.1
    unfold afterTraverse afterFields at h
    split at h
    · cases h
    · split at h
      · cases h
      · split at h
        · cases h
        · cases h
        · injection h with h
          subst h
          exact hl

theorem rebuild_loops {c : CircSpec} (hs : NoSelfLoops c.els) {n : ℕ} {v : ElemId → ℝ} {b : Build}
    (h : rebuildCirc c n v = .ok b) : b.loops.Nodup := buildWith_loops hs h

theorem ham_of_ops {P : Phys} {w : World P} {mem ex lc} (hm : w.circ.m ≠ []) (h1 : w.circ.mem = some mem)
    (h2 : w.circ.exp = some ex) (h3 : w.circ.lc = some lc) :
    (hamiltonian w).1 = P.ham w.circ.bd mem ex lc w.vals w.flux := by
  unfold hamiltonian
  rw [if_neg (by rw [List.length_eq_zero_iff]; exact hm), h1, h2, h3]
  simp only
  split
  · rename_i e he; rw [he]
  · rename_i H he; rw [he]

/-- what is stored in every reachable state -/
theorem ham_now (hs : NoSelfLoops c.els) {vals : ElemId → ℝ} {flux : LoopId → ℝ} {u : ℝ}
    {w0 : World (circPhys c eigs as)} (hw : construct (circPhys c eigs as) vals flux u = .ok w0)
    {h : List Act} (hh : Orderly w0 h) (hm : (run w0 h).circ.m ≠ []) :
    BuildOK (run w0 h).circ.bd ∧ KeysOK c (run w0 h).circ.bd ∧ (run w0 h).circ.bd.loops.Nodup ∧
    ∀ w : World (circPhys c eigs as), w.circ = (run w0 h).circ →
      (hamiltonian w).1 = (fullHamiltonian (run w0 h).circ.bd.C (run w0 h).circ.bd.M
        ((run w0 h).circ.bd.dims (run w0 h).circ.m) (fun i => ((run w0 h).circ.ng i).getD 0) w.vals
        ((run w0 h).circ.bd.fluxes w.flux) (run w0 h).circ.bd.inds (run w0 h).circ.bd.juns).map
          (fun H => (⟨_, _, H⟩ : Σ (k : ℕ) (d : Fin k → ℕ), Op d)) := by
  obtain ⟨⟨hb1, hb2, hb3⟩, hops⟩ := coherent_run (P := circPhys c eigs as)
    (fun _ (bd : Build) => BuildOK bd ∧ KeysOK c bd ∧ bd.loops.Nodup) h w0 vals
    (coherent_construct hw fun _ hb => ⟨build_valid hs hb, build_keys hs hb, by
      have hb' : buildCirc c vals = .ok _ := hb
      unfold buildCirc at hb'
      cases hn : numNodes c.els with
      | error e => rw [hn] at hb'; cases hb'
      | ok n => rw [hn] at hb'; exact buildWith_loops hs hb'⟩) hh
    (fun h1 h2 he bd hbd => ⟨rebuild_valid hs hbd, rebuild_keys hs hbd, rebuild_loops hs hbd⟩)
  refine ⟨hb1, hb2, hb3, ?_⟩
  intro w hwc
  rcases hops with h0 | ⟨mem, hmem, h1, h2, h3⟩
  · exact absurd h0 hm
  · have hham := ham_mem hmem c eigs as w.vals w.flux
    rw [← hham]
    obtain ⟨ci, v, f, uf⟩ := w
    simp only at hwc
    subst hwc
    exact ham_of_ops (w := ⟨(run w0 h).circ, v, f, uf⟩) hm h1 h3 h2

/-- sorted lists with the same elements are equal -/
theorem sorted_perm_eq {l l' : List ℝ} (h : l.Perm l') (h1 : l.Pairwise (· ≤ ·)) (h2 : l'.Pairwise (· ≤ ·)) :
    l = l' := h.eq_of_pairwise (fun _ _ _ _ h h' => le_antisymm h h') h1 h2

/-- `diag` on a Hermitian Hamiltonian -/
theorem diag_lowest (he : EigsLowest eigs) (ha : CArgsortSpec as) {w : World (circPhys c eigs as)}
    (hm : w.circ.m ≠ []) {k : ℕ} {d : Fin k → ℕ} {H : Op d} (hH : (hamiltonian w).1 = .ok ⟨k, d, H⟩)
    (hherm : H.IsHermitian) (num : ℕ) (h1 : 1 ≤ num) (hnum : num + 1 < Fintype.card (Idx d)) :
    ∃ (vs : List (Idx d → ℂ)) (ws : List ℝ) (ev : List (Idx d → ℂ)) (w' : World (circPhys c eigs as)),
      Levels H vs ws ∧
      diag (some num) w = (.ok ((ws.take num).map (fun f => f / (2 * Real.pi * w.unitFreq)),
        ev.map (fun v => ⟨k, d, v⟩)), w') ∧
      w'.circ.efreqs = ws.take num ∧ w'.circ.evecs = ev.map (fun v => ⟨k, d, v⟩) ∧
      ev.length = num ∧ ∀ i v, ev[i]? = some v → overlap v v = 1 ∧ H *ᵥ v = ((ws.getD i 0 : ℝ) : ℂ) • v := by
  obtain ⟨l, hl, hpairs, vs, ws, hlev, hperm0⟩ := he k d H num hherm h1 hnum
  have hreal : ∀ p ∈ l, H *ᵥ p.2 = ((p.1.re : ℝ) : ℂ) • p.2 := by
    intro p hp
    have hne : p.2 ≠ 0 := by
      intro h0
      have := (hpairs p hp).1
      rw [h0] at this
      simp [overlap] at this
    have := hermitian_eigen_real hherm hne (hpairs p hp).2
    rw [this]; exact (hpairs p hp).2
  obtain ⟨t, hd⟩ := diag_of_eigs (P := circPhys c eigs as) hm hH hl
  obtain ⟨hsort, hperm1, -, prs, hperm, h1', h2'⟩ := C45_sorted as ha
    (l.map (fun p => (p.1, (⟨k, d, p.2⟩ : Σ (k : ℕ) (d : Fin k → ℕ), Idx d → ℂ))))
  obtain ⟨l', hl', hprs⟩ := perm_map_exists hperm.symm
  have e1 : (sortEigs as
      (l.map (fun p => (p.1, (⟨k, d, p.2⟩ : Σ (k : ℕ) (d : Fin k → ℕ), Idx d → ℂ))))).1 =
      l'.map (fun p => p.1.re) := by
    rw [h1', ← hprs]; simp [List.map_map, Function.comp_def]
  have e2 : (sortEigs as
      (l.map (fun p => (p.1, (⟨k, d, p.2⟩ : Σ (k : ℕ) (d : Fin k → ℕ), Idx d → ℂ))))).2 =
      (l'.map Prod.snd).map (fun v => ⟨k, d, v⟩) := by
    rw [h2', ← hprs]; simp [List.map_map, Function.comp_def]
  have hfr : l'.map (fun p => p.1.re) = ws.take num := by
    refine sorted_perm_eq ((hl'.symm.map _).trans hperm0) ?_ (hlev.sorted.sublist (List.take_sublist _ _))
    rw [← e1]; exact hsort
  have hlen : (ws.take num).length = num := by
    rw [List.length_take, hlev.len, hlev.card]; omega
  have hl'len : l'.length = num := by rw [← hlen, ← hfr, List.length_map]
  refine ⟨vs, ws, l'.map Prod.snd, (diag (P := circPhys c eigs as) (some (num : ℤ)) w).2, hlev, ?_,
    by rw [hd]; exact e1.trans hfr, by rw [hd]; exact e2, by rw [List.length_map, hl'len], ?_⟩
  · refine Prod.ext ?_ rfl
    rw [hd]
    refine congrArg Except.ok (Prod.ext ?_ e2)
    exact congrArg (List.map fun f => f / (2 * Real.pi * w.unitFreq)) (e1.trans hfr)
  · intro i v hv
    have hi : i < l'.length := by
      by_contra hc
      rw [List.getElem?_eq_none (by rw [List.length_map]; exact Nat.le_of_not_lt hc)] at hv
      cases hv
    rw [List.getElem?_map, List.getElem?_eq_getElem hi] at hv
    have hv' : (l'[i]).2 = v := Option.some.inj hv
    have hmem : l'[i] ∈ l := hl'.mem_iff.2 (List.getElem_mem hi)
    have hw : ws.getD i 0 = (l'[i]).1.re := by
      have h3 : (ws.take num)[i]? = some (l'[i]).1.re := by
        rw [← hfr, List.getElem?_map, List.getElem?_eq_getElem hi]; rfl
      rw [List.getElem?_take_of_lt (by omega)] at h3
      rw [List.getD_eq_getElem?_getD, h3]; rfl
    rw [hw, ← hv']
    exact ⟨(hpairs _ hmem).1, hreal _ hmem⟩

/-- C45: in every reachable state with truncation numbers, `diag(num)` returns the `num` lowest
eigenvalues of `hamiltonian()`, counted with multiplicity and in ascending order, in the frequency unit, with
normalised eigenvectors in the same order. -/
theorem C45_lowest (he : EigsLowest eigs) (ha : CArgsortSpec as) (hs : NoSelfLoops c.els)
    (vals : ElemId → ℝ) (flux : LoopId → ℝ) (u : ℝ)
    (w0 : World (circPhys c eigs as)) (hw : construct (circPhys c eigs as) vals flux u = .ok w0)
    (h : List Act) (hh : Orderly w0 h) (hm : (run w0 h).circ.m ≠ []) (num : ℕ) (h1 : 1 ≤ num) :
    ∃ (k : ℕ) (d : Fin k → ℕ) (H : Op d), (hamiltonian (run w0 h)).1 = .ok ⟨k, d, H⟩ ∧
      (∃ vs ws, Levels H vs ws) ∧
      ∀ vs ws, Levels H vs ws → num + 1 < ws.length →
        ∃ (ev : List (Idx d → ℂ)) (w' : World (circPhys c eigs as)),
          diag (some num) (run w0 h) = (.ok ((ws.take num).map (fun f => f / (2 * Real.pi * (run w0 h).unitFreq)),
            ev.map (fun v => ⟨k, d, v⟩)), w') ∧
          w'.circ.efreqs = ws.take num ∧ w'.circ.evecs = ev.map (fun v => ⟨k, d, v⟩) ∧
          ev.length = num ∧ ∀ i v, ev[i]? = some v → overlap v v = 1 ∧
            H *ᵥ v = ((ws.getD i 0 : ℝ) : ℂ) • v := by
  obtain ⟨⟨k, d, H⟩, hH, hherm⟩ := C40_circuit hs vals flux u w0 hw h hh hm
  refine ⟨k, d, H, hH, levels_exists hherm, ?_⟩
  intro vs ws hl hnum
  obtain ⟨vs', ws', ev, w', hl', r⟩ := diag_lowest he ha hm hH hherm num h1 (by
    rw [← hl.card, ← hl.len]; exact hnum)
  rw [levels_unique hl hl']
  exact ⟨ev, w', r⟩

/-- distinctness seen among the returned frequencies is distinctness in the spectrum -/
theorem simple_of_take {ws : List ℝ} (hw : ws.Pairwise (· ≤ ·)) {num m : ℕ} (hm : m + 1 < num)
    (hn : num ≤ ws.length) {s : ℝ} (hs : SimpleLevel ((ws.take num).map (fun f => f / s)) m) :
    SimpleLevel ws m := by
  obtain ⟨-, h2⟩ := hs
  simp only [List.length_map, List.length_take] at h2
  have key : ∀ n, n < num → n ≠ m → ws[n]? ≠ ws[m]? := by
    intro n hn1 hne he
    refine h2 n (by omega) hne ?_
    rw [List.getElem?_map, List.getElem?_map, List.getElem?_take_of_lt hn1, List.getElem?_take_of_lt (by omega), he]
  refine ⟨by omega, fun n hnl hne he => ?_⟩
  by_cases hn1 : n < num
  · exact key n hn1 hne he
  · have h3 := key (m + 1) hm (by omega)
    have l1 : m + 1 < ws.length := by omega
    have l2 : m < ws.length := by omega
    rw [List.getElem?_eq_getElem l1, List.getElem?_eq_getElem l2] at h3
    rw [List.getElem?_eq_getElem hnl, List.getElem?_eq_getElem l2] at he
    have e1 : ws[m] ≤ ws[m + 1] := List.pairwise_iff_getElem.1 hw _ _ l2 l1 (by omega)
    have e2 : ws[m + 1] ≤ ws[n] := List.pairwise_iff_getElem.1 hw _ _ l1 hnl (by omega)
    have e3 : ws[n] = ws[m] := Option.some.inj he
    exact h3 (congrArg some (le_antisymm (by rw [← e3]; exact e2) e1))

/-- levels along a path of states that differ in element values and fluxes -/
theorem diag_slope (he : EigsLowest eigs) (ha : CArgsortSpec as) (wt : ℝ → World (circPhys c eigs as))
    (hm : ∀ t, (wt t).circ.m ≠ []) {k : ℕ} {d : Fin k → ℕ} (H : ℝ → Op d)
    (hH : ∀ t, (hamiltonian (wt t)).1 = .ok ⟨k, d, H t⟩) (hherm : ∀ t, (H t).IsHermitian)
    (U : ℝ) (hU : ∀ t, (wt t).unitFreq = U) (num : ℕ) (hnum : num + 1 < Fintype.card (Idx d)) (m : ℕ)
    (hmn : m + 1 < num) :
    ∃ (F : ℝ → List ℝ) (ev : ℝ → List (Idx d → ℂ)),
      (∀ t, (diag (some num) (wt t)).1 = .ok (F t, (ev t).map (fun v => ⟨k, d, v⟩))) ∧
      ∀ x dH, HasDerivOp H dH x → SimpleLevel (F x) m →
        ∃ r, partialOmega (ev x) dH m false = .ok r ∧
          HasDerivAt (fun t => (F t).getD m 0) (r / (2 * Real.pi * U)) x := by
  have h := fun t => diag_lowest he ha (hm t) (hH t) (hherm t) num (by omega) hnum
  choose vs ws ev w' hl hdg _ _ hlen hev using h
  refine ⟨fun t => ((ws t).take num).map (fun f => f / (2 * Real.pi * U)), ev, ?_, ?_⟩
  · intro t
    rw [hdg t, hU]
  · intro x dH hd hsim
    have hwl : ∀ t, (ws t).length = Fintype.card (Idx d) := fun t => (hl t).len.trans (hl t).card
    have hs := simple_of_take (hl x).sorted hmn (by rw [hwl]; omega) hsim
    have hmx : m < (ev x).length := by rw [hlen]; omega
    obtain ⟨hn, hee⟩ := hev x m (ev x)[m] (List.getElem?_eq_getElem hmx)
    obtain ⟨r, hr, hdr⟩ := C90_level (Eventually.of_forall hherm) hd vs ws (Eventually.of_forall hl) m hs
      (ev x) _ (List.getElem?_eq_getElem hmx) hn hee
    refine ⟨r, hr, ?_⟩
    have hF : (fun t => (((ws t).take num).map (fun f => f / (2 * Real.pi * U))).getD m 0) =
        fun t => (ws t).getD m 0 / (2 * Real.pi * U) := by
      funext t
      rw [List.getD_eq_getElem?_getD, List.getElem?_map, List.getElem?_take_of_lt (by omega),
        List.getD_eq_getElem?_getD, List.getElem?_eq_getElem (by rw [hwl]; omega)]
      rfl
    rw [hF]
    exact hdr.div_const _

theorem fluxes_update {b : Build} (hn : b.loops.Nodup) (flux : LoopId → ℝ) (j : Fin b.loops.length) (x : ℝ) :
    b.fluxes (Function.update flux (b.loops.get j) x) =
      extFlux b.B (Function.update (fun i => flux (b.loops.get i)) j x) := by
  unfold Build.fluxes
  congr 1
  funext i
  by_cases h : i = j
  · subst h; simp
  · rw [Function.update_of_ne h, Function.update_of_ne]
    intro he
    exact h ((List.nodup_iff_injective_get.1 hn) he)

theorem hasDerivOp_comp {ι : Type*} {H : ℝ → Matrix ι ι ℂ} {dH : Matrix ι ι ℂ} {g : ℝ → ℝ} {s x : ℝ}
    (hd : HasDerivOp H dH (g x)) (hg : HasDerivAt g s x) :
    HasDerivOp (fun t => H (g t)) ((s : ℂ) • dH) x := by
  intro a b
  have h4 := (hd a b).scomp x hg
  refine h4.congr_deriv ?_
  rw [Matrix.smul_apply, smul_eq_mul, Complex.real_smul]

theorem partialOmega_scale {ι : Type*} [Fintype ι] {ev : List (ι → ℂ)} {dH : Matrix ι ι ℂ} {m : ℤ} {s r : ℝ}
    (h : partialOmega ev ((s : ℂ) • dH) m false = .ok r) :
    ∃ r', partialOmega ev dH m false = .ok r' ∧ r = s * r' := by
  unfold partialOmega at h ⊢
  split at h
  · cases h
  · rename_i hne
    rw [if_neg hne]
    cases hp : pyGet ev m with
    | error e => rw [hp] at h; cases h
    | ok psi =>
      rw [hp] at h
      simp only [Bool.false_eq_true, if_false, Except.ok.injEq] at h ⊢
      refine ⟨_, rfl, ?_⟩
      rw [← h]
      simp [innerOp, Matrix.smul_mulVec, dotProduct_smul]

/-- C90 for sessions, fluxes: in every reachable state, the frequency number `m` returned by
`diag(num)` after `loop.set_flux(t)`, as a function of `t`, is differentiable wherever the returned frequencies show
level `m` not to be degenerate (`m` not being the last one), and its derivative is what `get_partial_omega` for
the loop returns from the computed eigenvectors, divided by the frequency unit. -/
theorem C90_flux_session (he : EigsLowest eigs) (ha : CArgsortSpec as) (hs : NoSelfLoops c.els)
    (vals : ElemId → ℝ) (flux : LoopId → ℝ) (u : ℝ)
    (w0 : World (circPhys c eigs as)) (hw : construct (circPhys c eigs as) vals flux u = .ok w0)
    (h : List Act) (hh : Orderly w0 h) (hm : (run w0 h).circ.m ≠ []) (P) :
    let w := run w0 h
    let bd := w.circ.bd
    let d := bd.dims w.circ.m
    ∀ (j : Fin bd.loops.length) (num m : ℕ), num + 1 < Fintype.card (Idx d) → m + 1 < num →
    ∃ (F : ℝ → List ℝ) (ev : ℝ → List (Idx d → ℂ)),
      (∀ t, (diag (some num) (run w0 (h ++ [.setFlux (bd.loops.get j) t]))).1 =
        .ok (F t, (ev t).map (fun v => ⟨_, d, v⟩))) ∧
      ∀ t, SimpleLevel (F t) m →
        ∃ r, partialOmega (ev t) (partialH bd.C bd.M (buildMem bd.M.data d (fun i => (w.circ.ng i).getD 0))
            w.vals bd.B (Function.update (fun i => w.flux (bd.loops.get i)) j (2 * Real.pi * t)) P bd.inds
            bd.juns none (.loop j)) m false = .ok r ∧
          HasDerivAt (fun t => (F t).getD m 0) (r / w.unitFreq) t := by
  intro w bd d j num m hnum hmn
  obtain ⟨hbok, hkeys, hnd, hham⟩ := ham_now hs hw hh hm
  set wt : ℝ → World (circPhys c eigs as) := fun t => run w0 (h ++ [.setFlux (bd.loops.get j) t]) with hwt
  have hwt' : ∀ t, wt t = { w with flux := Function.update w.flux (bd.loops.get j) (t * 2 * Real.pi) } := by
    intro t
    simp only [hwt]
    rw [run_append]
    rfl
  -- the Hamiltonian as a function of the argument
  have hex : ∀ y : ℝ, ∃ H : Op d, fullHamiltonian bd.C bd.M d (fun i => (w.circ.ng i).getD 0) w.vals
      (extFlux bd.B (Function.update (fun i => w.flux (bd.loops.get i)) j y)) bd.inds bd.juns = .ok H ∧
      H.IsHermitian := fun y => C40_hermitian bd.C bd.M hbok.1 d _ w.vals _ bd.inds bd.juns hbok.2
  choose G hG hGh using hex
  have hH : ∀ t, (hamiltonian (wt t)).1 = .ok ⟨_, d, G (t * 2 * Real.pi)⟩ := by
    intro t
    refine (hham (wt t) (by rw [hwt'])).trans ?_
    rw [hwt']
    simp only
    have := fluxes_update hnd w.flux j (t * 2 * Real.pi)
    have h2 := hG (t * 2 * Real.pi)
    rw [← this] at h2
    exact (congrArg (Except.map fun H => (⟨_, _, H⟩ : Σ (k : ℕ) (d : Fin k → ℕ), Op d)) h2)
  obtain ⟨F, ev, h1, h2⟩ := diag_slope he ha wt (fun t => by rw [hwt']; exact hm)
    (fun t => G (t * 2 * Real.pi)) hH (fun t => hGh _) w.unitFreq (fun t => by rw [hwt']) num hnum m hmn
  refine ⟨F, ev, h1, fun t hsim => ?_⟩
  obtain ⟨G', hG', hd⟩ := C57_flux bd.C bd.M hbok.1 (buildMem bd.M.data d (fun i => (w.circ.ng i).getD 0))
    (lcHamil bd.M.data (buildMem bd.M.data d (fun i => (w.circ.ng i).getD 0))) w.vals bd.B
    (Function.update (fun i => w.flux (bd.loops.get i)) j (2 * Real.pi * t)) P bd.inds bd.juns hbok.2 j none
  have hGG : G' = G := by
    funext y
    have := hG' y
    rw [Function.update_idem] at this
    exact Except.ok.inj (this.symm.trans (hG y))
  subst hGG
  rw [Function.update_self] at hd
  have hd2 : HasDerivOp (fun t => G' (t * 2 * Real.pi)) (((2 * Real.pi : ℝ) : ℂ) • partialH bd.C bd.M
      (buildMem bd.M.data d (fun i => (w.circ.ng i).getD 0)) w.vals bd.B
      (Function.update (fun i => w.flux (bd.loops.get i)) j (2 * Real.pi * t)) P bd.inds bd.juns none (.loop j)) t := by
    rw [show 2 * Real.pi * t = t * 2 * Real.pi by ring] at hd ⊢
    refine hasDerivOp_comp (g := fun s => s * 2 * Real.pi) hd ?_
    have := ((hasDerivAt_id' t).mul_const 2).mul_const Real.pi
    simpa using this
  obtain ⟨r, hr, hdr⟩ := h2 t _ hd2 hsim
  obtain ⟨r', hr', rfl⟩ := partialOmega_scale hr
  refine ⟨r', hr', hdr.congr_deriv ?_⟩
  exact mul_div_mul_left _ _ (by positivity)

/-- C90 for sessions, junctions: the same for the frequencies after `set_value` of a junction (`t` being its
energy in rad/s), whose slope is what `get_partial_omega` for the junction returns, converted like a frequency. -/
theorem C90_junction_session (he : EigsLowest eigs) (ha : CArgsortSpec as) (hs : NoSelfLoops c.els)
    (vals : ElemId → ℝ) (flux : LoopId → ℝ) (u : ℝ)
    (w0 : World (circPhys c eigs as)) (hw : construct (circPhys c eigs as) vals flux u = .ok w0)
    (h : List Act) (hh : Orderly w0 h) (hm : (run w0 h).circ.m ≠ []) (P) :
    let w := run w0 h
    let bd := w.circ.bd
    let d := bd.dims w.circ.m
    ∀ (i : ElemId) (num m : ℕ), (c.O.elem i).kind = .jj → num + 1 < Fintype.card (Idx d) → m + 1 < num →
    ∃ (F : ℝ → List ℝ) (ev : ℝ → List (Idx d → ℂ)),
      (∀ t, (diag (some num) (run w0 (h ++ [.setValue i t]))).1 =
        .ok (F t, (ev t).map (fun v => ⟨_, d, v⟩))) ∧
      ∀ t, SimpleLevel (F t) m →
        ∃ r, partialOmega (ev t) (partialH bd.C bd.M (buildMem bd.M.data d (fun i => (w.circ.ng i).getD 0))
            (Function.update w.vals i t) bd.B (fun j => w.flux (bd.loops.get j)) P bd.inds
            bd.juns none (.jun i)) m false = .ok r ∧
          HasDerivAt (fun t => (F t).getD m 0) (r / (2 * Real.pi * w.unitFreq)) t := by
  intro w bd d i num m hi hnum hmn
  obtain ⟨hbok, hkeys, hnd, hham⟩ := ham_now hs hw hh hm
  set wt : ℝ → World (circPhys c eigs as) := fun t => run w0 (h ++ [.setValue i t]) with hwt
  have hwt' : ∀ t, wt t = { w with vals := Function.update w.vals i t } := by
    intro t
    simp only [hwt]
    rw [run_append]
    rfl
  have hex : ∀ y : ℝ, ∃ H : Op d, fullHamiltonian bd.C bd.M d (fun i => (w.circ.ng i).getD 0)
      (Function.update w.vals i y) (extFlux bd.B (fun j => w.flux (bd.loops.get j))) bd.inds bd.juns = .ok H ∧
      H.IsHermitian := fun y => C40_hermitian bd.C bd.M hbok.1 d _ _ _ bd.inds bd.juns hbok.2
  choose G hG hGh using hex
  have hH : ∀ t, (hamiltonian (wt t)).1 = .ok ⟨_, d, G t⟩ := by
    intro t
    refine (hham (wt t) (by rw [hwt'])).trans ?_
    rw [hwt']
    exact (congrArg (Except.map fun H => (⟨_, _, H⟩ : Σ (k : ℕ) (d : Fin k → ℕ), Op d)) (hG t))
  obtain ⟨F, ev, h1, h2⟩ := diag_slope he ha wt (fun t => by rw [hwt']; exact hm)
    G hH (fun t => hGh _) w.unitFreq (fun t => by rw [hwt']) num hnum m hmn
  refine ⟨F, ev, h1, fun t hsim => ?_⟩
  obtain ⟨G', hG', hd⟩ := C57_junction bd.C bd.M hbok.1 (buildMem bd.M.data d (fun i => (w.circ.ng i).getD 0))
    (lcHamil bd.M.data (buildMem bd.M.data d (fun i => (w.circ.ng i).getD 0))) (Function.update w.vals i t) bd.B
    (fun j => w.flux (bd.loops.get j)) P bd.inds bd.juns hbok.2 i (fun key hk he => by
      have := hkeys.indKind key hk
      rw [he, hi] at this
      cases this)
  have hGG : G' = G := by
    funext y
    have := hG' y
    rw [Function.update_idem] at this
    exact Except.ok.inj (this.symm.trans (hG y))
  subst hGG
  rw [Function.update_self] at hd
  exact h2 t _ hd hsim

end SQ
