import Verif.Props.SystemSession

/-!
# C139: circuits as a system finds them
-/

namespace SQ
open Matrix Spec

section
variable {c : CircId → CircSpec} {eigs : EigsRoutine} {as : List ℂ → List ℕ}

theorem sigma_cast {n m : ℕ} (h : n = m) (A : Matrix (Fin m) (Fin m) ℂ) :
    (⟨m, A⟩ : Σ q : ℕ, Matrix (Fin q) (Fin q) ℂ) = ⟨n, A.submatrix (Fin.cast h) (Fin.cast h)⟩ := by
  subst h; rfl

theorem fit_of_size {b : Bench c eigs as} {i : CircId}
    (h : ∀ j < (subNow b i).n, ∃ q A, chargeNow b i ((j : ℤ) + 1) = .ok ⟨q, A⟩ ∧ (subNow b i).efreqs.length = q) :
    ChargesFit b i := by
  intro j hj
  obtain ⟨q, A, hA, hq⟩ := h j hj
  cases hv : b.view i with
  | none =>
    simp only [subNow, hv] at hj
    exact absurd hj (by omega)
  | some w =>
    have hQ : ∀ r : Except PyErr (Σ q : ℕ, Matrix (Fin q) (Fin q) ℂ), r = .ok ⟨q, A⟩ → ∀ n (hn : n = q),
        (.ok ⟨q, A⟩ : Except PyErr (Σ q : ℕ, Matrix (Fin q) (Fin q) ℂ)) = .ok ⟨n, match r with
          | .error _ => 0
          | .ok A => if h : n = A.1 then A.2.submatrix (Fin.cast h) (Fin.cast h) else 0⟩ := by
      rintro _ rfl n rfl
      simp
    have e : subNow b i = subOf b i w := by unfold subNow; rw [hv]
    rw [e] at hq ⊢
    exact hA.trans (hQ _ hA _ hq)

/-- what a system reads of a circuit's charge operators depends on the circuit object only -/
theorem chargeNow_circ {b b' : Bench c eigs as} {i : CircId} (h : b'.circ i = b.circ i) (x : ℤ) :
    chargeNow b' i x = chargeNow b i x := by
  unfold chargeNow Bench.view
  rw [h]
  cases b.circ i with
  | none => rfl
  | some y =>
    have : chargeOp (c := c i) (eigs := eigs) (as := as) ⟨y, b'.vals, b'.flux, b'.unitFreq⟩ x "eig" =
        chargeOp ⟨y, b.vals, b.flux, b.unitFreq⟩ x "eig" := by
      unfold chargeOp
      dsimp only
      rcases y with ⟨bd, isl, m, ms, mem, ex, lc, trig, ef, ev⟩
      dsimp only
      by_cases hm : m.length = 0
      · rw [if_pos hm, if_pos hm]
      · rw [if_neg hm, if_neg hm]
        cases mem with
        | none => rfl
        | some mem =>
          dsimp only
          rcases pyGet (List.ofFn mem.2.Q) (x - 1) with e | Q <;> rfl
    simp only [Option.map_some]
    rw [this]

theorem subNow_len {b b' : Bench c eigs as} {i : CircId} (h : b'.circ i = b.circ i) :
    (subNow b' i).efreqs.length = (subNow b i).efreqs.length ∧ (subNow b' i).n = (subNow b i).n := by
  unfold subNow Bench.view
  rw [h]
  cases b.circ i with
  | none => exact ⟨rfl, rfl⟩
  | some x => simp [subOf]

/-- C139: changing fluxes, element values or the frequency unit, and any statement about other circuits, leave a circuit usable
for the system. -/
theorem C139_kept (b : Bench c eigs as) (i : CircId) (a : BenchAct CircId)
    (ha : (∃ s, a = .set s) ∨ Concerns i a = false) (hf : ChargesFit b i) :
    ChargesFit (a.exec b).2 i ∧ (subNow (a.exec b).2 i).efreqs.length = (subNow b i).efreqs.length := by
  have hc : (a.exec b).2.circ i = b.circ i := by
    rcases ha with ⟨s, rfl⟩ | ha
    · cases s <;> rfl
    · exact (exec_foreign b i a ha).1
  obtain ⟨h1, h2⟩ := subNow_len hc
  refine ⟨fit_of_size fun j hj => ?_, h1⟩
  rw [h2] at hj
  exact ⟨_, _, (chargeNow_circ hc _).trans (hf j hj), h1⟩

theorem braket_dot {ι : Type*} [Fintype ι] (u : ι → ℂ) (A : Matrix ι ι ℂ) (v : ι → ℂ) :
    braket u A v = star u ⬝ᵥ (A *ᵥ v) := by
  unfold braket dotProduct mulVec dotProduct
  refine Finset.sum_congr rfl fun a _ => ?_
  rw [Finset.mul_sum]
  exact Finset.sum_congr rfl fun b _ => mul_assoc _ _ _

/-- C139: circuit `i` of the program is in the state `run w0 h` of its own session, and its stored eigenvectors `us` have the
dimensions of its modes, one for each stored eigenfrequency. Then the system can use it, and it is, for C64–C68 and C107, the
circuit with the current charge operators between these eigenvectors. -/
theorem C139_circuit {b : Bench c eigs as} {i : CircId} (hs : NoSelfLoops (c i).els) {vals : ElemId → ℝ} {flux : LoopId → ℝ}
    {u : ℝ} {w0 : World (circPhys (c i) eigs as)} (hw : construct (circPhys (c i) eigs as) vals flux u = .ok w0)
    {h : List Act} (hh : Orderly w0 h) (hm : (run w0 h).circ.m ≠ []) (hv : b.view i = some (run w0 h))
    (us : List (Idx ((run w0 h).circ.bd.dims (run w0 h).circ.m) → ℂ)) (hne : us ≠ [])
    (hev : (run w0 h).circ.evecs = us.map (fun v => ⟨_, _, v⟩)) (hlen : (run w0 h).circ.efreqs.length = us.length) :
    ChargesFit b i ∧
    subNow b i = Build.sub (run w0 h).circ.bd
      (buildMem (run w0 h).circ.bd.M.data ((run w0 h).circ.bd.dims (run w0 h).circ.m) (fun i => ((run w0 h).circ.ng i).getD 0))
      ((run w0 h).circ.efreqs.map (fun f => f / (2 * Real.pi * (run w0 h).unitFreq)))
      (fun x => us.get (Fin.cast (by rw [List.length_map, hlen]) x)) := by
  have hl : ((run w0 h).circ.efreqs.map (fun f => f / (2 * Real.pi * (run w0 h).unitFreq))).length = us.length := by
    rw [List.length_map, hlen]
  have hch : ∀ j : Fin (run w0 h).circ.bd.M.keep.length, ∃ A : Matrix (Fin us.length) (Fin us.length) ℂ,
      chargeNow b i ((j : ℤ) + 1) = .ok ⟨us.length, A⟩ ∧
      ∀ e f, A e f = star (us.get e) ⬝ᵥ ((buildMem (run w0 h).circ.bd.M.data ((run w0 h).circ.bd.dims (run w0 h).circ.m)
        (fun i => ((run w0 h).circ.ng i).getD 0)).Q j *ᵥ us.get f) := by
    intro j
    obtain ⟨A, hA, hAe, -⟩ := C82_eig hs vals flux u w0 hw h hh hm j us hne hev
    refine ⟨A, ?_, fun e f => ?_⟩
    · unfold chargeNow
      rw [hv]
      simp only [hA]
    · rw [hAe, braket_dot, charge_is_modeChargeOp]
  have hsub : subNow b i = Build.sub (run w0 h).circ.bd
      (buildMem (run w0 h).circ.bd.M.data ((run w0 h).circ.bd.dims (run w0 h).circ.m) (fun i => ((run w0 h).circ.ng i).getD 0))
      ((run w0 h).circ.efreqs.map (fun f => f / (2 * Real.pi * (run w0 h).unitFreq)))
      (fun x => us.get (Fin.cast hl x)) := by
    have hbig : ∀ j : ℕ, ¬ j < (run w0 h).circ.bd.M.keep.length → ∃ e, chargeNow b i ((j : ℤ) + 1) = .error e := by
      intro j hj
      have := (C82_guards_partial hs vals flux u w0 hw h hh ((j : ℤ) + 1) "eig").2.2 hm (Or.inr rfl)
        (by omega)
      refine ⟨.indexError, ?_⟩
      unfold chargeNow
      rw [hv]
      simp only [this]
    have e : subNow b i = subOf b i (run w0 h) := by unfold subNow; rw [hv]
    rw [e]
    unfold subOf Build.sub
    simp only
    congr 1
    funext j
    by_cases hj : j < (run w0 h).circ.bd.M.keep.length
    · obtain ⟨A, hA, hAe⟩ := hch ⟨j, hj⟩
      simp only at hA
      simp only [hA]
      rw [dif_pos hl, dif_pos hj]
      ext x y
      rw [submatrix_apply, hAe]
      rfl
    · obtain ⟨e, he⟩ := hbig j hj
      simp only [he]
      rw [dif_neg hj]
  refine ⟨fit_of_size fun j hj => ?_, hsub⟩
  rw [hsub] at hj ⊢
  obtain ⟨A, hA, -⟩ := hch ⟨j, hj⟩
  exact ⟨_, A, hA, hl⟩

theorem diag_keeps_modes {P : Phys} (k : Option ℤ) (w : World P) :
    (diag k w).2.circ.bd = w.circ.bd ∧ (diag k w).2.circ.m = w.circ.m ∧ (diag k w).2.circ.ng = w.circ.ng := by
  have hh : (hamiltonian w).2.circ.bd = w.circ.bd ∧ (hamiltonian w).2.circ.m = w.circ.m ∧ (hamiltonian w).2.circ.ng = w.circ.ng := by
    unfold hamiltonian
    split
    · exact ⟨rfl, rfl, rfl⟩
    · split
      · split <;> exact ⟨rfl, rfl, rfl⟩
      · exact ⟨rfl, rfl, rfl⟩
  unfold diag
  split
  · exact ⟨rfl, rfl, rfl⟩
  · cases k with
    | none => exact ⟨rfl, rfl, rfl⟩
    | some k =>
      unfold diagNp
      revert hh
      cases hamiltonian w with
      | mk r w1 =>
        intro hh
        cases r with
        | error e => exact hh
        | ok H =>
          simp only
          cases P.eigs H k with
          | error e => exact hh
          | ok raw => exact hh

/-- C139: `diag(num)` makes a circuit usable: after it the circuit has `num` eigenfrequencies and the charge operators fit. -/
theorem C139_diagonalized (he : EigsLowest eigs) (ha : CArgsortSpec as) {b : Bench c eigs as} {i : CircId}
    (hs : NoSelfLoops (c i).els) {vals : ElemId → ℝ} {flux : LoopId → ℝ}
    {u : ℝ} {w0 : World (circPhys (c i) eigs as)} (hw : construct (circPhys (c i) eigs as) vals flux u = .ok w0)
    {h : List Act} (hh : Orderly w0 h) (hm : (run w0 h).circ.m ≠ []) (hv : b.view i = some (run w0 h)) (num : ℕ)
    (h1 : 1 ≤ num) (hnum : num + 1 < Fintype.card (Idx ((run w0 h).circ.bd.dims (run w0 h).circ.m))) :
    ChargesFit ((BenchAct.call i (.diag (some (num : ℤ)))).exec b).2 i ∧
    (subNow ((BenchAct.call i (.diag (some (num : ℤ)))).exec b).2 i).efreqs.length = num := by
  have hrun : run w0 (h ++ [.diag (some (num : ℤ))]) = (diag (some (num : ℤ)) (run w0 h)).2 := by
    unfold run
    rw [List.foldl_append]
    rfl
  have hv' : ((BenchAct.call i (.diag (some (num : ℤ)))).exec b).2.view i = some (run w0 (h ++ [.diag (some (num : ℤ))])) := by
    rw [hrun]
    simp only [BenchAct.exec, hv]
    exact view_store _ _ _
  have hord : ∀ (h : List Act) (w : World (circPhys (c i) eigs as)), Orderly w h → Orderly w (h ++ [.diag (some (num : ℤ))]) := by
    intro h
    induction h with
    | nil => exact fun w _ => ⟨fun hx => by simp [modifies] at hx, trivial⟩
    | cons a h ih => exact fun w hw => ⟨hw.1, ih _ hw.2⟩
  obtain ⟨-, -, -, hham⟩ := ham_now hs hw hh hm
  have hham' := hham (run w0 h) rfl
  obtain ⟨H1, e1, hherm⟩ := C40_circuit hs vals flux u _ hw h hh hm
  rw [hham'] at e1
  obtain ⟨d1, d2, -⟩ := diag_keeps_modes (some (num : ℤ)) (run w0 h)
  have key : ∃ us : List (Idx ((run w0 h).circ.bd.dims (run w0 h).circ.m) → ℂ),
      (run w0 (h ++ [.diag (some (num : ℤ))])).circ.evecs = us.map (fun v => ⟨_, _, v⟩) ∧ us.length = num ∧
      (run w0 (h ++ [.diag (some (num : ℤ))])).circ.efreqs.length = num := by
    cases hf : fullHamiltonian (run w0 h).circ.bd.C (run w0 h).circ.bd.M ((run w0 h).circ.bd.dims (run w0 h).circ.m)
        (fun i => ((run w0 h).circ.ng i).getD 0) (run w0 h).vals
          ((run w0 h).circ.bd.fluxes (run w0 h).flux) (run w0 h).circ.bd.inds (run w0 h).circ.bd.juns with
    | error e => rw [hf] at e1; exact absurd e1 (by simp [Except.map])
    | ok X =>
      rw [hf] at e1 hham'
      simp only [Except.map] at e1 hham'
      obtain rfl := Except.ok.inj e1
      obtain ⟨vs, ws, ev, w', hl, hd, hef, hev, hlen, -⟩ := diag_lowest he ha hm hham' hherm num h1 hnum
      rw [hrun, hd]
      refine ⟨ev, hev, hlen, ?_⟩
      rw [hef, List.length_take, hl.len, hl.card]
      omega
  have key2 : ∀ (bd' : Build) (m' : List ℤ), bd' = (run w0 h).circ.bd → m' = (run w0 h).circ.m →
      ∃ us : List (Idx (bd'.dims m') → ℂ),
      (run w0 (h ++ [.diag (some (num : ℤ))])).circ.evecs = us.map (fun v => ⟨_, _, v⟩) ∧ us.length = num ∧
      (run w0 (h ++ [.diag (some (num : ℤ))])).circ.efreqs.length = num := by
    rintro _ _ rfl rfl
    exact key
  obtain ⟨us, k1, k2, k3⟩ := key2 (run w0 (h ++ [.diag (some (num : ℤ))])).circ.bd
    (run w0 (h ++ [.diag (some (num : ℤ))])).circ.m (by rw [hrun]; exact d1) (by rw [hrun]; exact d2)
  have hm' : (run w0 (h ++ [.diag (some (num : ℤ))])).circ.m ≠ [] := by rw [hrun, d2]; exact hm
  obtain ⟨r1, r2⟩ := C139_circuit hs hw (hord h w0 hh) hm' hv' us (by rintro rfl; simp at k2; omega) k1 (k3.trans k2.symm)
  refine ⟨r1, ?_⟩
  rw [r2]
  exact (List.length_map _).trans k3

end
end SQ
