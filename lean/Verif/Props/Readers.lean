import Verif.Spec.Readers
import Verif.Props.Inputs
import Verif.Props.Eigen
import Verif.Lemmas.BuildKeys
import Verif.Lemmas.Rates

/-!
# C82, C83, C84: `charge_op`, `coord_transform` and `op`
-/

namespace SQ
open Matrix Spec Real

variable {c : CircSpec} {eigs : AnyOp → ℤ → Except PyErr (List (ℂ × Σ (k : ℕ) (d : Fin k → ℕ), Idx d → ℂ))}
  {as : List ℂ → List ℕ}

theorem rebuild_keys {c : CircSpec} (hs : NoSelfLoops c.els) {n : ℕ} {v : ElemId → ℝ} {b : Build}
    (h : rebuildCirc c n v = .ok b) : KeysOK c b := buildWith_keys hs h

theorem ham_trig {P : Phys} {w : World P} {H : P.Op} (hH : (hamiltonian w).1 = .ok H) :
    ∃ mem ex lc, w.circ.mem = some mem ∧ w.circ.exp = some ex ∧ w.circ.lc = some lc ∧
      (hamiltonian w).2 = { w with circ := { w.circ with trig := some (P.trig w.circ.bd mem ex w.flux) } } := by
  unfold hamiltonian at hH ⊢
  split at hH
  · cases hH
  · rename_i h0
    rw [if_neg h0]
    split at hH
    · rename_i mem ex lc h1 h2 h3
      rw [h1, h2, h3]
      simp only
      cases hh : P.ham w.circ.bd mem ex lc w.vals w.flux with
      | error e => rw [hh] at hH; cases hH
      | ok H' => exact ⟨mem, ex, lc, rfl, rfl, rfl, rfl⟩
    · cases hH

/-- the operators stored after an orderly history -/
theorem stored_ops (hs : NoSelfLoops c.els) {vals : ElemId → ℝ} {flux : LoopId → ℝ} {u : ℝ}
    {w0 : World (circPhys c eigs as)} (hw : construct (circPhys c eigs as) vals flux u = .ok w0)
    (h : List Act) (hh : Orderly w0 h) :
    KeysOK c (run w0 h).circ.bd ∧ ((run w0 h).circ.m ≠ [] →
      (run w0 h).circ.mem = some ⟨(run w0 h).circ.bd.dims (run w0 h).circ.m,
        buildMem (run w0 h).circ.bd.M.data _ (fun i => ((run w0 h).circ.ng i).getD 0)⟩ ∧
      (run w0 h).circ.exp = some ⟨(run w0 h).circ.bd.dims (run w0 h).circ.m,
        (buildMem (run w0 h).circ.bd.M.data _ (fun i => ((run w0 h).circ.ng i).getD 0)).exp,
        (buildMem (run w0 h).circ.bd.M.data _ (fun i => ((run w0 h).circ.ng i).getD 0)).rootExp⟩) := by
  have h0 : Coherent w0 (fun b : Build => KeysOK c b) :=
    coherent_construct hw (fun bd hbd => build_keys hs hbd)
  have h1 := coherent_run (P := circPhys c eigs as) (fun _ b => KeysOK c b) h w0 vals h0 hh
    (fun _ _ _ bd hbd => rebuild_keys hs hbd)
  refine ⟨h1.1, fun hm => ?_⟩
  rcases h1.2 with h2 | ⟨mem, h2, h3, -, h4⟩
  · exact absurd h2 hm
  · have h2' : Build.memOps (run w0 h).circ.bd (run w0 h).circ.m (run w0 h).circ.ng = .ok mem := h2
    unfold Build.memOps at h2'
    split at h2'
    · cases h2'
    · split at h2'
      · cases h2'
      · split at h2'
        · cases h2'
        · refine ⟨?_, h4⟩
          rw [h3]
          exact congrArg some (Except.ok.inj h2').symm

/-! ## C82 `charge_op` -/

theorem charge_is_modeChargeOp {nJ k : ℕ} (D : ModeData nJ k) (m : Fin k → ℕ) (ng : Fin k → ℝ) (i : Fin k) :
    (buildMem D m ng).Q i = modeChargeOp D m ng i := by
  rw [buildMem_Q]
  unfold modeChargeOp
  change single m i _ = single m i _
  congr 1
  unfold chargeOpIso ModeData.impedance
  split
  · rfl
  · split
    · rename_i h1
      symm
      rw [smul_eq_zero]
      right
      have : ∀ a b : Fin (m i), (qDestroy (m i)) a b = 0 := by
        intro a b
        have ha := a.isLt; have hb := b.isLt
        simp only [qDestroy, of_apply]
        rw [if_neg (by omega)]
      ext a b
      simp [qCreate, Matrix.sub_apply, conjTranspose_apply, this]
    · congr 4
      rw [one_div, mul_inv, div_eq_mul_inv]
      norm_num

/-- After any orderly history on a circuit with truncation numbers, `charge_op(i)` for the mode numbers
`i = 1, …, n` is the charge operator of the mode with the current offset, and Hermitian. -/
theorem C82_original (hs : NoSelfLoops c.els) (vals : ElemId → ℝ) (flux : LoopId → ℝ) (u : ℝ)
    (w0 : World (circPhys c eigs as)) (hw : construct (circPhys c eigs as) vals flux u = .ok w0)
    (h : List Act) (hh : Orderly w0 h) (hm : (run w0 h).circ.m ≠ [])
    (i : Fin (run w0 h).circ.bd.M.keep.length) :
    let A := modeChargeOp (run w0 h).circ.bd.M.data ((run w0 h).circ.bd.dims (run w0 h).circ.m)
      (fun i => ((run w0 h).circ.ng i).getD 0) i
    chargeOp (run w0 h) ((i : ℤ) + 1) "original" = .ok (.op ⟨_, _, A⟩) ∧ A.IsHermitian := by
  intro A
  have hQ : (buildMem (run w0 h).circ.bd.M.data ((run w0 h).circ.bd.dims (run w0 h).circ.m)
      (fun i => ((run w0 h).circ.ng i).getD 0)).Q i = A := charge_is_modeChargeOp _ _ _ _
  refine ⟨?_, hQ ▸ Q_herm _ _ _ _⟩
  have hmem := ((stored_ops hs hw h hh).2 hm).1
  unfold chargeOp
  rw [if_neg (by rwa [List.length_eq_zero_iff]), if_neg (by decide)]
  rw [hmem]
  simp only [add_sub_cancel_right]
  have hl : (i : ℕ) < (List.ofFn (buildMem (run w0 h).circ.bd.M.data
      ((run w0 h).circ.bd.dims (run w0 h).circ.m) (fun i => ((run w0 h).circ.ng i).getD 0)).Q).length := by
    rw [List.length_ofFn]; exact i.isLt
  rw [pyGet_nat hl]
  simp only [List.getElem_ofFn]
  rw [← hQ]
  rfl

theorem vecOf_self {k : ℕ} (d : Fin k → ℕ) (v : Idx d → ℂ) : vecOf d ⟨k, d, v⟩ = .ok v := by
  unfold vecOf
  rw [dif_pos rfl]
  rfl

theorem mapM_vecOf {k : ℕ} (d : Fin k → ℕ) : ∀ us : List (Idx d → ℂ),
    (us.map (fun v => (⟨k, d, v⟩ : Σ (k : ℕ) (d : Fin k → ℕ), Idx d → ℂ))).mapM (vecOf d) = .ok us
  | [] => rfl
  | u :: us => by
    rw [List.map_cons, List.mapM_cons, vecOf_self, mapM_vecOf d us]
    rfl

theorem chargeEig_map {k : ℕ} {d : Fin k → ℕ} (torch : Bool) (Q : Op d) (us : List (Idx d → ℂ)) (hne : us ≠ []) :
    chargeEig torch Q (us.map (fun v => ⟨k, d, v⟩)) = .ok (.eig _ (eigBasis Q us)) := by
  cases us with
  | nil => exact absurd rfl hne
  | cons v vs =>
    have h := mapM_vecOf d (v :: vs)
    rw [List.map_cons] at h ⊢
    unfold chargeEig
    dsimp only
    rw [h]

theorem eigBasis_apply {ι : Type*} [Fintype ι] (Q : Matrix ι ι ℂ) (vs : List (ι → ℂ)) (e f : Fin vs.length) :
    eigBasis Q vs e f = braket (vs.get e) Q (vs.get f) := by
  unfold eigBasis braket
  simp only [mul_apply, conjTranspose_apply, of_apply, Finset.sum_mul]
  rw [Finset.sum_comm]
  rfl

/-- In the eigenbasis: with stored eigenvectors `us` of the current dimensions the result is the matrix
of matrix elements of the charge operator between them, and Hermitian. -/
theorem C82_eig (hs : NoSelfLoops c.els) (vals : ElemId → ℝ) (flux : LoopId → ℝ) (u : ℝ)
    (w0 : World (circPhys c eigs as)) (hw : construct (circPhys c eigs as) vals flux u = .ok w0)
    (h : List Act) (hh : Orderly w0 h) (hm : (run w0 h).circ.m ≠ [])
    (i : Fin (run w0 h).circ.bd.M.keep.length)
    (us : List (Idx ((run w0 h).circ.bd.dims (run w0 h).circ.m) → ℂ)) (hne : us ≠ [])
    (hev : (run w0 h).circ.evecs = us.map (fun v => ⟨_, _, v⟩)) :
    ∃ A : Matrix (Fin us.length) (Fin us.length) ℂ,
      chargeOp (run w0 h) ((i : ℤ) + 1) "eig" = .ok (.eig us.length A) ∧
      (∀ e f, A e f = braket (us.get e) (modeChargeOp (run w0 h).circ.bd.M.data
        ((run w0 h).circ.bd.dims (run w0 h).circ.m) (fun i => ((run w0 h).circ.ng i).getD 0) i) (us.get f)) ∧
      A.IsHermitian := by
  have hQ := charge_is_modeChargeOp (run w0 h).circ.bd.M.data ((run w0 h).circ.bd.dims (run w0 h).circ.m)
      (fun i => ((run w0 h).circ.ng i).getD 0) i
  have hherm := Q_herm (run w0 h).circ.bd.M.data ((run w0 h).circ.bd.dims (run w0 h).circ.m)
      (fun i => ((run w0 h).circ.ng i).getD 0) i
  rw [hQ] at hherm
  refine ⟨eigBasis (modeChargeOp (run w0 h).circ.bd.M.data
        ((run w0 h).circ.bd.dims (run w0 h).circ.m) (fun i => ((run w0 h).circ.ng i).getD 0) i) us, ?_,
    eigBasis_apply _ _, ?_⟩
  · have hmem := ((stored_ops hs hw h hh).2 hm).1
    unfold chargeOp
    rw [if_neg (by rwa [List.length_eq_zero_iff]), if_neg (by decide)]
    rw [hmem]
    simp only [add_sub_cancel_right]
    have hl : (i : ℕ) < (List.ofFn (buildMem (run w0 h).circ.bd.M.data
        ((run w0 h).circ.bd.dims (run w0 h).circ.m) (fun i => ((run w0 h).circ.ng i).getD 0)).Q).length := by
      rw [List.length_ofFn]; exact i.isLt
    rw [pyGet_nat hl]
    simp only [List.getElem_ofFn]
    rw [if_neg (by decide), hev]
    exact (chargeEig_map _ _ _ hne).trans (by rw [← hQ])
  · rw [IsHermitian]
    ext e f
    rw [conjTranspose_apply, eigBasis_apply, eigBasis_apply]
    exact braket_conj hherm _ _

/-- Guards: no truncation numbers, an unknown basis and mode numbers above `n` are rejected. -/
theorem C82_guards_partial (hs : NoSelfLoops c.els) (vals : ElemId → ℝ) (flux : LoopId → ℝ) (u : ℝ)
    (w0 : World (circPhys c eigs as)) (hw : construct (circPhys c eigs as) vals flux u = .ok w0)
    (h : List Act) (hh : Orderly w0 h) (mode : ℤ) (basis : String) :
    ((run w0 h).circ.m = [] → chargeOp (run w0 h) mode basis = .error .circuitState) ∧
    ((run w0 h).circ.m ≠ [] → basis ≠ "original" → basis ≠ "eig" →
      chargeOp (run w0 h) mode basis = .error .valueError) ∧
    ((run w0 h).circ.m ≠ [] → basis = "original" ∨ basis = "eig" →
      ((run w0 h).circ.bd.M.keep.length : ℤ) < mode → chargeOp (run w0 h) mode basis = .error .indexError) := by
  refine ⟨fun hm => ?_, fun hm h1 h2 => ?_, fun hm hb hmode => ?_⟩
  · unfold chargeOp; rw [if_pos (by rw [hm]; rfl)]
  · unfold chargeOp; rw [if_neg (by rwa [List.length_eq_zero_iff]), if_pos ⟨h1, h2⟩]
  · have hmem := ((stored_ops hs hw h hh).2 hm).1
    unfold chargeOp
    rw [if_neg (by rwa [List.length_eq_zero_iff]), if_neg (by rintro ⟨h1, h2⟩; exact hb.elim h1 h2), hmem]
    simp only
    have : ∀ l : List (Op ((run w0 h).circ.bd.dims (run w0 h).circ.m)),
        l.length = (run w0 h).circ.bd.M.keep.length → pyGet l (mode - 1) = .error .indexError := by
      intro l hl
      unfold pyGet pyIdx
      rw [dif_neg (by omega), dif_neg (by omega)]
    rw [this _ (List.length_ofFn ..)]

/-- Mode numbers are not checked from below: mode number 0 is accepted on every circuit with a mode and
gives the operator of the last mode; and `charge_op(i, 'eig')` on a circuit that has not been diagonalised
raises `ValueError` or `AttributeError`, not `CircuitStateError`. -/
theorem C82_refuted (hs : NoSelfLoops c.els) (vals : ElemId → ℝ) (flux : LoopId → ℝ) (u : ℝ)
    (w0 : World (circPhys c eigs as)) (hw : construct (circPhys c eigs as) vals flux u = .ok w0)
    (h : List Act) (hh : Orderly w0 h) (hm : (run w0 h).circ.m ≠ [])
    (hk : 0 < (run w0 h).circ.bd.M.keep.length) :
    chargeOp (run w0 h) 0 "original" =
      chargeOp (run w0 h) ((run w0 h).circ.bd.M.keep.length : ℤ) "original" ∧
    (∃ A, chargeOp (run w0 h) 0 "original" = .ok A) ∧
    ((run w0 h).circ.evecs = [] → chargeOp (run w0 h) 1 "eig" =
      .error (if c.torch then .attributeError else .valueError)) := by
  have hmem := ((stored_ops hs hw h hh).2 hm).1
  have hget : ∀ {α : Type} (l : List α) (hl : 0 < l.length),
      pyGet l (0 - 1) = .ok (l[l.length - 1]'(by omega)) ∧
      pyGet l ((l.length : ℤ) - 1) = .ok (l[l.length - 1]'(by omega)) ∧
      pyGet l (1 - 1) = .ok l[0] := by
    intro α l hl
    unfold pyGet pyIdx
    refine ⟨?_, ?_, ?_⟩
    · rw [dif_neg (by omega), dif_pos (by omega)]
      simp only [Except.ok.injEq, List.get_eq_getElem]
      congr 1; omega
    · rw [dif_pos (by omega)]
      simp only [Except.ok.injEq, List.get_eq_getElem]
      congr 1; omega
    · rw [dif_pos (by omega)]
      simp
  have hlen : (List.ofFn (buildMem (run w0 h).circ.bd.M.data
      ((run w0 h).circ.bd.dims (run w0 h).circ.m) (fun i => ((run w0 h).circ.ng i).getD 0)).Q).length =
      (run w0 h).circ.bd.M.keep.length := List.length_ofFn ..
  obtain ⟨g1, g2, g3⟩ := hget (List.ofFn (buildMem (run w0 h).circ.bd.M.data
      ((run w0 h).circ.bd.dims (run w0 h).circ.m) (fun i => ((run w0 h).circ.ng i).getD 0)).Q) (hlen.symm ▸ hk)
  refine ⟨?_, ?_, fun he => ?_⟩
  · have hz : ((run w0 h).circ.bd.M.keep.length : ℤ) - 1 = (((List.ofFn (buildMem (run w0 h).circ.bd.M.data
      ((run w0 h).circ.bd.dims (run w0 h).circ.m)
      (fun i => ((run w0 h).circ.ng i).getD 0)).Q).length : ℕ) : ℤ) - 1 := by rw [hlen]
    unfold chargeOp
    rw [hmem]
    simp only
    rw [hz, g1, g2]
  · unfold chargeOp
    rw [if_neg (by rwa [List.length_eq_zero_iff]), if_neg (by decide), hmem]
    simp only
    rw [g1]
    simp only
    exact ⟨_, rfl⟩
  · unfold chargeOp
    rw [if_neg (by rwa [List.length_eq_zero_iff]), if_neg (by decide), hmem]
    simp only
    rw [g3]
    simp only
    rw [if_neg (by decide), he]
    rfl

/-! ## C84 `op('sin_half')` -/

theorem find_zip {K V : Type*} (juns : List K) (f : K → V) (p : K → Bool) (key : K) (hk : key ∈ juns)
    (hp : ∀ k ∈ juns, p k = true ↔ k = key) :
    (juns.zip (juns.map f)).reverse.find? (fun q => p q.1) = some (key, f key) := by
  have hz : juns.zip (juns.map f) = juns.map (fun k => (k, f k)) := by
    clear hk hp
    induction juns with
    | nil => rfl
    | cons a l ih => rw [List.map_cons, List.zip_cons_cons, ih, List.map_cons]
  rw [hz]
  cases hf : (juns.map (fun k => (k, f k))).reverse.find? (fun q => p q.1) with
  | none =>
    rw [List.find?_eq_none] at hf
    have := hf (key, f key) (List.mem_reverse.2 (List.mem_map.2 ⟨key, hk, rfl⟩))
    exact absurd ((hp key hk).2 rfl) this
  | some q =>
    have h1 := List.mem_of_find?_eq_some hf
    have h2 := List.find?_some hf
    simp only [List.mem_reverse, List.mem_map] at h1
    obtain ⟨k, hk', rfl⟩ := h1
    rw [(hp k hk').1 h2]

theorem key_pred {b nJ : ℕ} {juns : List (JunKey b nJ)} (hn : (juns.map (·.bId)).Nodup) {key : JunKey b nJ}
    (hk : key ∈ juns) : ∀ k ∈ juns,
    (decide (k.el = key.el ∧ (k.bId : ℕ) = (key.bId : ℕ)) = true ↔ k = key) := by
  intro k hk'
  rw [decide_eq_true_iff]
  constructor
  · rintro ⟨-, h⟩
    exact List.inj_on_of_nodup_map hn hk' hk (Fin.ext h)
  · rintro rfl; exact ⟨rfl, rfl⟩

theorem getWId_key {b nJ : ℕ} {juns : List (JunKey b nJ)} (hn : (juns.map (·.bId)).Nodup) {key : JunKey b nJ}
    (hk : key ∈ juns) : getWId juns key.el key.bId = some key.wId := by
  unfold getWId
  cases hf : juns.find? (fun k => decide (k.el = key.el ∧ (k.bId : ℕ) = (key.bId : ℕ))) with
  | none =>
    rw [List.find?_eq_none] at hf
    exact absurd ((key_pred hn hk key hk).2 rfl) (hf key hk)
  | some q =>
    have h1 := List.mem_of_find?_eq_some hf
    have h2 := List.find?_some hf
    rw [(key_pred hn hk q h1).1 h2]
    rfl

theorem sinHalfStored_key {b nJ : ℕ} {juns : List (JunKey b nJ)} (hn : (juns.map (·.bId)).Nodup)
    {key : JunKey b nJ} (hk : key ∈ juns)
    (f : JunKey b nJ → Σ (k : ℕ) (d : Fin k → ℕ), Op d × Op d × Op d) :
    sinHalfStored juns (some (juns.map f)) key.el key.bId =
      .ok ⟨(f key).1, (f key).2.1, (f key).2.2.2.2⟩ := by
  unfold sinHalfStored
  dsimp only
  rw [find_zip juns f (fun k => decide (k.el = key.el ∧ (k.bId : ℕ) = (key.bId : ℕ))) key hk (key_pred hn hk)]

/-- Under PyTorch, after any orderly history `op('sin_half', …)` of a junction is the half-angle sine
operator at the current flux. -/
theorem C84_pytorch (ht : c.torch = true) (hs : NoSelfLoops c.els) (vals : ElemId → ℝ)
    (flux : LoopId → ℝ) (u : ℝ)
    (w0 : World (circPhys c eigs as)) (hw : construct (circPhys c eigs as) vals flux u = .ok w0)
    (h : List Act) (hh : Orderly w0 h) (hm : (run w0 h).circ.m ≠ [])
    (key : _) (hk : key ∈ (run w0 h).circ.bd.juns) :
    opSinHalf (run w0 h) "sin_half" key.el key.bId = .ok ⟨_, _,
      sinHalfOp (buildMem (run w0 h).circ.bd.M.data ((run w0 h).circ.bd.dims (run w0 h).circ.m)
        (fun i => ((run w0 h).circ.ng i).getD 0)) key.wId
        ((run w0 h).circ.bd.fluxes (run w0 h).flux key.bId)⟩ := by
  obtain ⟨hkeys, hst⟩ := stored_ops hs hw h hh
  unfold opSinHalf
  rw [if_neg (by decide), if_pos ht, getWId_key hkeys.nodup hk]
  simp only
  rw [(hst hm).2]
  simp only
  rw [dif_pos key.bId.isLt]
  rfl

/-- Under both engines, right after a successful `hamiltonian()` call `op('sin_half', …)` is the half-angle
sine operator at the current flux. -/
theorem C84_partial (hs : NoSelfLoops c.els) (vals : ElemId → ℝ) (flux : LoopId → ℝ) (u : ℝ)
    (w0 : World (circPhys c eigs as)) (hw : construct (circPhys c eigs as) vals flux u = .ok w0)
    (h : List Act) (hh : Orderly w0 h) (H : AnyOp) (hH : (hamiltonian (run w0 h)).1 = .ok H)
    (key : _) (hk : key ∈ (run w0 h).circ.bd.juns) :
    opSinHalf (hamiltonian (run w0 h)).2 "sin_half" key.el key.bId = .ok ⟨_, _,
      sinHalfOp (buildMem (run w0 h).circ.bd.M.data ((run w0 h).circ.bd.dims (run w0 h).circ.m)
        (fun i => ((run w0 h).circ.ng i).getD 0)) key.wId
        ((run w0 h).circ.bd.fluxes (run w0 h).flux key.bId)⟩ := by
  obtain ⟨hkeys, hst⟩ := stored_ops hs hw h hh
  have hm : (run w0 h).circ.m ≠ [] := by
    intro h0
    unfold hamiltonian at hH
    rw [if_pos (by rw [h0]; rfl)] at hH
    cases hH
  obtain ⟨hmem, hexp⟩ := hst hm
  generalize hwd : run w0 h = w at *
  have hfr : ∃ t, (hamiltonian w).2 = { w with circ := { w.circ with trig := some t } } ∧
      ∀ mem ex, w.circ.mem = some mem → w.circ.exp = some ex →
        t = (circPhys c eigs as).trig w.circ.bd mem ex w.flux := by
    obtain ⟨mem, ex, lc, h1, h2, -, h4⟩ := ham_trig hH
    refine ⟨_, h4, fun mem' ex' h1' h2' => ?_⟩
    rw [Option.some.inj (h1.symm.trans h1'), Option.some.inj (h2.symm.trans h2')]
  obtain ⟨t, h1, h2⟩ := hfr
  have ht := h2 _ _ hmem hexp
  rw [h1]
  cases htor : c.torch with
  | true =>
    unfold opSinHalf
    rw [if_neg (by decide), if_pos htor]
    simp only
    rw [getWId_key hkeys.nodup hk]
    simp only
    rw [hexp]
    simp only
    rw [dif_pos key.bId.isLt]
    rfl
  | false =>
    unfold opSinHalf
    rw [if_neg (by decide), if_neg (by rw [htor]; decide)]
    have ht' : t = w.circ.bd.juns.map (fun key => (⟨_, _,
        cosOp (buildMem w.circ.bd.M.data (w.circ.bd.dims w.circ.m) (fun i => (w.circ.ng i).getD 0)) key.wId
          (w.circ.bd.fluxes w.flux key.bId),
        sinOp (buildMem w.circ.bd.M.data (w.circ.bd.dims w.circ.m) (fun i => (w.circ.ng i).getD 0)) key.wId
          (w.circ.bd.fluxes w.flux key.bId),
        sinHalfOp (buildMem w.circ.bd.M.data (w.circ.bd.dims w.circ.m) (fun i => (w.circ.ng i).getD 0)) key.wId
          (w.circ.bd.fluxes w.flux key.bId)⟩ : Σ (k : ℕ) (d : Fin k → ℕ), Op d × Op d × Op d)) := by
      rw [ht]
      show (if h : _ = _ then _ else _) = _
      exact dif_pos rfl
    subst ht'
    exact sinHalfStored_key hkeys.nodup hk _

/-- Under NumPy the returned operator does not follow the flux: changing the flux of a loop leaves the
result as it was at the last `hamiltonian()` call. -/
theorem C84_numpy_stale (ht : c.torch = false) (w : World (circPhys c eigs as)) (l : LoopId) (v : ℝ)
    (typ : String) (el : ElemId) (bId : ℕ) :
    opSinHalf ((Act.setFlux l v).exec w).2 typ el bId = opSinHalf w typ el bId := by
  unfold opSinHalf
  rw [ht]
  simp only [Bool.false_eq_true, if_false, Act.exec]


theorem truncOne {P : Phys} {w : World P} {nums : List ℤ} (h : (setTruncNums (.list nums) w).1 = .ok ()) :
    (setTruncNums (.list nums) w).2.circ.bd = w.circ.bd ∧ (setTruncNums (.list nums) w).2.flux = w.flux ∧
    (setTruncNums (.list nums) w).2.circ.m = dimsOf P w.circ.bd nums := by
  unfold setTruncNums at h ⊢
  simp only at h ⊢
  split at h
  · cases h
  · rename_i h0
    rw [if_neg h0]
    unfold Circ.buildOps at h ⊢
    simp only at h ⊢
    split at h
    · cases h
    · rename_i c' hc'
      split at hc'
      · cases hc'
      · injection hc' with hc'
        rw [← hc']
        exact ⟨rfl, rfl, rfl⟩

/-- with one level per mode the half-angle sine operators are numbers -/
theorem rootExp_dim_one {nJ k : ℕ} (D : ModeData nJ k) (m : Fin k → ℕ) (ng : Fin k → ℝ)
    (hm : ∀ i, m i = 1) (i : Fin nJ) : (buildMem D m ng).rootExp i = 1 := by
  change tens (rootExpFactor D m i) = 1
  rw [← tens_one]
  congr 1
  funext j
  unfold rootExpFactor
  split
  · rfl
  · rw [if_pos (hm j)]

/-- The full property fails under NumPy: a fluxonium circuit at zero flux, truncated to one level, with the
Hamiltonian computed and the flux then set to half a flux quantum. The next call of `hamiltonian()`, which
changes no input, changes the answer. -/
theorem C84_refuted (eigs : AnyOp → ℤ → Except PyErr (List (ℂ × Σ (k : ℕ) (d : Fin k → ℕ), Idx d → ℂ)))
    (as : List ℂ → List ℕ) :
    ∃ (c : CircSpec) (vals : ElemId → ℝ) (w0 : World (circPhys c eigs as)) (el : ElemId) (bId : ℕ) (A B : AnyOp),
      c.torch = false ∧ NoSelfLoops c.els ∧ construct (circPhys c eigs as) vals (fun _ => 0) 1 = .ok w0 ∧
      let h : List Act := [.setTruncNums (.list [1]), .hamiltonian, .setFlux 0 (1 / 2)]
      Orderly w0 h ∧ opSinHalf (run w0 h) "sin_half" el bId = .ok A ∧
      opSinHalf (hamiltonian (run w0 h)).2 "sin_half" el bId = .ok B ∧ A ≠ B := by
  choose lib hlib using exists_lib
  choose argmax hm using exists_argmax
  obtain ⟨argsort, -⟩ := exists_argsort
  set vals : ElemId → ℝ := fun i => if i = 0 then 2 else if i = 2 then 5 else 1 with hvals
  have hfv : FluxoniumValues vals := fx_example_values
  obtain ⟨b, hb, hk, -⟩ := C80_fluxonium false (fun _ => LoopObj.init 0 0) lib hlib exSv exSv_spec argsort argmax hm
    (fun _ _ => 0) vals hfv.1 hfv.2.1 hfv.2.2.1 hfv.2.2.2
  obtain ⟨-, -, hlo, hB, -, -⟩ := fx_facts hlib exSv_spec hm hfv.1 hfv.2.1 hfv.2.2.1 hfv.2.2.2 hb
  have hgood := fx_good false (fun _ => LoopObj.init 0 0) hlib exSv argsort hm (fun _ _ => 0) hfv.1 hfv.2.1 hfv.2.2.1
  obtain ⟨-, -, hju, -⟩ := build_pairs hgood.noSelf hb
  obtain ⟨kj, hkj, hkj'⟩ := singleton_keys (p := (1, 2)) (hju.trans rfl)
  set c := fluxoniumSpec false (fun _ => LoopObj.init 0 0) lib exSv argsort argmax (fun _ _ => 0) with hc
  have hcon : ∃ w0, construct (circPhys c eigs as) vals (fun _ => 0) 1 = .ok w0 := by
    have hb' : (circPhys c eigs as).build vals = .ok b := hb
    unfold construct
    rw [hb']
    exact ⟨_, rfl⟩
  obtain ⟨w0, hw⟩ := hcon
  have hbb : w0.circ.bd = b := by
    have h0 : buildCirc _ _ = .ok w0.circ.bd := (construct_build hw).1
    rw [hb] at h0
    exact (Except.ok.inj h0).symm
  subst hbb
  have ht := C42_constructed hw [1] hk.symm (by simp)
  obtain ⟨t1, t2, t3⟩ := truncOne ht.1
  have hf0 : w0.flux = fun _ => 0 := by
    unfold construct at hw
    split at hw
    · cases hw
    · injection hw with hw
      rw [← hw]
  -- states
  have ho1 : Orderly w0 [.setTruncNums (.list [1])] := ⟨fun _ => Or.inl ht.1, trivial⟩
  have hr1 : run w0 [.setTruncNums (.list [1])] = (setTruncNums (.list [1]) w0).2 := rfl
  have keyOf : ∀ bd : Build, bd = w0.circ.bd → ∃ key ∈ bd.juns, (key.bId : ℕ) = 1 ∧ key.el = 2 ∧
      ∀ f, bd.fluxes f key.bId = - f 0 := by
    rintro _ rfl
    refine ⟨kj, by rw [hkj]; exact List.mem_singleton_self _, (Prod.ext_iff.1 hkj').1, (Prod.ext_iff.1 hkj').2, ?_⟩
    intro f
    unfold Build.fluxes
    rw [extFlux_sum]
    have : ∀ l, Build.B w0.circ.bd kj.bId l = -1 := by
      intro l
      rw [hB, if_neg]
      have := (Prod.ext_iff.1 hkj').1
      simp only at this
      omega
    simp only [this]
    have key : ∀ ls : List LoopId, ls = [0] → ∑ l : Fin ls.length, f (ls.get l) * -1 = - f 0 := by
      rintro _ rfl
      simp
    exact key _ hlo
  have hdim : ∀ (bd : Build) (m : List ℤ), bd = w0.circ.bd → m = dimsOf (circPhys c eigs as) w0.circ.bd [1] →
      ∀ i, bd.dims m i = 1 := by
    rintro _ _ rfl rfl i
    have hi : (i : ℕ) < (dimsOf (circPhys c eigs as) w0.circ.bd [1]).length := by
      rw [dimsOf_length]; exact i.isLt
    have hi0 : (i : ℕ) = 0 := by have := i.isLt; omega
    unfold Build.dims
    rw [List.getD_eq_getElem?_getD, List.getElem?_eq_getElem hi, Option.getD_some]
    simp only [dimsOf, List.getElem_map, List.getElem_range, hi0]
    split <;> rfl
  have hval : ∀ (h : List Act), Orderly w0 h → (run w0 h).circ.bd = w0.circ.bd →
      (run w0 h).circ.m = dimsOf (circPhys c eigs as) w0.circ.bd [1] →
      ∃ X : AnyOp, opSinHalf (hamiltonian (run w0 h)).2 "sin_half" 2 1 = .ok X ∧
        X.2.2 = ((Real.sin (- (run w0 h).flux 0 / 2) : ℝ) : ℂ) • 1 ∧ Nonempty (Idx X.2.1) ∧
        ∃ H, (hamiltonian (run w0 h)).1 = .ok H := by
    intro h ho hbd hm'
    obtain ⟨key, hk1, hk2, hk3, hk4⟩ := keyOf _ hbd
    obtain ⟨H, hH, -⟩ := C40_circuit hgood.noSelf vals (fun _ => 0) 1 w0 hw h ho (by
      rw [hm']
      intro h0
      have := congrArg List.length h0
      rw [dimsOf_length] at this
      have h1 : w0.circ.bd.k = 0 := this
      have h2 : w0.circ.bd.k = 1 := hk
      omega)
    have := C84_partial hgood.noSelf vals (fun _ => 0) 1 w0 hw h ho H hH key hk1
    rw [hk2, hk3] at this
    refine ⟨_, this, ?_, ?_, H, hH⟩
    · have h1 := sinHalf_one _ key.wId (Build.fluxes (run w0 h).circ.bd (run w0 h).flux key.bId)
        (rootExp_dim_one (run w0 h).circ.bd.M.data (Build.dims (run w0 h).circ.bd (run w0 h).circ.m)
          (fun i => ((run w0 h).circ.ng i).getD 0) (hdim _ _ hbd hm') key.wId)
      rw [hk4] at h1
      rw [hk4]
      exact h1
    · exact ⟨fun i => ⟨0, lt_of_lt_of_eq one_pos (hdim _ _ hbd hm' i).symm⟩⟩
  obtain ⟨A, hA1, hA2, -, H1, hH1⟩ := hval _ ho1 (by rw [hr1]; exact t1) (by rw [hr1]; exact t3)
  set h : List Act := [.setTruncNums (.list [1]), .hamiltonian, .setFlux 0 (1 / 2)] with hh
  have hr2 : run w0 h = ((Act.setFlux 0 (1 / 2)).exec (hamiltonian (run w0 [.setTruncNums (.list [1])])).2).2 := rfl
  have hoh : Orderly w0 h := ⟨fun _ => Or.inl ht.1, fun _ => Or.inl (by
    change (hamiltonian (run w0 [.setTruncNums (.list [1])])).1.map _ = _
    rw [hH1]; rfl), fun _ => Or.inl rfl, trivial⟩
  obtain ⟨mem, ex, lc, -, -, -, hst⟩ := ham_trig hH1
  have hfl : (run w0 h).flux 0 = π := by
    rw [hr2]
    simp only [Act.exec, Function.update_self]
    ring
  obtain ⟨B, hB1, hB2, hB3, -⟩ := hval h hoh (by
      rw [hr2, hst]; exact t1) (by rw [hr2, hst]; exact t3)
  refine ⟨c, vals, w0, 2, 1, A, B, rfl, hgood.noSelf, hw, hoh, ?_, hB1, ?_⟩
  · rw [hr2, C84_numpy_stale rfl]
    exact hA1
  · intro hAB
    have h0 : A.2.2 = 0 := by
      rw [hA2, hr1, t2, hf0]
      simp
    rw [hAB, hB2, hfl] at h0
    rw [neg_div, Real.sin_neg, Real.sin_pi_div_two] at h0
    obtain ⟨i⟩ := hB3
    have := congrFun (congrFun h0 i) i
    simp at this

/-! ## C83 `coord_transform` -/

theorem form_of_congr {n : ℕ} {R : Matrix (Fin n) (Fin n) ℝ} (hR : IsUnit R.det) (M : Matrix (Fin n) (Fin n) ℝ)
    (x : Fin n → ℝ) : (R⁻¹ *ᵥ x) ⬝ᵥ ((Rᵀ * M * R) *ᵥ (R⁻¹ *ᵥ x)) = x ⬝ᵥ (M *ᵥ x) := by
  have h1 : R *ᵥ (R⁻¹ *ᵥ x) = x := by rw [mulVec_mulVec, mul_nonsing_inv _ hR, one_mulVec]
  rw [← mulVec_mulVec, h1, ← mulVec_mulVec, dotProduct_mulVec, vecMul_transpose, h1]

/-- For every circuit of physical elements connected to ground and every spelling of the argument,
`coord_transform` returns the transformations of the charges and of the fluxes to the mode coordinates: the
pair preserves the pairing of charges and fluxes, and the capacitive and inductive energies in the new coordinates
are the quadratic forms whose entries at the retained modes the circuit works with. -/
theorem C83_transform (c : CircSpec) (vals : ElemId → ℝ) (hg : GoodCircuit c vals) (b : Build)
    (hb : buildCirc c vals = .ok b) (a : Acc b.n)
    (ha : traverse c.torch c.fd (c.O.withVals vals) b.n c.h c.els = .ok a)
    (sq sf : String) (hsq : sq.toList.map Char.toLower = "charge".toList)
    (hsf : sf.toList.map Char.toLower = "flux".toList) :
    ∃ Tq Tf cF lF : Matrix (Fin b.n) (Fin b.n) ℝ,
      coordTransform b.M sq = .ok Tq ∧ coordTransform b.M sf = .ok Tf ∧
      (∀ q f, (Tq *ᵥ q) ⬝ᵥ (Tf *ᵥ f) = q ⬝ᵥ f) ∧
      (∀ q, (Tq *ᵥ q) ⬝ᵥ (cF *ᵥ (Tq *ᵥ q)) = q ⬝ᵥ (a.cMat⁻¹ *ᵥ q)) ∧
      (∀ f, (Tf *ᵥ f) ⬝ᵥ (lF *ᵥ (Tf *ᵥ f)) = f ⬝ᵥ (a.lMat *ᵥ f)) ∧
      (∀ i j, b.M.cInv i j = cF (b.M.keep.get i) (b.M.keep.get j)) ∧
      (∀ i j, b.M.l i j = lF (b.M.keep.get i) (b.M.keep.get j)) := by
  obtain ⟨n, a', B, t, hn, htr, hB, ht, rfl⟩ := buildCirc_stages hb
  have haa : a = a' := by
    have : traverse c.torch c.fd (c.O.withVals vals) n c.h c.els = .ok a := ha
    rw [htr] at this
    exact (Except.ok.inj this).symm
  obtain ⟨-, hC, hL⟩ := good_mats hg hn htr
  obtain ⟨hl, hgap⟩ := hg.lib n a' hn htr
  obtain ⟨hcan, hcI, hl', -⟩ := C26_canonical_construction (c.lib n) c.sv c.argsort (c.argmax _) (hg.argmax _) c.draws
    _ a'.cMat a'.lMat hC hL.isHermitian _ hl hgap _ t ht
  have hdet : t.S.det * t.R.det = 1 := by
    have := congrArg det hcan
    rwa [det_mul, det_transpose, det_one] at this
  have hS : IsUnit t.S.det := IsUnit.of_mul_eq_one _ hdet
  have hR : IsUnit t.R.det := IsUnit.of_mul_eq_one _ (by rw [mul_comm]; exact hdet)
  have hM : ∀ tor, ∃ keep, finishModes tor t = restrict t keep := by
    intro tor
    unfold finishModes
    split
    · exact ⟨_, rfl⟩
    · exact ⟨_, rfl⟩
  have gen : (∀ i j, (finishModes c.torch t).cInv i j =
        t.cInv ((finishModes c.torch t).keep.get i) ((finishModes c.torch t).keep.get j)) ∧
      ∀ i j, (finishModes c.torch t).l i j =
        t.l ((finishModes c.torch t).keep.get i) ((finishModes c.torch t).keep.get j) := by
    have : ∀ M : Modes a'.wMat.length n, (∃ keep, M = restrict t keep) →
        (∀ i j, M.cInv i j = t.cInv (M.keep.get i) (M.keep.get j)) ∧
        ∀ i j, M.l i j = t.l (M.keep.get i) (M.keep.get j) := by
      rintro _ ⟨keep, rfl⟩
      exact ⟨fun _ _ => rfl, fun _ _ => rfl⟩
    exact this _ (hM c.torch)
  obtain ⟨keep, hkeep⟩ := hM c.torch
  simp only [hkeep]
  have hne : "flux".toList ≠ "charge".toList := by decide
  refine ⟨t.R⁻¹, t.S⁻¹, t.cInv, t.l, ?_, ?_, ?_, ?_, ?_, ?_, ?_⟩
  · unfold coordTransform
    rw [if_pos hsq]
    exact if_neg hR.ne_zero
  · unfold coordTransform
    rw [if_neg (by rw [hsf]; exact hne), if_pos hsf]
    exact if_neg hS.ne_zero
  · intro q f
    have hRS : t.R⁻¹ = t.Sᵀ := inv_eq_left_inv hcan
    rw [hRS, mulVec_transpose, ← dotProduct_mulVec, mulVec_mulVec, mul_nonsing_inv _ hS, one_mulVec]
  · intro q
    rw [hcI, haa]
    exact form_of_congr hR _ q
  · intro f
    rw [hl', haa]
    exact form_of_congr hS _ f
  · intro i j
    exact gen.1 i j
  · intro i j
    exact gen.2 i j

/-- Any other argument is rejected. -/
theorem C83_guard {nJ n : ℕ} (M : Modes nJ n) (s : String) (h1 : s.toList.map Char.toLower ≠ "charge".toList)
    (h2 : s.toList.map Char.toLower ≠ "flux".toList) : coordTransform M s = .error .valueError := by
  unfold coordTransform
  rw [if_neg h1, if_neg h2]

/-- spellings of the arguments -/
example : "Charge".toList.map Char.toLower = "charge".toList ∧ "FLUX".toList.map Char.toLower = "flux".toList ∧
    "phase".toList.map Char.toLower ≠ "charge".toList ∧ "phase".toList.map Char.toLower ≠ "flux".toList := by
  decide

/-- C83: the fluxonium meets the hypotheses -/
example : ∃ (c : CircSpec) (vals : ElemId → ℝ) (b : Build) (a : Acc b.n), GoodCircuit c vals ∧
    buildCirc c vals = .ok b ∧ traverse c.torch c.fd (c.O.withVals vals) b.n c.h c.els = .ok a := by
  choose lib hlib using exists_lib
  choose argmax hm using exists_argmax
  obtain ⟨argsort, -⟩ := exists_argsort
  obtain ⟨vals, hfv⟩ : ∃ v, FluxoniumValues v := ⟨_, fx_example_values⟩
  obtain ⟨b, hb, hk, -⟩ := C80_fluxonium false (fun _ => LoopObj.init 0 0) lib hlib exSv exSv_spec argsort argmax hm
    (fun _ _ => 0) vals hfv.1 hfv.2.1 hfv.2.2.1 hfv.2.2.2
  have hgood := fx_good false (fun _ => LoopObj.init 0 0) hlib exSv argsort hm (fun _ _ => 0) hfv.1 hfv.2.1 hfv.2.2.1
  obtain ⟨n, a, B, t, hn, htr, -, -, rfl⟩ := buildCirc_stages hb
  exact ⟨_, _, _, a, hgood, hb, htr⟩

/-- C82 and C84: a session on the fluxonium meeting the hypotheses, with eigenvectors stored by `diag` -/
example (eigs as) : ∃ (c : CircSpec) (vals : ElemId → ℝ) (w0 : World (circPhys c eigs as)), NoSelfLoops c.els ∧
    construct (circPhys c eigs as) vals (fun _ => 0) 1 = .ok w0 ∧ Orderly w0 [.setTruncNums (.list [3])] ∧
    (run w0 [.setTruncNums (.list [3])]).circ.m ≠ [] ∧ 0 < (run w0 [.setTruncNums (.list [3])]).circ.bd.M.keep.length ∧
    (run w0 [.setTruncNums (.list [3])]).circ.bd.juns ≠ [] := by
  choose lib hlib using exists_lib
  choose argmax hm using exists_argmax
  obtain ⟨argsort, -⟩ := exists_argsort
  obtain ⟨vals, hfv⟩ : ∃ v, FluxoniumValues v := ⟨_, fx_example_values⟩
  obtain ⟨b, hb, hk, -⟩ := C80_fluxonium false (fun _ => LoopObj.init 0 0) lib hlib exSv exSv_spec argsort argmax hm
    (fun _ _ => 0) vals hfv.1 hfv.2.1 hfv.2.2.1 hfv.2.2.2
  have hgood := fx_good false (fun _ => LoopObj.init 0 0) hlib exSv argsort hm (fun _ _ => 0) hfv.1 hfv.2.1 hfv.2.2.1
  obtain ⟨-, -, hju, -⟩ := build_pairs hgood.noSelf hb
  obtain ⟨kj, hkj, hkj'⟩ := singleton_keys (p := (1, 2)) (hju.trans rfl)
  obtain ⟨w0, hw, -⟩ := C80_session false (fun _ => LoopObj.init 0 0) lib hlib exSv exSv_spec argsort argmax hm
    (fun _ _ => 0) eigs as _ hfv (fun _ => 0) 1
  have hbb : w0.circ.bd = b := by
    have h0 : buildCirc _ _ = .ok w0.circ.bd := (construct_build hw).1
    rw [hb] at h0
    exact (Except.ok.inj h0).symm
  subst hbb
  have ht := C42_constructed hw [3] hk.symm (by simp)
  obtain ⟨t1, -, t3⟩ := truncOne ht.1
  have hbd : (run w0 [.setTruncNums (.list [3])]).circ.bd = w0.circ.bd := t1
  have gen : ∀ b : Build, b = w0.circ.bd → 0 < b.M.keep.length ∧ b.juns ≠ [] := by
    rintro _ rfl
    exact ⟨by omega, by rw [hkj]; exact List.cons_ne_nil _ _⟩
  refine ⟨_, _, w0, hgood.noSelf, hw, ⟨fun _ => Or.inl ht.1, trivial⟩, ?_, (gen _ hbd).1, (gen _ hbd).2⟩
  intro h0
  have h2 : (setTruncNums (.list [3]) w0).2.circ.m = [] := h0
  rw [h2] at ht
  exact absurd ht.2 (by decide)

end SQ
