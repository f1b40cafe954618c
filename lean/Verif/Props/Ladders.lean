import Verif.Lemmas.Ladders
import Verif.Spec.Ladders
import Verif.Props.Engines
import Verif.Props.PartsSession
import Verif.Props.DephasingLevels
import Verif.Props.Listing

/-!
# C136: what the NumPy engine leaves out
-/

namespace SQ
open Matrix Spec

theorem indTerms_noflux {nJ n b : ℕ} (C : Matrix (Fin n) (Fin n) ℝ) (M : Modes nJ n) {m : Fin M.keep.length → ℕ}
    (mem : OpMem nJ m) (val : ElemId → ℝ) (phi : Fin b → ℝ) (inds : List (IndKey b)) (h0 : ∀ key ∈ inds, phi key.bId = 0)
    (acc H : Op m) (h : indTerms C M mem val phi inds acc = .ok H) : H = acc := by
  induction inds generalizing acc with
  | nil => exact (Except.ok.inj h).symm
  | cons key ks ih =>
    unfold indTerms at h
    split at h
    · cases h
    · rw [h0 key (by simp)] at h
      have := ih (fun key hk => h0 key (by simp [hk])) _ h
      rw [this]
      simp

/-- the Hamiltonian of all modes in terms of that of the coupled ones -/
theorem ladder_full {nJ n b : ℕ} (C : Matrix (Fin n) (Fin n) ℝ) (M M' : Modes nJ n)
    {τ : Fin M'.keep.length → Fin M.keep.length} (hd : M'.data = M.data.pull τ) (hl : Ladders M.data τ)
    (m : Fin M.keep.length → ℕ) (ng : Fin M.keep.length → ℝ) (val : ElemId → ℝ) (phi : Fin b → ℝ) (inds : List (IndKey b))
    (juns : List (JunKey b nJ)) (h0 : ∀ key ∈ inds, phi key.bId = 0) (H : Op m) (H' : Op fun i => m (τ i))
    (hH : fullHamiltonian C M m ng val phi inds juns = .ok H)
    (hH' : fullHamiltonian C M' (fun i => m (τ i)) (fun i => ng (τ i)) val phi inds juns = .ok H') :
    H = liftOp τ H' + diagonal fun x : Idx m =>
      ((∑ j : {j // j ∉ Set.range τ}, M.omega j * ((x j : Fin (m j)) : ℕ) : ℝ) : ℂ) := by
  have hin : ∀ (M : Modes nJ n) (m : Fin M.keep.length → ℕ) (ng : Fin M.keep.length → ℝ) (H : Op m),
      fullHamiltonian C M m ng val phi inds juns = .ok H →
      H = junTerms (buildMem M.data m ng) val phi juns 0 + lcHamil M.data (buildMem M.data m ng) := by
    intro M m ng H h
    unfold fullHamiltonian hamiltonianOf indHamil at h
    rcases hi : indTerms C M (buildMem M.data m ng) val phi inds 0 with e | X
    · simp only [hi] at h
      cases h
    · have hX := indTerms_noflux C M _ val phi inds h0 0 X hi
      simp only [hi] at h
      rw [← Except.ok.inj h, hX]
  rw [hin M m ng H hH, hin M' _ _ H' hH', hd, ladder_lc hl, liftOp_add, ← ladder_juns hl, liftOp_zero, add_assoc]
  rfl

/-- what the two engines build differs in the list of modes only -/
theorem build_shell (c : CircSpec) (v : ElemId → ℝ) {b b' : Build} (hb : buildCirc (c.under true) v = .ok b)
    (hb' : buildCirc (c.under false) v = .ok b') :
    ∃ (n nJ nB : ℕ) (C : Matrix (Fin n) (Fin n) ℝ) (loops : List LoopId) (B : Matrix (Fin nB) (Fin loops.length) ℝ)
      (inds : List (IndKey nB)) (juns : List (JunKey nB nJ)) (t : Trans nJ n),
      b = ⟨n, nJ, nB, C, loops, B, inds, juns, finishModes true t⟩ ∧
      b' = ⟨n, nJ, nB, C, loops, B, inds, juns, finishModes false t⟩ := by
  revert hb'
  revert hb
  unfold buildCirc
  have hel : ∀ t, (c.under t).els = c.els := fun _ => rfl
  rw [hel, hel]
  rcases numNodes c.els with e | n
  · intro hb
    cases hb
  simp only
  rw [show buildWith (c.under true) n v (finishModes (c.under true).torch) = buildWith (c.under false) n v (finishModes true)
    from buildWith_engine c true n v _, show (c.under false).torch = false from rfl]
  rw [buildWith_afterWalk, buildWith_afterWalk]
  rcases traverse (c.under false).torch (c.under false).fd ((c.under false).O.withVals v) n (c.under false).h (c.under false).els
    with e | a
  · intro hb
    cases hb
  simp only
  unfold afterWalk
  rcases fluxMatrix (c.under false).sv n a.st.kMat a.st.cEdge (a.st.loops.map a.st.loopHeap) with e | B
  · intro hb
    cases hb
  simp only
  by_cases hd : a.cMat.det = 0
  · rw [if_pos hd]
    intro hb
    cases hb
  rw [if_neg hd, if_neg hd]
  rcases transformHamil ((c.under false).lib n) (c.under false).sv (c.under false).argsort
    ((c.under false).argmax _) (c.under false).draws a.numJunWithoutInd
          a.cMat a.lMat (arrayOf n a.wMat) (c.under false).fuel (initTrans a.cMat a.lMat (arrayOf n a.wMat)) with _ | e | t
  · intro hb
    cases hb
  · intro hb
    cases hb
  · intro hb hb'
    exact ⟨n, _, _, _, _, _, _, _, t, (Except.ok.inj hb).symm, (Except.ok.inj hb').symm⟩

/-- the modes under NumPy are the modes under PyTorch that some junction sees, in the same order -/
theorem keep_map {nJ n : ℕ} (t : Trans nJ n) (hj : nJ ≠ 0) :
    ∃ τ : Fin (finishModes false t).keep.length → Fin (finishModes true t).keep.length, StrictMono τ ∧
      (∀ j, j ∈ Set.range τ ↔ ∃ i, (finishModes true t).w i j ≠ 0) ∧
      (finishModes false t).data = (finishModes true t).data.pull τ := by
  obtain ⟨hk, ⟨-, hT⟩, hM⟩ := C32_uncoupled_removal t
  have hk := hk hj
  obtain ⟨p1, o1, w1, c1⟩ := hM false
  obtain ⟨-, o2, w2, c2⟩ := hM true
  have hlen : (finishModes true t).keep.length = n := by rw [hT, List.length_finRange]
  have hget : ∀ j : Fin (finishModes true t).keep.length, (finishModes true t).keep.get j = Fin.cast hlen j := by
    intro j
    apply Fin.ext
    simp [hT]
  let τ : Fin (finishModes false t).keep.length → Fin (finishModes true t).keep.length :=
    fun i => Fin.cast hlen.symm ((finishModes false t).keep.get i)
  have hτ : ∀ i, (finishModes true t).keep.get (τ i) = (finishModes false t).keep.get i := by
    intro i
    rw [hget]
    rfl
  refine ⟨τ, ?_, ?_, ?_⟩
  · intro i j hij
    exact List.pairwise_iff_get.1 p1 i j hij
  · intro j
    constructor
    · rintro ⟨i, rfl⟩
      obtain ⟨a, ha⟩ := (hk _).1 ((finishModes false t).keep.get_mem i)
      refine ⟨a, ?_⟩
      rw [w2, hτ]
      exact ha
    · rintro ⟨a, ha⟩
      rw [w2] at ha
      obtain ⟨i, hi⟩ := List.get_of_mem ((hk _).2 ⟨a, ha⟩)
      refine ⟨i, ?_⟩
      have h1 := (hget j).symm.trans hi.symm
      apply Fin.ext
      have := congrArg Fin.val h1
      exact this.symm
  · unfold ModeData.pull Modes.data
    congr 1
    · ext i j
      show _ = (finishModes true t).cInv (τ i) (τ j)
      rw [(c1 i j).1, (c2 _ _).1, hτ, hτ]
    · ext i j
      show _ = (finishModes true t).l (τ i) (τ j)
      rw [(c1 i j).2, (c2 _ _).2, hτ, hτ]
    · ext i j
      show _ = (finishModes true t).w i (τ j)
      rw [w1, w2, hτ]
    · funext i
      show _ = (finishModes true t).omega (τ i)
      rw [o1, o2, hτ]

/-- C136, the Hamiltonians: a circuit with a junction whose modes that no junction sees are harmonic, without external flux on
inductors. The modes under NumPy are the other modes in the same order, and with the same dimensions and offset charges on
them the levels under PyTorch are the levels under NumPy plus any numbers of quanta in the modes left out. -/
theorem C136_levels (c : CircSpec) (vals : ElemId → ℝ) (hg : GoodCircuit (c.under true) vals) {b b' : Build}
    (hb : buildCirc (c.under true) vals = .ok b) (hb' : buildCirc (c.under false) vals = .ok b') (hj : b.nJ ≠ 0)
    (hom : ∀ j, Untouched b j → b.M.omega j ≠ 0) :
    ∃ τ : Fin b'.M.keep.length → Fin b.M.keep.length, StrictMono τ ∧ (∀ j, j ∉ Set.range τ ↔ Untouched b j) ∧
      (∀ i, b'.M.omega i = b.M.omega (τ i)) ∧
      ∀ (flux : LoopId → ℝ), NoInductorFlux b flux →
        ∀ (val : ElemId → ℝ) (m : Fin b.M.keep.length → ℕ) (ng : Fin b.M.keep.length → ℝ) (H : Op m) (H' : Op fun i => m (τ i)),
          fullHamiltonian b.C b.M m ng val (b.fluxes flux) b.inds b.juns = .ok H →
          fullHamiltonian b'.C b'.M (fun i => m (τ i)) (fun i => ng (τ i)) val (b'.fluxes flux) b'.inds b'.juns = .ok H' →
          ∀ vs ws, Levels H vs ws → ∀ vs' ws', Levels H' vs' ws' →
            (ws : Multiset ℝ) = withLadders ws' (fun j : {j // j ∉ Set.range τ} => b.M.omega j) (fun j => m j) := by
  have h78 := C78_circuit _ _ hg b hb
  have hsym := good_cInv_symm hg hb
  obtain ⟨n, nJ, nB, C, loops, B, inds, juns, t, rfl, rfl⟩ := build_shell c vals hb hb'
  obtain ⟨τ, hmono, hr, hd⟩ := keep_map t hj
  have hunt : ∀ j, j ∉ Set.range τ ↔ ∀ i, (finishModes true t).w i j = 0 := by
    intro j
    rw [hr]
    push Not
    rfl
  have hlad : Ladders (finishModes true t).data τ :=
    ⟨hmono.injective, hsym, fun j hj => hom j ((hunt j).1 hj), fun j hj => (hunt j).1 hj, fun j hj i hij =>
      ⟨(h78.2.1 j i (Ne.symm hij) (hom j ((hunt j).1 hj))).2.1, (h78.2.1 j i (Ne.symm hij) (hom j ((hunt j).1 hj))).1⟩⟩
  refine ⟨τ, hmono, hunt, fun i => congrFun (congrArg ModeData.omega hd) i, ?_⟩
  intro flux h0 val m ng H H' hH hH' vs ws hl vs' ws' hl'
  have e := ladder_full C (finishModes true t) (finishModes false t) hd hlad m ng val _ inds juns h0 H H' hH hH'
  rw [e] at hl
  exact liftOp_levels hmono.injective hl' (fun r => ∑ j : {j // j ∉ Set.range τ}, (finishModes true t).omega j * (r j : ℕ)) hl

/-- the lowest of all these energies -/
theorem ladders_lowest {R : Type} [Fintype R] [DecidableEq R] {ws' : List ℝ} {omega : R → ℝ} {m : R → ℕ}
    (hs : ws'.Pairwise (· ≤ ·)) (ho : ∀ j, 0 ≤ omega j) (hm : ∀ j, 0 < m j) (hne : 0 < ws'.length) {ws : List ℝ}
    (hw : ws.Pairwise (· ≤ ·)) (h : (ws : Multiset ℝ) = withLadders ws' omega m) :
    0 < ws.length ∧ ws.getD 0 0 = ws'.getD 0 0 := by
  have hget : ws'.getD 0 0 = ws'.get ⟨0, hne⟩ := by
    rw [List.getD_eq_getElem?_getD, List.getElem?_eq_getElem hne]
    rfl
  have hmem : ∀ y, y ∈ ws ↔ ∃ p : Fin ws'.length × ∀ j, Fin (m j), ws'.get p.1 + ∑ j, omega j * (p.2 j : ℕ) = y := by
    intro y
    rw [← Multiset.mem_coe, h]
    simp [withLadders]
  have h1 : ws'.getD 0 0 ∈ ws := (hmem _).2 ⟨(⟨0, hne⟩, fun j => ⟨0, hm j⟩), by rw [hget]; simp⟩
  have hpos : 0 < ws.length := List.length_pos_of_mem h1
  refine ⟨hpos, le_antisymm ?_ ?_⟩
  · cases ws with
    | nil => simp at hpos
    | cons a l =>
      rw [List.getD_cons_zero]
      rcases List.mem_cons.1 h1 with e | e
      · exact e.ge
      · exact List.rel_of_pairwise_cons hw e
  · have h0 : ws.getD 0 0 ∈ ws := by
      rw [List.getD_eq_getElem?_getD, List.getElem?_eq_getElem hpos]
      exact List.getElem_mem hpos
    obtain ⟨x, hx⟩ := (hmem _).1 h0
    rw [← hx, hget]
    have hq : 0 ≤ ∑ j, omega j * (x.2 j : ℕ) := Finset.sum_nonneg fun j _ => mul_nonneg (ho j) (Nat.cast_nonneg _)
    have hle : ws'.get ⟨0, hne⟩ ≤ ws'.get x.1 := by
      rcases Nat.eq_zero_or_pos (x.1 : ℕ) with e | e
      · exact le_of_eq (congrArg _ (Fin.ext e.symm))
      · exact List.pairwise_iff_get.1 hs ⟨0, hne⟩ x.1 e
    linarith

/-- C136 for every reachable state: the same circuit under the two engines, each after its own calls without `update`, with the
same element values and fluxes now. If the modes that no junction sees are harmonic and no external flux falls on inductors, then
the modes under NumPy are the others, and with the same dimensions and offset charges on them the levels that `diag`
reports under PyTorch are those it reports under NumPy plus any numbers of quanta in the modes left out, and the lowest level is
the same. -/
theorem C136_session {eigs : EigsFn} {as : List ℂ → List ℕ} (he : EigsLowest eigs) (ha : CArgsortSpec as) (c : CircSpec)
    (vals : ElemId → ℝ) (hg : GoodCircuit (c.under true) vals) (flux flux' : LoopId → ℝ) (u u' : ℝ)
    (w0 : World (circPhys (c.under true) eigs as)) (hw : construct (circPhys (c.under true) eigs as) vals flux u = .ok w0)
    (w0' : World (circPhys (c.under false) eigs as)) (hw' : construct (circPhys (c.under false) eigs as) vals flux' u' = .ok w0')
    (h h' : List Act) (hh : Orderly w0 h) (hh' : Orderly w0' h') (hup : Act.update ∉ h) (hup' : Act.update ∉ h') :
    let w := run w0 h
    let w' := run w0' h'
    w.circ.m ≠ [] → w'.circ.m ≠ [] → w'.vals = w.vals → w'.flux = w.flux → w.circ.bd.nJ ≠ 0 →
    (∀ j, Untouched w.circ.bd j → w.circ.bd.M.omega j ≠ 0) → NoInductorFlux w.circ.bd w.flux →
    ∃ τ : Fin w'.circ.bd.M.keep.length → Fin w.circ.bd.M.keep.length, StrictMono τ ∧
      (∀ j, j ∉ Set.range τ ↔ Untouched w.circ.bd j) ∧
      ((∀ i : Fin w'.circ.bd.M.keep.length, (w'.circ.m.getD i 0).toNat = (w.circ.m.getD (τ i) 0).toNat) →
       (∀ i : Fin w'.circ.bd.M.keep.length, (w'.circ.ng i).getD 0 = (w.circ.ng (τ i)).getD 0) →
       ∃ ws ws' : List ℝ,
        (∀ num : ℕ, 1 ≤ num → num + 1 < ws.length →
          ∃ v, (diag (some num) w).1 = .ok ((ws.take num).map (fun f => f / (2 * Real.pi * w.unitFreq)), v)) ∧
        (∀ num : ℕ, 1 ≤ num → num + 1 < ws'.length →
          ∃ v, (diag (some num) w').1 = .ok ((ws'.take num).map (fun f => f / (2 * Real.pi * w'.unitFreq)), v)) ∧
        ws.Pairwise (· ≤ ·) ∧ ws'.Pairwise (· ≤ ·) ∧
        (ws : Multiset ℝ) = withLadders ws' (fun j : {j // j ∉ Set.range τ} => w.circ.bd.M.omega j)
          (fun j => (w.circ.m.getD j 0).toNat) ∧
        ((∀ j : Fin w.circ.bd.M.keep.length, 1 ≤ w.circ.m.getD j 0) → ws.getD 0 0 = ws'.getD 0 0)) := by
  intro w w' hm hm' hvv hff hj hom h0
  have hb : buildCirc (c.under true) vals = .ok w.circ.bd :=
    (construct_build hw).1.trans (congrArg Except.ok (run_frame h w0 hup).1.symm)
  have hb' : buildCirc (c.under false) vals = .ok w'.circ.bd :=
    (construct_build hw').1.trans (congrArg Except.ok (run_frame h' w0' hup').1.symm)
  obtain ⟨τ, hmono, hr, -, hF⟩ := C136_levels c vals hg hb hb' hj hom
  refine ⟨τ, hmono, hr, ?_⟩
  intro hdim hng
  have hs' : NoSelfLoops (c.under false).els := hg.noSelf
  obtain ⟨H, hH, vs, ws, hl, hd⟩ := part_levels he ha hg.noSelf hw hh hm rfl rfl
  obtain ⟨H', hH', vs', ws', hl', hd'⟩ := part_levels he ha hs' hw' hh' hm'
    (d := fun i => w.circ.bd.dims w.circ.m (τ i)) (funext fun i => hdim i)
    (ng := fun i => (w.circ.ng (τ i)).getD 0) (funext fun i => hng i)
  have e1 : (run w0' h').vals = w.vals := hvv
  have e2 : (run w0' h').flux = w.flux := hff
  rw [e1, e2] at hH'
  have hM : (ws : Multiset ℝ) = withLadders ws' (fun j : {j // j ∉ Set.range τ} => w.circ.bd.M.omega j)
      (fun j => (w.circ.m.getD j 0).toNat) := hF w.flux h0 w.vals (w.circ.bd.dims w.circ.m) (fun i => (w.circ.ng i).getD 0) H H' hH hH' vs ws hl vs' ws' hl'
  refine ⟨ws, ws', hd, hd', hl.sorted, hl'.sorted, hM, ?_⟩
  intro hpos
  have hp : ∀ j : Fin w.circ.bd.M.keep.length, 0 < (w.circ.m.getD j 0).toNat := by
    intro j
    have := hpos j
    omega
  refine (ladders_lowest (R := {j // j ∉ Set.range τ}) hl'.sorted (fun j => ?_) (fun j => hp j) ?_ hl.sorted hM).2
  · exact ((C78_circuit _ _ hg _ hb).2.2.1 j (hom j ((hr j).1 j.2))).2.2.ge.trans' (Real.sqrt_nonneg _)
  · rw [hl'.len, hl'.card, Fintype.card_pi]
    refine Finset.prod_pos fun i _ => ?_
    rw [Fintype.card_fin]
    exact hp (τ i)

end SQ
