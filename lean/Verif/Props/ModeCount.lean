import Verif.Lemmas.Eigen
import Verif.Lemmas.ModeCount
import Verif.Props.SecondTransform
import Verif.Props.FinalModes
import Verif.Props.Inputs
import Verif.Props.CircuitState
import Verif.Model.NoiseBuild
import Verif.Lemmas.LcBuild
import Verif.Lemmas.LibExists
import Verif.Props.Fluxonium

/-!
# C131: the graph of a circuit decides how many modes it has, and of which kind
-/

namespace SQ
open Matrix Spec

variable {nJ n : ℕ}

theorem card_subtype_get {α : Type*} {l : List α} (hl : l.Nodup) (P : α → Prop) :
    Nat.card {i : Fin l.length // P (l.get i)} = Nat.card {a : α // a ∈ l ∧ P a} := by
  apply Nat.card_congr
  refine Equiv.ofBijective (fun i => ⟨l.get i.1, List.get_mem _ _, i.2⟩) ⟨?_, ?_⟩
  · rintro ⟨i, hi⟩ ⟨j, hj⟩ h
    exact Subtype.ext (List.nodup_iff_injective_get.1 hl (congrArg Subtype.val h))
  · rintro ⟨a, ha, hP⟩
    obtain ⟨i, rfl⟩ := List.get_of_mem ha
    exact ⟨⟨i, hP⟩, rfl⟩

/-- frequencies before the removal of modes: harmonic modes first, and as many charge modes as the inductors leave parts
without ground -/
theorem stages_omega {c : CircSpec} {vals : ElemId → ℝ} (hc : GoodCircuit c vals) {n : ℕ} {a : Acc n}
    (hn : numNodes c.els = .ok n) (htr : traverse c.torch c.fd (c.O.withVals vals) n c.h c.els = .ok a) :
    (chargeCols (modeFreq (c.lib n) a.cMat a.lMat)).length + 1 = numParts c.O c.els n [.ind] ∧
    Nat.card {j : Fin n // modeFreq (c.lib n) a.cMat a.lMat j = 0} =
      (chargeCols (modeFreq (c.lib n) a.cMat a.lMat)).length ∧
    Nat.card {j : Fin n // modeFreq (c.lib n) a.cMat a.lMat j ≠ 0} +
      (chargeCols (modeFreq (c.lib n) a.cMat a.lMat)).length = n := by
  classical
  obtain ⟨hv, hC, hL⟩ := good_mats hc hn htr
  obtain ⟨hlib, hgap⟩ := hc.lib n a hn htr
  obtain ⟨d, hd, ho⟩ := afterT1_diag hC hL.isHermitian hlib hgap (arrayOf n a.wMat)
  have hdim := charge_dim (matS1_isUnit hC hL.isHermitian hlib) hd ho (kernel_flat hv hc.caps hc.inds htr)
  have hparts : Module.finrank ℝ (flat n (kindEdges (c.O.withVals vals) c.els [.ind])) + 1 = numParts c.O c.els n [.ind] :=
    numParts_flat (O := c.O.withVals vals) hv
  have hcard : Nat.card {j : Fin n // modeFreq (c.lib n) a.cMat a.lMat j = 0} =
      (chargeCols (modeFreq (c.lib n) a.cMat a.lMat)).length := by
    have h1 := card_subtype_get (l := chargeCols (modeFreq (c.lib n) a.cMat a.lMat))
      ((chargeCols_pairwise _).imp fun h => ne_of_lt h) (fun _ => True)
    rw [Nat.card_congr (Equiv.subtypeUnivEquiv fun _ => trivial), Nat.card_fin] at h1
    rw [h1]
    apply Nat.card_congr
    exact Equiv.subtypeEquivRight fun j => by rw [mem_chargeCols]; simp
  refine ⟨?_, hcard, ?_⟩
  · rw [← hparts, hdim]; rfl
  · rw [← hcard, Nat.card_eq_fintype_card, Nat.card_eq_fintype_card, add_comm]
    have := Fintype.card_subtype_compl (fun j : Fin n => modeFreq (c.lib n) a.cMat a.lMat j = 0)
    have h2 := Fintype.card_subtype_le (fun j : Fin n => modeFreq (c.lib n) a.cMat a.lMat j = 0)
    simp only [Fintype.card_fin] at this h2
    rw [this]; omega

/-- the frequencies of the kept modes are those of the first transformation -/
theorem final_omega {c : CircSpec} {n : ℕ} {a : Acc n} {t : Trans a.wMat.length n}
    (ht : transformHamil (c.lib n) c.sv c.argsort (c.argmax _) c.draws a.numJunWithoutInd a.cMat a.lMat
      (arrayOf n a.wMat) c.fuel (initTrans a.cMat a.lMat (arrayOf n a.wMat)) = some (.ok t)) :
    t.omega = modeFreq (c.lib n) a.cMat a.lMat := by
  obtain ⟨tb, rfl, hcase⟩ := transformHamil_ok ht
  rw [t3_omega]
  rcases hcase with ⟨-, h⟩ | ⟨-, rfl⟩
  · obtain ⟨s, r, rfl, -⟩ := t2_rows h
    rfl
  · rfl

theorem kept_cards (torch : Bool) (t : Trans nJ n) :
    Nat.card {i // (finishModes torch t).omega i = 0} = Nat.card {j // j ∈ (finishModes torch t).keep ∧ t.omega j = 0} ∧
    Nat.card {i // (finishModes torch t).omega i ≠ 0} =
      Nat.card {j // j ∈ (finishModes torch t).keep ∧ t.omega j ≠ 0} := by
  obtain ⟨keep, hk, hp⟩ := finishModes_eq torch t
  rw [hk]
  have hnd : keep.Nodup := hp.imp fun h => ne_of_lt h
  exact ⟨card_subtype_get hnd (fun j => t.omega j = 0), card_subtype_get hnd (fun j => t.omega j ≠ 0)⟩

/-- C131, upper bounds: a constructed circuit never has more charge modes than the inductors leave connected parts
without ground, nor more harmonic modes than nodes joined by inductors allow. -/
theorem C131_at_most (c : CircSpec) (vals : ElemId → ℝ) (hc : GoodCircuit c vals) (b : Build)
    (hb : buildCirc c vals = .ok b) :
    Nat.card {i // b.M.omega i = 0} + 1 ≤ numParts c.O c.els b.n [.ind] ∧
    Nat.card {i // b.M.omega i ≠ 0} + numParts c.O c.els b.n [.ind] ≤ b.n + 1 := by
  obtain ⟨n, a, B, t, hn, htr, -, ht, rfl⟩ := buildCirc_stages hb
  obtain ⟨h1, h2, h3⟩ := stages_omega hc hn htr
  have hom := final_omega ht
  obtain ⟨k1, k2⟩ := kept_cards c.torch t
  rw [← hom] at h1 h2 h3
  have e1 : Nat.card {j // j ∈ (finishModes c.torch t).keep ∧ t.omega j = 0} ≤ Nat.card {j // t.omega j = 0} :=
    Nat.card_mono (Set.toFinite {j | t.omega j = 0}) (fun j hj => hj.2)
  have e2 : Nat.card {j // j ∈ (finishModes c.torch t).keep ∧ t.omega j ≠ 0} ≤ Nat.card {j // t.omega j ≠ 0} :=
    Nat.card_mono (Set.toFinite {j | t.omega j ≠ 0}) (fun j hj => hj.2)
  refine ⟨?_, ?_⟩
  · change Nat.card {i // (finishModes c.torch t).omega i = 0} + 1 ≤ numParts c.O c.els n [.ind]
    rw [k1]; omega
  · change Nat.card {i // (finishModes c.torch t).omega i ≠ 0} + numParts c.O c.els n [.ind] ≤ n + 1
    rw [k2]; omega

/-- C131 when no mode is removed (PyTorch, or circuits without junctions): one charge mode for every connected part
that the inductors leave without ground, and harmonic modes for the rest of the nodes. -/
theorem C131_all_modes (c : CircSpec) (vals : ElemId → ℝ) (hc : GoodCircuit c vals)
    (hall : c.torch = true ∨ junctionEdges c.O c.els = []) (b : Build) (hb : buildCirc c vals = .ok b) :
    Nat.card {i // b.M.omega i = 0} + 1 = numParts c.O c.els b.n [.ind] ∧
    Nat.card {i // b.M.omega i ≠ 0} + numParts c.O c.els b.n [.ind] = b.n + 1 := by
  obtain ⟨n, a, B, t, hn, htr, -, ht, rfl⟩ := buildCirc_stages hb
  obtain ⟨h1, h2, h3⟩ := stages_omega hc hn htr
  have hom := final_omega ht
  obtain ⟨k1, k2⟩ := kept_cards c.torch t
  rw [← hom] at h1 h2 h3
  have hkeep : (finishModes c.torch t).keep = List.finRange n := by
    unfold finishModes
    rw [if_neg]
    · rfl
    · rintro ⟨hJ, hT⟩
      rcases hall with h | h
      · rw [hT] at h; cases h
      · have hv := (good_mats hc hn htr).1
        have hw := (traverse_inv hv htr).2
        have h' : junctionEdges (c.O.withVals vals) c.els = [] := h
        rw [h'] at hw
        apply hJ
        rw [hw]; rfl
  have e1 : Nat.card {j // j ∈ (finishModes c.torch t).keep ∧ t.omega j = 0} = Nat.card {j // t.omega j = 0} :=
    Nat.card_congr (Equiv.subtypeEquivRight fun j => by rw [hkeep]; simp)
  have e2 : Nat.card {j // j ∈ (finishModes c.torch t).keep ∧ t.omega j ≠ 0} = Nat.card {j // t.omega j ≠ 0} :=
    Nat.card_congr (Equiv.subtypeEquivRight fun j => by rw [hkeep]; simp)
  refine ⟨?_, ?_⟩
  · change Nat.card {i // (finishModes c.torch t).omega i = 0} + 1 = numParts c.O c.els n [.ind]
    rw [k1]; omega
  · change Nat.card {i // (finishModes c.torch t).omega i ≠ 0} + numParts c.O c.els n [.ind] = n + 1
    rw [k2]; omega

/-- C131 under NumPy for circuits with junctions: the charge modes are as many as the junctions join parts that the
inductors leave separate: the number of connected parts that the inductors make, less the number that inductors and
junctions make together. -/
theorem C131_charge_modes (c : CircSpec) (vals : ElemId → ℝ) (hc : GoodCircuit c vals) (hT : c.torch = false)
    (hJ : junctionEdges c.O c.els ≠ [])
    (hsel : ∀ n a, numNodes c.els = .ok n → traverse c.torch c.fd (c.O.withVals vals) n c.h c.els = .ok a →
      SelectionSpans c.sv c.argsort (arrayOf n a.wMat) (matS1 (c.lib n) a.cMat a.lMat)
        (modeFreq (c.lib n) a.cMat a.lMat))
    (b : Build) (hb : buildCirc c vals = .ok b) :
    Nat.card {i // b.M.omega i = 0} + numParts c.O c.els b.n [.ind, .jj] = numParts c.O c.els b.n [.ind] := by
  obtain ⟨n, a, B, t, hn, htr, -, ht, rfl⟩ := buildCirc_stages hb
  obtain ⟨hv, hC, hL⟩ := good_mats hc hn htr
  obtain ⟨hlib, hgap⟩ := hc.lib n a hn htr
  obtain ⟨d, hd, ho⟩ := afterT1_diag hC hL.isHermitian hlib hgap (arrayOf n a.wMat)
  have hw := (traverse_inv hv htr).2
  have hnJ : a.wMat.length ≠ 0 := by
    rw [hw, List.length_map]
    intro h0
    exact hJ (List.length_eq_zero_iff.1 h0)
  have hSu := matS1_isUnit hC hL.isHermitian hlib
  have hdim := row_dim hSu hd ho (kernel_flat hv hc.caps hc.inds htr) (junction_flat hv htr)
  rw [kindEdges_union] at hdim
  have hp1 : Module.finrank ℝ (flat n (kindEdges (c.O.withVals vals) c.els [.ind])) + 1 = numParts c.O c.els n [.ind] :=
    numParts_flat (O := c.O.withVals vals) hv
  have hp2 : Module.finrank ℝ (flat n (kindEdges (c.O.withVals vals) c.els ([.ind] ++ [.jj]))) + 1 =
      numParts c.O c.els n [.ind, .jj] := numParts_flat (O := c.O.withVals vals) hv
  obtain ⟨tb, rfl, hcase⟩ := transformHamil_ok ht
  have ht2 := (hcase.resolve_right fun h => hnJ h.1).2
  have hm : singStart (c.lib n) a.cMat a.lMat ≤ n := by
    have h1 := singStart_le (C := a.cMat) hL.isHermitian hlib
    have h2 := a.lMat.rank_le_card_width
    simp only [Fintype.card_fin] at h2
    omega
  have h0 : a.numJunWithoutInd = 0 → ∀ i, chargeRow (arrayOf n a.wMat) (matS1 (c.lib n) a.cMat a.lMat)
      (chargeCols (afterT1 (c.lib n) a.cMat a.lMat (arrayOf n a.wMat)).omega) i = 0 := by
    intro hz
    have hspan0 : Module.finrank ℝ (Submodule.span ℝ (Set.range (chargeRow (arrayOf n a.wMat)
        (matS1 (c.lib n) a.cMat a.lMat)
        (chargeCols (afterT1 (c.lib n) a.cMat a.lMat (arrayOf n a.wMat)).omega)))) = 0 := by
      have hsub : kindEdges (c.O.withVals vals) c.els ([.ind] ++ [.jj]) = kindEdges (c.O.withVals vals) c.els [.ind] := by
        rw [traverse_numJ htr] at hz
        have hempty := List.length_eq_zero_iff.1 hz
        unfold bareJunctionEdges at hempty
        rw [List.filter_eq_nil_iff] at hempty
        ext e
        constructor
        · rintro ⟨p, hp, he, i, hi, hk⟩
          refine ⟨p, hp, he, ?_⟩
          rcases List.mem_append.1 hk with hk | hk
          · exact ⟨i, hi, hk⟩
          · have h1 := hempty p hp
            have h2 : p.2.any (fun i => decide (((c.O.withVals vals).elem i).kind = .jj)) = true :=
              List.any_eq_true.2 ⟨i, hi, by simpa using hk⟩
            rw [h2, Bool.true_and] at h1
            have h3 : p.2.any (fun i => decide (((c.O.withVals vals).elem i).kind = .ind)) = true := by simpa using h1
            obtain ⟨j, hj, hjk⟩ := List.any_eq_true.1 h3
            exact ⟨j, hj, by simpa using hjk⟩
        · rintro ⟨p, hp, he, i, hi, hk⟩
          exact ⟨p, hp, he, i, hi, List.mem_append_left _ hk⟩
      rw [hsub] at hdim
      omega
    have hbot := Submodule.finrank_eq_zero.1 hspan0
    intro i
    exact (Submodule.span_eq_bot.1 hbot) _ ⟨i, rfl⟩
  obtain ⟨hto, hcount⟩ := t2_coupled hnJ ht2 ((afterT1_w (c.lib n) a.cMat a.lMat _).trans (by rw [afterT1_S])) hm
    (afterT1_omega_zero_iff hC hL.isHermitian hlib _) (hsel n a hn htr) h0
  have hk := (kept_cards c.torch (t3 (c.argmax _) tb)).1
  change Nat.card {i // (finishModes c.torch (t3 (c.argmax _) tb)).omega i = 0} + numParts c.O c.els n [.ind, .jj] =
    numParts c.O c.els n [.ind]
  have hsame : Nat.card {j // j ∈ (finishModes c.torch (t3 (c.argmax _) tb)).keep ∧ (t3 (c.argmax _) tb).omega j = 0} =
      Nat.card {j : Fin n // (afterT1 (c.lib n) a.cMat a.lMat (arrayOf n a.wMat)).omega j = 0 ∧ ∃ i, tb.w i j ≠ 0} := by
    apply Nat.card_congr
    apply Equiv.subtypeEquivRight
    intro j
    rw [hT, (C32_uncoupled_removal (t3 (c.argmax _) tb)).1 hnJ j, t3_omega, hto, and_comm]
    apply and_congr_right
    intro hj
    have hd1 : t3Diag (c.argmax _) tb j = 1 := by
      unfold t3Diag; rw [if_pos (by rw [hto]; exact hj)]
    have he : ∀ i, (t3 (c.argmax _) tb).w i j = tb.w i j := by
      intro i
      rw [t3_w, hd1, mul_one]
      simp only [t3Elim, of_apply]
      rw [if_neg]
      rw [hto]
      exact fun h => h.1 hj
    simp only [he]
  rw [hk, hsame, hcount]
  omega

/-- C131 for circuits whose nodes are all connected to ground through inductors: they have no charge mode. -/
theorem C131_grounded (c : CircSpec) (vals : ElemId → ℝ) (hc : GoodCircuit c vals) (b : Build)
    (hb : buildCirc c vals = .ok b) (hg : (kindGraph c.O c.els b.n [.ind]).Connected) : ∀ i, b.M.omega i ≠ 0 := by
  have h1 := (C131_at_most c vals hc b hb).1
  have hsub : Subsingleton (kindGraph c.O c.els b.n [.ind]).ConnectedComponent :=
    hg.preconnected.subsingleton_connectedComponent
  have h2 : numParts c.O c.els b.n [.ind] ≤ 1 := Finite.card_le_one_iff_subsingleton.2 hsub
  have h3 : Nat.card {i // b.M.omega i = 0} = 0 := by omega
  intro i hi
  rw [Nat.card_eq_zero] at h3
  rcases h3 with h3 | h3
  · exact h3.false ⟨i, hi⟩
  · exact h3.not_finite inferInstance

theorem no_islands {P : Phys} (w : World P) (hw : ∀ i, w.circ.islands i = none) (h : List Act) :
    ∀ i, (run w h).circ.islands i = none := by
  induction h generalizing w with
  | nil => exact hw
  | cons a h ih =>
    refine ih (a.exec w).2 ?_
    intro i
    by_cases ha : ∃ v, a = .setChargeOffset (some (i + 1)) v
    · obtain ⟨v, rfl⟩ := ha
      have : ((Act.setChargeOffset (some ((i : ℤ) + 1)) v).exec w).2 = w := by
        simp only [Act.exec, setChargeOffset, islandOf]
        rw [hw]
        split <;> simp_all
      rw [this]
      exact hw i
    · push Not at ha
      rw [(exec_inputs a w).2.2.2 i ha]
      exact hw i

/-- C131, consequences: such a circuit cannot be given a charge offset: `set_charge_offset` raises ValueError for every
mode and changes nothing, at any time; and charge noise does not dephase it: `dec_rate("charge", …)` is zero for all
pairs of computed states. -/
theorem C131_no_charge {c : CircSpec} {eigs : EigsFn} {as : List ℂ → List ℕ} (vals : ElemId → ℝ)
    (hc : GoodCircuit c vals) (flux : LoopId → ℝ) (u : ℝ) (w0 : World (circPhys c eigs as))
    (hw : construct (circPhys c eigs as) vals flux u = .ok w0)
    (hg : (kindGraph c.O c.els (Build.n w0.circ.bd) [.ind]).Connected) :
    (∀ (h : List Act) (mode : Option ℤ) (ng : ℝ),
      setChargeOffset mode ng (run w0 h) = (.error .valueError, run w0 h)) ∧
    ∀ (m : Fin (Build.M w0.circ.bd).keep.length → ℕ) (ng : Fin (Build.M w0.circ.bd).keep.length → ℝ) (val : ElemId → ℝ)
      (fluxes : Fin (Build.loops w0.circ.bd).length → ℝ) (P : ElemId → Matrix (Fin (Build.n w0.circ.bd)) _ ℝ)
      (noise : NoiseSpec (Build.loops w0.circ.bd).length) (env : NoiseEnv) (ef : List ℝ) (ev : List (Idx m → ℂ))
      (p q : ℕ) (total : Bool), p < ef.length → q < ef.length → ef.length = ev.length →
      (Build.noise c w0.circ.bd m ng val fluxes P noise env ef ev).decRate "charge" (p, q) total = .ok (.val 0) := by
  have hb := (construct_build hw).1
  have hom := C131_grounded c vals hc _ hb hg
  refine ⟨?_, ?_⟩
  · intro h mode ng
    have h0 : ∀ i, w0.circ.islands i = none := by
      intro i
      unfold construct at hw
      split at hw
      · cases hw
      · rename_i bd hbd
        injection hw with hw
        subst hw
        simp only
        rw [if_neg]
        rintro ⟨hi, hci⟩
        have hci' : Build.isCharge bd i = true := hci
        unfold Build.isCharge at hci'
        split at hci'
        · exact hom _ (of_decide_eq_true hci')
        · cases hci'
    have hi := no_islands w0 h0 h
    unfold setChargeOffset islandOf
    cases mode with
    | none => rfl
    | some k =>
      simp only
      rw [hi]
      split <;> simp_all
  · intro m ng val fluxes P noise env ef ev p q total hp hq hl
    have hp' : p < ev.length := by omega
    have hq' : q < ev.length := by omega
    have hrate : ∀ s1 s2, (Build.noise c w0.circ.bd m ng val fluxes P noise env ef ev).chargeRate s1 s2 = 0 := by
      intro s1 s2
      unfold NoiseCirc.chargeRate
      have : ∀ (l : List (Fin (Build.M w0.circ.bd).keep.length)) (f : ℝ → Fin (Build.M w0.circ.bd).keep.length → ℝ),
          l.foldl (fun acc i => open Classical in if (Build.M w0.circ.bd).omega i = 0 then f acc i else acc) 0 = 0 := by
        intro l f
        induction l with
        | nil => rfl
        | cons x l ih => rw [List.foldl_cons, if_neg (hom x)]; exact ih
      exact this _ _
    unfold NoiseCirc.decRate
    have hne : ¬ (Build.noise c w0.circ.bd m ng val fluxes P noise env ef ev).efreqs.length = 0 := by
      change ¬ ef.length = 0
      omega
    rw [if_neg hne]
    have f1 : pyGet (Build.noise c w0.circ.bd m ng val fluxes P noise env ef ev).efreqs (p : ℤ) = .ok ef[p] := pyGet_nat hp
    have f2 : pyGet (Build.noise c w0.circ.bd m ng val fluxes P noise env ef ev).efreqs (q : ℤ) = .ok ef[q] := pyGet_nat hq
    have f3 : pyGet (Build.noise c w0.circ.bd m ng val fluxes P noise env ef ev).evecs (p : ℤ) = .ok ev[p] := pyGet_nat hp'
    have f4 : pyGet (Build.noise c w0.circ.bd m ng val fluxes P noise env ef ev).evecs (q : ℤ) = .ok ev[q] := pyGet_nat hq'
    simp only [f1, f2, f3, f4]
    simp
    exact hrate _ _

/-- the hypotheses can be met: an inductor at node 1 and a junction at node 2; the inductor leaves two parts, inductor
and junction together one. PyTorch has a harmonic and a charge mode, NumPy keeps the charge mode only. -/
theorem C131_example : ∃ (c c' : CircSpec) (b b' : Build), GoodCircuit c lcVals ∧ c.torch = false ∧
    junctionEdges c.O c.els ≠ [] ∧
    (∀ n a, numNodes c.els = .ok n → traverse c.torch c.fd (c.O.withVals lcVals) n c.h c.els = .ok a →
      SelectionSpans c.sv c.argsort (arrayOf n a.wMat) (matS1 (c.lib n) a.cMat a.lMat)
        (modeFreq (c.lib n) a.cMat a.lMat)) ∧
    buildCirc c lcVals = .ok b ∧ GoodCircuit c' lcVals ∧ c'.torch = true ∧ buildCirc c' lcVals = .ok b' ∧
    numParts c.O c.els b.n [.ind] = 2 ∧ numParts c.O c.els b.n [.ind, .jj] = 1 ∧
    Nat.card {i // b.M.omega i = 0} = 1 ∧ Nat.card {i // b'.M.omega i = 0} = 1 ∧ Nat.card {i // b'.M.omega i ≠ 0} = 1 := by
  obtain ⟨sv, hsv⟩ := exists_svdFn
  obtain ⟨argsort, has⟩ := exists_argsort
  choose argmax ham using exists_argmax
  have hg := lc_good false sv argsort ham
  have hg' := lc_good true sv argsort ham
  have hb := lc_build_init hsv has argmax false
  have hb' := lc_build_init hsv has argmax true
  have hsel : ∀ n a, numNodes (lcSpec false sv argsort argmax).els = .ok n →
      traverse (lcSpec false sv argsort argmax).torch (lcSpec false sv argsort argmax).fd
        ((lcSpec false sv argsort argmax).O.withVals lcVals) n (lcSpec false sv argsort argmax).h
        (lcSpec false sv argsort argmax).els = .ok a →
      SelectionSpans (lcSpec false sv argsort argmax).sv (lcSpec false sv argsort argmax).argsort (arrayOf n a.wMat)
        (matS1 ((lcSpec false sv argsort argmax).lib n) a.cMat a.lMat)
        (modeFreq ((lcSpec false sv argsort argmax).lib n) a.cMat a.lMat) := by
    intro n a hn htr
    obtain ⟨hn', a', htr', hC, hL, hW, -⟩ := lc_traverse false .junctions (fun _ => LoopObj.init 0 0)
    have h2 : n = 2 := by
      have h : numNodes lcEls = .ok n := hn
      rw [hn'] at h
      injection h with h
      exact h.symm
    subst h2
    have haa : a = a' := by
      have h : traverse false .junctions lcObjs 2 (fun _ => LoopObj.init 0 0) lcEls = .ok a := htr
      rw [htr'] at h
      injection h with h
      exact h.symm
    subst haa
    rw [hC, hL]
    clear htr htr' hC hL
    generalize a.wMat = w at hW
    subst hW
    have harr : (arrayOf 2 [[0, 1]] : Matrix (Fin 1) (Fin 2) ℝ) = lcW := by
      ext i j
      fin_cases i; fin_cases j <;> simp [arrayOf, rowVec, lcW]
    have h := (lc_faithful hsv has (fun _ _ _ => 0)).spans
    rw [← harr] at h
    exact h
  have hz : Nat.card {j : Fin 2 // lcFinal.omega j = 0} = 1 := by
    rw [Nat.card_eq_one_iff_unique]
    refine ⟨⟨?_⟩, ⟨1, rfl⟩⟩
    rintro ⟨i, hi⟩ ⟨j, hj⟩
    have key : ∀ i : Fin 2, lcFinal.omega i = 0 → i = 1 := by
      intro i hi
      fin_cases i
      · exact absurd hi one_ne_zero
      · rfl
    exact Subtype.ext ((key i hi).trans (key j hj).symm)
  have hnz : Nat.card {j : Fin 2 // lcFinal.omega j ≠ 0} = 1 := by
    rw [Nat.card_eq_one_iff_unique]
    refine ⟨⟨?_⟩, ⟨0, one_ne_zero⟩⟩
    rintro ⟨i, hi⟩ ⟨j, hj⟩
    have key : ∀ i : Fin 2, lcFinal.omega i ≠ 0 → i = 0 := by
      intro i hi
      fin_cases i
      · rfl
      · exact absurd rfl hi
    exact Subtype.ext ((key i hi).trans (key j hj).symm)
  have hkeep : (finishModes true lcFinal).keep = List.finRange 2 := rfl
  obtain ⟨k1, k2⟩ := kept_cards true lcFinal
  have hc1 : Nat.card {i // (lcBuild true).M.omega i = 0} = 1 := by
    refine k1.trans (Eq.trans ?_ hz)
    exact Nat.card_congr (Equiv.subtypeEquivRight fun j => by rw [hkeep]; simp)
  have hc2 : Nat.card {i // (lcBuild true).M.omega i ≠ 0} = 1 := by
    refine k2.trans (Eq.trans ?_ hnz)
    exact Nat.card_congr (Equiv.subtypeEquivRight fun j => by rw [hkeep]; simp)
  have hparts : numParts lcObjs lcEls 2 [.ind] = 2 := by
    have h := (C131_all_modes _ _ hg' (Or.inl rfl) _ hb').1
    rw [hc1] at h
    exact h.symm
  have hone : numParts lcObjs lcEls 2 [.ind, .jj] = 1 := by
    have h1 : (kindGraph lcObjs lcEls 2 [.ind, .jj]).Adj 0 1 := by
      rw [kindGraph, SimpleGraph.fromRel_adj]
      exact ⟨by decide, Or.inl ⟨((0, 1), [0]), by simp [lcEls], rfl, 0, by simp, by simp [lcObjs]⟩⟩
    have h2 : (kindGraph lcObjs lcEls 2 [.ind, .jj]).Adj 0 2 := by
      rw [kindGraph, SimpleGraph.fromRel_adj]
      exact ⟨by decide, Or.inl ⟨((0, 2), [2]), by simp [lcEls], rfl, 2, by simp, by simp [lcObjs]⟩⟩
    have hall : ∀ v, (kindGraph lcObjs lcEls 2 [.ind, .jj]).Reachable 0 v := by
      intro v
      fin_cases v
      · exact .refl _
      · exact h1.reachable
      · exact h2.reachable
    have hpre : (kindGraph lcObjs lcEls 2 [.ind, .jj]).Preconnected := fun v w => (hall v).symm.trans (hall w)
    have := hpre.subsingleton_connectedComponent
    exact Nat.card_eq_one_iff_unique.2 ⟨this, ⟨(kindGraph lcObjs lcEls 2 [.ind, .jj]).connectedComponentMk 0⟩⟩
  have hJ : junctionEdges (lcSpec false sv argsort argmax).O (lcSpec false sv argsort argmax).els ≠ [] := by
    change junctionEdges lcObjs lcEls ≠ []
    decide
  have hcount := C131_charge_modes _ _ hg rfl hJ hsel _ hb
  refine ⟨lcSpec false sv argsort argmax, lcSpec true sv argsort argmax, lcBuild false, lcBuild true, hg, rfl, hJ, hsel,
    hb, hg', rfl, hb', hparts, hone, ?_, hc1, hc2⟩
  have e1 : numParts (lcSpec false sv argsort argmax).O (lcSpec false sv argsort argmax).els (lcBuild false).n [.ind] = 2 :=
    hparts
  have e2 : numParts (lcSpec false sv argsort argmax).O (lcSpec false sv argsort argmax).els (lcBuild false).n
    [.ind, .jj] = 1 := hone
  omega

/-- and for `C131_no_charge`: a fluxonium, in which the inductor joins the only node to ground -/
theorem C131_fluxonium (eigs : EigsFn) (as : List ℂ → List ℕ) : ∃ (c : CircSpec) (vals : ElemId → ℝ)
    (w0 : World (circPhys c eigs as)), GoodCircuit c vals ∧
    construct (circPhys c eigs as) vals (fun _ => 0) 1 = .ok w0 ∧
    (kindGraph c.O c.els (Build.n w0.circ.bd) [.ind]).Connected := by
  choose lib hlib using exists_lib
  choose argmax hm using exists_argmax
  obtain ⟨argsort, -⟩ := exists_argsort
  have hv := fx_example_values
  obtain ⟨w0, hw, -⟩ := C80_session false (fun _ => LoopObj.init 0 0) lib hlib exSv exSv_spec argsort argmax hm
    (fun _ _ => 0) eigs as _ hv (fun _ => 0) 1
  refine ⟨_, _, w0, fx_good false _ hlib exSv argsort hm _ hv.1 hv.2.1 hv.2.2.1, hw, ?_⟩
  have hb := (construct_build hw).1
  have hn1 : Build.n w0.circ.bd = 1 := by
    obtain ⟨n, a, B, t, hn, -, -, -, hbd⟩ := buildCirc_stages hb
    have h' : numNodes fluxoniumEls = .ok n := hn
    have h'' : numNodes fluxoniumEls = .ok 1 := by decide
    rw [h''] at h'
    have : n = 1 := (Except.ok.inj h').symm
    exact (congrArg Build.n hbd).trans this
  rw [hn1]
  change (kindGraph fluxoniumObjs fluxoniumEls 1 [.ind]).Connected
  have h1 : (kindGraph fluxoniumObjs fluxoniumEls 1 [.ind]).Adj 0 1 := by
    rw [kindGraph, SimpleGraph.fromRel_adj]
    exact ⟨by decide, Or.inl ⟨((0, 1), [0, 2]), by simp [fluxoniumEls], rfl, 0, by simp, by simp [fluxoniumObjs]⟩⟩
  have hall : ∀ v, (kindGraph fluxoniumObjs fluxoniumEls 1 [.ind]).Reachable 0 v := by
    intro v
    fin_cases v
    · exact .refl _
    · exact h1.reachable
  exact ⟨fun v w => (hall v).symm.trans (hall w)⟩

end SQ
