import Verif.Props.SystemFit
import Verif.Props.MergeCircuit
import Verif.Props.LevelsExample

/-!
# C139: two coupled transmons
-/

namespace SQ
open Matrix Spec

theorem benchRun_cons {ι : Type} [DecidableEq ι] {c : ι → CircSpec} {eigs : EigsRoutine} {as : List ℂ → List ℕ} (b : Bench c eigs as)
    (a : BenchAct ι) (h : List (BenchAct ι)) : benchRun b (a :: h) = benchRun (a.exec b).2 h := rfl

theorem benchRun_append {ι : Type} [DecidableEq ι] {c : ι → CircSpec} {eigs : EigsRoutine} {as : List ℂ → List ℕ} (b : Bench c eigs as)
    (g h : List (BenchAct ι)) : benchRun b (g ++ h) = benchRun (benchRun b g) h := by
  unfold benchRun
  rw [List.foldl_append]

theorem benchRun_nil {ι : Type} [DecidableEq ι] {c : ι → CircSpec} {eigs : EigsRoutine} {as : List ℂ → List ℕ} (b : Bench c eigs as) :
    benchRun b [] = b := rfl

/-- a transmon with truncation number 3: one mode, 5 charge states -/
theorem transmon_ready {ids : List ElemId} {O : Objs} {vals : ElemId → ℝ} (hj : OnlyJunctions O ids) (hv : ParallelValues O ids vals)
    (hloops : ∀ i ∈ ids, (O.elem i).loops = []) (lib : ∀ n, NumLib n)
    (hlib : ∀ n, ∀ C L : Matrix (Fin n) (Fin n) ℝ, C.PosDef → L.PosSemidef → LibSpec (lib n) C L)
    (argsort : ArgsortFn) (hsrt : ArgsortSpec argsort) (argmax : ∀ k, ArgmaxFn k) (hm : ∀ k, ArgmaxSpec (argmax k))
    (eigs : EigsFn) (as : List ℂ → List ℕ) (flux : LoopId → ℝ) (u : ℝ) :
    ∃ w0 : World (circPhys (parallelSpec false .junctions O ids (fun _ => LoopObj.init 0 0) lib exSv argsort argmax (fun _ _ => 0)) eigs as),
      construct (circPhys _ eigs as) vals flux u = .ok w0 ∧ Orderly w0 [.setTruncNums (.list [3])] ∧
      (run w0 [.setTruncNums (.list [3])]).circ.m ≠ [] ∧
      Fintype.card (Idx ((run w0 [.setTruncNums (.list [3])]).circ.bd.dims (run w0 [.setTruncNums (.list [3])]).circ.m)) = 5 := by
  have hi := oe_island_circuit (fd := .junctions) (torch := false) (h := fun _ => LoopObj.init 0 0) (lib := lib) (sv := exSv)
    (argsort := argsort) (argmax := argmax) (draws := fun _ _ => 0) hj hloops hv
  obtain ⟨b, hb0, -⟩ := C93_constructed _ 1 hi.1 ⟨hlib, exSv_spec, hsrt, hm, le_refl 3⟩ vals hi.2
  have hcon : ∃ w0, construct (circPhys (parallelSpec false .junctions O ids (fun _ => LoopObj.init 0 0) lib exSv
      argsort argmax (fun _ _ => 0)) eigs as) vals flux u = .ok w0 := by
    unfold construct
    rw [show (circPhys (parallelSpec false .junctions O ids (fun _ => LoopObj.init 0 0) lib exSv
      argsort argmax (fun _ _ => 0)) eigs as).build vals = .ok b from hb0]
    exact ⟨_, rfl⟩
  obtain ⟨w0, hw⟩ := hcon
  have hb : buildCirc _ _ = .ok w0.circ.bd := (construct_build hw).1
  obtain ⟨hk, -, -, hom, -⟩ := oe_facts (fd := .junctions) (torch := false) hj hlib exSv_spec hsrt hm hv hb
  have hok : (setTruncNums (.list [3]) w0).1 = .ok () := (C42_constructed hw [3] hk.symm (by simp)).1
  obtain ⟨hbd, -, hst⟩ := truncOne hok
  have hbd' : (run w0 [.setTruncNums (.list [3])]).circ.bd = w0.circ.bd := hbd
  have hst' : (run w0 [.setTruncNums (.list [3])]).circ.m = dimsOf _ w0.circ.bd [3] := hst
  have hn1 : (circPhys _ eigs as).nModes w0.circ.bd = 1 := hk
  have hnc : (circPhys _ eigs as).isCharge w0.circ.bd 0 = true := by
    show Build.isCharge w0.circ.bd 0 = true
    unfold Build.isCharge
    rw [dif_pos (by omega)]
    simp [hom]
  refine ⟨w0, hw, ⟨fun _ => Or.inl hok, trivial⟩, ?_, ?_⟩
  · rw [hst']
    unfold dimsOf
    rw [hn1]
    simp
  · have h1 := card_dims (run w0 [.setTruncNums (.list [3])]) [3]
    rw [hbd'] at h1
    rw [hst', hbd']
    refine h1.trans ?_
    unfold spaceDim dimsOf
    rw [hbd', hn1]
    simp [hnc]

/-- the hypotheses can be met: transmons 0 and 1, diagonalized with two levels each, coupled by capacitor 4 of value 1. After
the coupling is doubled, the unit changed and transmon 0 diagonalized again, the old system gives what a new one gives; after
transmon 0 is diagonalized with three levels, it raises a `TypeError`. -/
theorem C139_example : ∃ (c : CircId → CircSpec) (eigs : EigsRoutine) (as : List ℂ → List ℕ) (b : Bench c eigs as) (S S' : SysObj),
    let cps : List CoupleObj := [⟨0, 1, 1, 1, 4⟩]
    let h : List (BenchAct CircId) := [.set (.value 4 2), .set (.unitFreq 2), .call 0 (.diag (some (2 : ℕ)))]
    EigsLowest eigs ∧ sysNew twoObjs b cps = .ok S ∧ S.circuits = [0, 1] ∧ S.trunc = [2, 2] ∧
    (∀ i ∈ S.circuits, ChargesFit b i) ∧ (∀ i ∈ S.circuits, (subNow (benchRun b h) i).n = (subNow b i).n) ∧
    sysNew twoObjs (benchRun b h) cps = .ok S' ∧ (∀ i ∈ S.circuits, ChargesFit (benchRun b h) i) ∧
    (sysHamNow twoObjs (benchRun b h) S).map SysOp.any = (sysHamNow twoObjs (benchRun b h) S').map SysOp.any ∧
    sysHamNow twoObjs (benchRun b [.call 0 (.diag (some (3 : ℕ)))]) S = .error .typeError := by
  choose lib hlib using exists_lib
  choose argmax hm using exists_argmax
  obtain ⟨argsort, hsrt⟩ := exists_argsort
  obtain ⟨eigs, he⟩ := exists_eigs_lowest
  obtain ⟨as, ha⟩ := exists_cargsort
  have hi := two_ex_islands
  have hv := two_ex_values
  obtain ⟨e1, e2, -⟩ := two_ex_total
  let sp : CircId → CircSpec := fun c => parallelSpec false .junctions twoObjs (if c = 0 then [0] else [2]) (fun _ => LoopObj.init 0 0)
    lib exSv argsort argmax (fun _ _ => 0)
  have hself : ∀ i, NoSelfLoops (sp i).els := by
    intro i p hp
    simp [sp, parallelSpec, oneEdge] at hp
    subst hp; simp
  obtain ⟨w0, hw0, ho0, hm0, hc0⟩ := transmon_ready hi.first ⟨fun i h => hv.pos i (Or.inl h), by rw [e1]; norm_num⟩
    (fun i h => hi.noLoops i (Or.inl h)) lib hlib argsort hsrt argmax hm eigs as (fun _ => 0) 1
  obtain ⟨w1, hw1, ho1, hm1, hc1⟩ := transmon_ready hi.second ⟨fun i h => hv.pos i (Or.inr (Or.inl h)), by rw [e2]; norm_num⟩
    (fun i h => hi.noLoops i (Or.inr (Or.inl h))) lib hlib argsort hsrt argmax hm eigs as (fun _ => 0) 1
  let b0 : Bench sp eigs as := ⟨fun _ => none, fun _ => LoopObj.init 0 0, twoVals, fun _ => 0, 1⟩
  let st : Method := .setTruncNums (.list [3])
  obtain ⟨bA, hbA⟩ : ∃ bA, bA = benchRun b0 [.build 0, .build 1, .call 0 st, .call 1 st] := ⟨_, rfl⟩
  have v0 : ∀ r : List (BenchAct CircId), BenchAct.build 0 ∉ r → (benchRun bA r).view 0 =
      some (run w0 (.setTruncNums (.list [3]) :: ownActs 0 r)) := by
    intro r hr
    have := (C120_alone b0 0 ([.build 1, .call 0 st, .call 1 st] ++ r) (by simpa using hr)).2 w0 hw0
    have hrun : benchRun b0 (.build 0 :: ([.build 1, .call 0 st, .call 1 st] ++ r)) = benchRun bA r := by
      rw [hbA, ← benchRun_append]
      rfl
    rw [hrun] at this
    rw [this]
    congr 2
  have v1 : bA.view 1 = some (run w1 [.setTruncNums (.list [3])]) := by
    obtain ⟨-, -, x1, x2, x3⟩ := exec_build b0 0
    have := (C120_alone ((BenchAct.build 0).exec b0).2 1 [.call 0 st, .call 1 st] (by simp)).2 w1 (by
      rw [x1, x2, x3]; exact hw1)
    rw [← benchRun_cons, ← hbA] at this
    exact this
  obtain ⟨b1, hb1⟩ : ∃ b1, b1 = ((BenchAct.call 0 (.diag (some ((2 : ℕ) : ℤ)))).exec bA).2 := ⟨_, rfl⟩
  obtain ⟨b2, hb2'⟩ : ∃ b2, b2 = ((BenchAct.call 1 (.diag (some ((2 : ℕ) : ℤ)))).exec b1).2 := ⟨_, rfl⟩
  obtain ⟨f0, l0⟩ := C139_diagonalized he ha (b := bA) (i := 0) (hself 0) hw0 ho0 hm0 (v0 [] (by simp)) 2 (by norm_num)
    (by rw [hc0]; norm_num)
  rw [← hb1] at f0 l0
  have v1' : b1.view 1 = some (run w1 [.setTruncNums (.list [3])]) := by
    rw [hb1]
    exact (exec_foreign bA 1 (.call 0 (.diag (some ((2 : ℕ) : ℤ)))) (by simp [Concerns])).view.trans v1
  obtain ⟨f1, l1⟩ := C139_diagonalized he ha (b := b1) (i := 1) (hself 1) hw1 ho1 hm1 v1' 2 (by norm_num)
    (by rw [hc1]; norm_num)
  obtain ⟨f0', l0'⟩ := C139_kept b1 0 (.call 1 (.diag (some ((2 : ℕ) : ℤ)))) (Or.inr (by simp [Concerns])) f0
  rw [← hb2'] at f0' l0' f1 l1
  have hfit : ∀ i ∈ ([0, 1] : List CircId), ChargesFit b2 i ∧ (subNow b2 i).efreqs.length = 2 := by
    intro i h
    simp at h
    rcases h with rfl | rfl
    · exact ⟨f0', l0'.trans l0⟩
    · exact ⟨f1, l1⟩
  have hcirc : ∀ v, getAllCircuits ([⟨0, 1, 1, 1, 4⟩].map (CoupleObj.now twoObjs v)) = [0, 1] := by
    intro v
    simp [getAllCircuits, CoupleObj.now]
  have hnew : ∀ (b : Bench sp eigs as), (∀ i ∈ ([0, 1] : List CircId), (subNow b i).efreqs.length ≠ 0) →
      sysNew twoObjs b [⟨0, 1, 1, 1, 4⟩] = .ok ⟨[⟨0, 1, 1, 1, 4⟩], [0, 1], sysModes (subNow b) [0, 1],
        [(subNow b 0).efreqs.length, (subNow b 1).efreqs.length]⟩ := by
    intro b hb
    unfold sysNew
    simp only [hcirc]
    rw [(C65_truncations (subNow b) [0, 1]).1 (fun i hi h0 => hb i hi (by rw [h0]; rfl))]
    rfl
  have hS := hnew b2 (fun i hi => by rw [(hfit i hi).2]; norm_num)
  rw [(hfit 0 (by simp)).2, (hfit 1 (by simp)).2] at hS
  -- the later program
  obtain ⟨b3, hb3⟩ : ∃ b3, b3 = benchRun b2 [.set (.value 4 2), .set (.unitFreq 2)] := ⟨_, rfl⟩
  have hstate : ∀ (h : List Act), (∀ a ∈ h, (∃ k, a = .diag k) ∨ (∃ x v, a = .setValue x v) ∨ ∃ u, a = .setUnitFreq u) →
      ∀ w : World (circPhys (sp 0) eigs as), Orderly w h ∧ (run w h).circ.bd = w.circ.bd ∧ (run w h).circ.m = w.circ.m := by
    intro h
    induction h with
    | nil => exact fun _ w => ⟨trivial, rfl, rfl⟩
    | cons a h ih =>
      intro hh w
      obtain ⟨i1, i2, i3⟩ := ih (fun x hx => hh x (by simp [hx])) (a.exec w).2
      rcases hh a (by simp) with ⟨k, rfl⟩ | ⟨x, v, rfl⟩ | ⟨x, rfl⟩
      · obtain ⟨d1, d2, -⟩ := diag_keeps_modes k w
        exact ⟨⟨fun hx => by simp [modifies] at hx, i1⟩, i2.trans d1, i3.trans d2⟩
      · exact ⟨⟨fun hx => by simp [modifies] at hx, i1⟩, i2, i3⟩
      · exact ⟨⟨fun hx => by simp [modifies] at hx, i1⟩, i2, i3⟩
  have hdiag : ∀ (b : Bench sp eigs as) (h : List Act),
      (∀ a ∈ h, (∃ k, a = .diag k) ∨ (∃ x v, a = .setValue x v) ∨ ∃ u, a = .setUnitFreq u) →
      b.view 0 = some (run w0 (.setTruncNums (.list [3]) :: h)) → ∀ num : ℕ, 1 ≤ num → num ≤ 3 →
      ChargesFit ((BenchAct.call 0 (.diag (some (num : ℤ)))).exec b).2 0 ∧
        (subNow ((BenchAct.call 0 (.diag (some (num : ℤ)))).exec b).2 0).efreqs.length = num := by
    intro b h hh hvb num h1 h2
    obtain ⟨s1, s2, s3⟩ := hstate h hh (run w0 [.setTruncNums (.list [3])])
    have hcard : ∀ (bd' : Build) (m' : List ℤ), bd' = (run w0 [.setTruncNums (.list [3])]).circ.bd →
        m' = (run w0 [.setTruncNums (.list [3])]).circ.m → Fintype.card (Idx (bd'.dims m')) = 5 := by
      rintro _ _ rfl rfl
      exact hc0
    refine C139_diagonalized he ha (b := b) (i := 0) (hself 0) hw0 (h := .setTruncNums (.list [3]) :: h) ⟨ho0.1, s1⟩ ?_ hvb num h1 ?_
    · show (run (run w0 [.setTruncNums (.list [3])]) h).circ.m ≠ []
      rw [s3]; exact hm0
    · have := hcard (run (run w0 [.setTruncNums (.list [3])]) h).circ.bd (run (run w0 [.setTruncNums (.list [3])]) h).circ.m s2 s3
      refine lt_of_lt_of_eq (by omega : num + 1 < 5) this.symm
  have hb2 : ∀ r, benchRun b2 r = benchRun bA (.call 0 (.diag (some ((2 : ℕ) : ℤ))) :: .call 1 (.diag (some ((2 : ℕ) : ℤ))) :: r) :=
    fun r => by rw [benchRun_cons, benchRun_cons, ← hb1, ← hb2']
  have v3 : b3.view 0 = some (run w0 (.setTruncNums (.list [3]) :: [.diag (some ((2 : ℕ) : ℤ)), .setValue 4 2, .setUnitFreq 2])) := by
    have := v0 (.call 0 (.diag (some ((2 : ℕ) : ℤ))) :: .call 1 (.diag (some ((2 : ℕ) : ℤ))) :: [.set (.value 4 2), .set (.unitFreq 2)]) (by simp)
    rw [← hb2, ← hb3] at this
    exact this
  have v2 : b2.view 0 = some (run w0 (.setTruncNums (.list [3]) :: [.diag (some ((2 : ℕ) : ℤ))])) :=
    by
    have := v0 (.call 0 (.diag (some ((2 : ℕ) : ℤ))) :: .call 1 (.diag (some ((2 : ℕ) : ℤ))) :: []) (by simp)
    rw [← hb2, benchRun_nil] at this
    exact this
  obtain ⟨g0, k0⟩ := hdiag b3 [.diag (some ((2 : ℕ) : ℤ)), .setValue 4 2, .setUnitFreq 2] (by
    intro a h
    simp at h
    rcases h with rfl | rfl | rfl
    · exact Or.inl ⟨_, rfl⟩
    · exact Or.inr (Or.inl ⟨_, _, rfl⟩)
    · exact Or.inr (Or.inr ⟨_, rfl⟩)) v3 2 (by norm_num) (by norm_num)
  obtain ⟨-, k0'⟩ := hdiag b2 [.diag (some ((2 : ℕ) : ℤ))] (by
    intro a h
    simp at h
    subst h
    exact Or.inl ⟨_, rfl⟩) v2 3 (by norm_num) (by norm_num)
  -- circuit 1 is not concerned
  obtain ⟨t1, t2⟩ := C139_kept b2 1 (.set (.value 4 2)) (Or.inl ⟨_, rfl⟩) f1
  obtain ⟨t3, t4⟩ := C139_kept _ 1 (.set (.unitFreq 2)) (Or.inl ⟨_, rfl⟩) t1
  have hb3' : ((BenchAct.set (.unitFreq 2)).exec ((BenchAct.set (.value 4 2)).exec b2).2).2 = b3 := by
    rw [hb3, benchRun_cons, benchRun_cons, benchRun_nil]
  rw [hb3'] at t3 t4
  have hlast : benchRun b2 [.set (.value 4 2), .set (.unitFreq 2), .call 0 (.diag (some ((2 : ℕ) : ℤ)))] =
      ((BenchAct.call 0 (.diag (some ((2 : ℕ) : ℤ)))).exec b3).2 := by
    rw [benchRun_cons, benchRun_cons, benchRun_cons, benchRun_nil, hb3']
  have hlast' : benchRun b2 [.call 0 (.diag (some ((3 : ℕ) : ℤ)))] = ((BenchAct.call 0 (.diag (some ((3 : ℕ) : ℤ)))).exec b2).2 := by
    rw [benchRun_cons, benchRun_nil]
  obtain ⟨g1, k1⟩ := C139_kept b3 1 (.call 0 (.diag (some ((2 : ℕ) : ℤ)))) (Or.inr (by simp [Concerns])) t3
  have k1' : (subNow ((BenchAct.call 0 (.diag (some ((2 : ℕ) : ℤ)))).exec b3).2 1).efreqs.length = 2 := k1.trans (t4.trans (t2.trans l1))
  have k2 : (subNow ((BenchAct.call 0 (.diag (some ((3 : ℕ) : ℤ)))).exec b2).2 1).efreqs.length = 2 :=
    (C139_kept b2 1 (.call 0 (.diag (some ((3 : ℕ) : ℤ)))) (Or.inr (by simp [Concerns])) f1).2.trans l1
  have hS3 := hnew ((BenchAct.call 0 (.diag (some ((2 : ℕ) : ℤ)))).exec b3).2 (fun i hi => by
    simp at hi
    rcases hi with rfl | rfl
    · rw [k0]; norm_num
    · rw [k1']; norm_num)
  have hS4 := hnew ((BenchAct.call 0 (.diag (some ((3 : ℕ) : ℤ)))).exec b2).2 (fun i hi => by
    simp at hi
    rcases hi with rfl | rfl
    · rw [k0']; norm_num
    · rw [k2]; norm_num)
  rw [← hlast] at hS3 g0 k0 g1 k1'
  rw [← hlast'] at hS4 k0' k2
  have hn : ∀ i ∈ ([0, 1] : List CircId), (subNow (benchRun b2 [.set (.value 4 2), .set (.unitFreq 2), .call 0 (.diag (some ((2 : ℕ) : ℤ)))]) i).n
      = (subNow b2 i).n := fun i _ => C139_modes b2 i _ (by simp) (by simp)
  have hn' : ∀ i ∈ ([0, 1] : List CircId), (subNow (benchRun b2 [.call 0 (.diag (some ((3 : ℕ) : ℤ)))]) i).n
      = (subNow b2 i).n := fun i _ => C139_modes b2 i _ (by simp) (by simp)
  refine ⟨sp, eigs, as, b2, _, _, he, hS, rfl, rfl, fun i hi => (hfit i hi).1, hn, hS3, ?_, ?_, ?_⟩
  · intro i hi
    simp at hi
    rcases hi with rfl | rfl
    · exact g0
    · exact g1
  · refine (C139_follows twoObjs b2 _ _ hS [.set (.value 4 2), .set (.unitFreq 2), .call 0 (.diag (some ((2 : ℕ) : ℤ)))] hn _ hS3).1
      (Or.inl ?_)
    intro i hi
    rw [(hfit i hi).2]
    simp at hi
    rcases hi with rfl | rfl
    · exact k0
    · exact k1'
  · refine (C139_follows twoObjs b2 _ _ hS [.call 0 (.diag (some ((3 : ℕ) : ℤ)))] hn' _ hS4).2 ⟨0, by simp, ?_⟩ (by simp)
    rw [(hfit 0 (by simp)).2]
    intro h
    exact absurd (k0'.symm.trans h) (by norm_num)

end SQ
