import Verif.Props.Fluxonium

/-! # C81: the inputs of a circuit are the last ones set -/

namespace SQ
open SQ.Spec Real

variable {P : Phys}

/-- what a call does to the inputs: values, fluxes, unit -/
theorem exec_inputs (a : Act) (w : World P) :
    (∀ l, (∀ v, a ≠ .setFlux l v) → (a.exec w).2.flux l = w.flux l) ∧
    (∀ i, (∀ v, a ≠ .setValue i v) → (a.exec w).2.vals i = w.vals i) ∧
    ((∀ u, a ≠ .setUnitFreq u) → (a.exec w).2.unitFreq = w.unitFreq) ∧
    (∀ i : ℕ, (∀ v, a ≠ .setChargeOffset (some (i + 1)) v) → (a.exec w).2.circ.islands i = w.circ.islands i) := by
  have same : ∀ w' : World P, (a.exec w).2 = w' → w'.flux = w.flux → w'.vals = w.vals → w'.unitFreq = w.unitFreq →
      w'.circ.islands = w.circ.islands →
      (∀ l, (∀ v, a ≠ .setFlux l v) → (a.exec w).2.flux l = w.flux l) ∧
      (∀ i, (∀ v, a ≠ .setValue i v) → (a.exec w).2.vals i = w.vals i) ∧
      ((∀ u, a ≠ .setUnitFreq u) → (a.exec w).2.unitFreq = w.unitFreq) ∧
      (∀ i : ℕ, (∀ v, a ≠ .setChargeOffset (some (i + 1)) v) → (a.exec w).2.circ.islands i = w.circ.islands i) := by
    intro w' h h1 h2 h3 h4
    rw [h, h1, h2, h3, h4]
    exact ⟨fun _ _ => rfl, fun _ _ => rfl, fun _ => rfl, fun _ _ => rfl⟩
  have strunc : ∀ x, (setTruncNums x w).2.flux = w.flux ∧ (setTruncNums x w).2.vals = w.vals ∧
      (setTruncNums x w).2.unitFreq = w.unitFreq ∧ (setTruncNums x w).2.circ.islands = w.circ.islands := by
    intro x
    rcases setTruncNums_cases x w with ⟨h, -⟩ | ⟨nums, -, -, ⟨e, -, h⟩ | ⟨mem, -, -, h⟩⟩ <;>
      (rw [h]; exact ⟨rfl, rfl, rfl, rfl⟩)
  cases a with
  | setTruncNums x =>
    obtain ⟨h1, h2, h3, h4⟩ := strunc x
    exact same _ rfl h1 h2 h3 h4
  | truncateCircuit K =>
    rcases truncateCircuit_state K w with h | ⟨l, h⟩
    · exact same w h rfl rfl rfl rfl
    · obtain ⟨h1, h2, h3, h4⟩ := strunc (.list l)
      exact same _ h h1 h2 h3 h4
  | setChargeNoise mode amp =>
    refine same w ?_ rfl rfl rfl rfl
    simp only [Act.exec, setChargeNoise]
    split <;> rfl
  | hamiltonian =>
    rcases hamiltonian_frame w with h | ⟨t, h⟩
    · exact same _ h rfl rfl rfl rfl
    · exact same _ h rfl rfl rfl rfl
  | diag k =>
    obtain ⟨t, f, v, h⟩ := diag_frame k w
    exact same _ h rfl rfl rfl rfl
  | update =>
    rcases update_cases w with ⟨e, h⟩ | ⟨bd, -, ⟨e, h⟩ | ⟨mem, -, h⟩⟩
    · exact same w (congrArg Prod.snd h) rfl rfl rfl rfl
    · exact same _ (congrArg Prod.snd h) rfl rfl rfl rfl
    · exact same _ (congrArg Prod.snd h) rfl rfl rfl rfl
  | setUnitFreq u =>
    refine ⟨fun _ _ => rfl, fun _ _ => rfl, fun h => absurd rfl (h u), fun _ _ => rfl⟩
  | setFlux l v =>
    refine ⟨fun l' h => ?_, fun _ _ => rfl, fun _ => rfl, fun _ _ => rfl⟩
    have : l' ≠ l := by rintro rfl; exact h v rfl
    simp [Act.exec, this]
  | setValue i v =>
    refine ⟨fun _ _ => rfl, fun i' h => ?_, fun _ => rfl, fun _ _ => rfl⟩
    have : i' ≠ i := by rintro rfl; exact h v rfl
    simp [Act.exec, this]
  | setChargeOffset mode ng =>
    have key : (∀ i : ℕ, (∀ v, Act.setChargeOffset mode ng ≠ .setChargeOffset (some (i + 1)) v) →
        (setChargeOffset mode ng w).2.circ.islands i = w.circ.islands i) ∧
        (setChargeOffset mode ng w).2.flux = w.flux ∧ (setChargeOffset mode ng w).2.vals = w.vals ∧
        (setChargeOffset mode ng w).2.unitFreq = w.unitFreq := by
      unfold setChargeOffset
      cases hi : islandOf w.circ mode with
      | none => exact ⟨fun _ _ => rfl, rfl, rfl, rfl⟩
      | some p =>
        obtain ⟨j, o⟩ := p
        have hj : ∀ i : ℕ, (∀ v, Act.setChargeOffset mode ng ≠ .setChargeOffset (some (i + 1)) v) → i ≠ j := by
          intro i h
          rintro rfl
          unfold islandOf at hi
          cases mode with
          | none => cases hi
          | some m =>
            simp only at hi
            split at hi
            · cases hi
            · rename_i hneg
              rw [Option.map_eq_some_iff] at hi
              obtain ⟨o', -, h2⟩ := hi
              have h3 := congrArg Prod.fst h2
              simp only at h3
              refine h ng ?_
              have : m = (i : ℤ) + 1 := by omega
              rw [this]
        simp only
        split
        · exact ⟨fun i h => by simp [Circ.setIsland, hj i h], rfl, rfl, rfl⟩
        · split
          · exact ⟨fun i h => by simp [Circ.setIsland, hj i h], rfl, rfl, rfl⟩
          · exact ⟨fun i h => by simp [Circ.setIsland, hj i h], rfl, rfl, rfl⟩
    refine ⟨fun l _ => ?_, fun i _ => ?_, fun _ => key.2.2.2, key.1⟩
    · exact congrFun key.2.1 l
    · exact congrFun key.2.2.1 i

theorem run_append (w : World P) (h1 h2 : List Act) : run w (h1 ++ h2) = run (run w h1) h2 := by
  simp [run, List.foldl_append]

/-- C81, fluxes: after any history the stored flux of a loop is 2π times the last value passed to `set_flux`
for that loop, whatever else was called before, between and after; without such a call it is unchanged. -/
theorem C81_flux (w : World P) (l : LoopId) :
    (∀ (h1 h2 : List Act) (v : ℝ), (∀ v', .setFlux l v' ∉ h2) →
      (run w (h1 ++ .setFlux l v :: h2)).flux l = 2 * π * v) ∧
    (∀ h : List Act, (∀ v', .setFlux l v' ∉ h) → (run w h).flux l = w.flux l) := by
  have keep : ∀ (h : List Act) (w : World P), (∀ v', .setFlux l v' ∉ h) → (run w h).flux l = w.flux l := by
    intro h
    induction h with
    | nil => intro w _; rfl
    | cons a t ih =>
      intro w hh
      have h1 := ih (a.exec w).2 (fun v' hm => hh v' (List.mem_cons_of_mem _ hm))
      have h2 := (exec_inputs a w).1 l (by rintro v rfl; exact hh v List.mem_cons_self)
      exact h1.trans h2
  refine ⟨fun h1 h2 v hh => ?_, fun h => keep h w⟩
  rw [run_append]
  refine (keep h2 _ hh).trans ?_
  simp only [Act.exec, Function.update_self]
  ring

/-- C81, element values: the value of an element is the last one set. -/
theorem C81_value (w : World P) (i : ElemId) :
    (∀ (h1 h2 : List Act) (v : ℝ), (∀ v', .setValue i v' ∉ h2) →
      (run w (h1 ++ .setValue i v :: h2)).vals i = v) ∧
    (∀ h : List Act, (∀ v', .setValue i v' ∉ h) → (run w h).vals i = w.vals i) := by
  have keep : ∀ (h : List Act) (w : World P), (∀ v', .setValue i v' ∉ h) → (run w h).vals i = w.vals i := by
    intro h
    induction h with
    | nil => intro w _; rfl
    | cons a t ih =>
      intro w hh
      have h1 := ih (a.exec w).2 (fun v' hm => hh v' (List.mem_cons_of_mem _ hm))
      have h2 := (exec_inputs a w).2.1 i (by rintro v rfl; exact hh v List.mem_cons_self)
      exact h1.trans h2
  refine ⟨fun h1 h2 v hh => ?_, fun h => keep h w⟩
  rw [run_append]
  refine (keep h2 _ hh).trans ?_
  simp only [Act.exec, Function.update_self]

/-- C81, charge offsets: if mode `i + 1` of the circuit has a charge island then, after any history, its offset is
the last one passed to `set_charge_offset` for that mode (even if that call raised an exception when rebuilding the
operators) and its noise amplitude is unchanged; without such a call the island is unchanged. -/
theorem C81_charge (w : World P) (i : ℕ) (o : ChargeObj) (ho : w.circ.islands i = some o) :
    (∀ (h1 h2 : List Act) (v : ℝ), (∀ v', .setChargeOffset (some (i + 1)) v' ∉ h2) →
      (run w (h1 ++ .setChargeOffset (some (i + 1)) v :: h2)).circ.islands i = some ⟨v, o.A⟩) ∧
    (∀ h : List Act, (∀ v', .setChargeOffset (some (i + 1)) v' ∉ h) → (run w h).circ.islands i = some o) := by
  have keep : ∀ (h : List Act) (w : World P), (∀ v', .setChargeOffset (some (i + 1)) v' ∉ h) →
      (run w h).circ.islands i = w.circ.islands i := by
    intro h
    induction h with
    | nil => intro w _; rfl
    | cons a t ih =>
      intro w hh
      have h1 := ih (a.exec w).2 (fun v' hm => hh v' (List.mem_cons_of_mem _ hm))
      have h2 := (exec_inputs a w).2.2.2 i (by rintro v rfl; exact hh v List.mem_cons_self)
      exact h1.trans h2
  have set : ∀ (w : World P) (v : ℝ) (o : ChargeObj), w.circ.islands i = some o →
      (setChargeOffset (some ((i : ℤ) + 1)) v w).2.circ.islands i = some ⟨v, o.A⟩ := by
    intro w v o ho
    have hi : islandOf w.circ (some ((i : ℤ) + 1)) = some (i, o) := by
      unfold islandOf
      simp [ho]
    unfold setChargeOffset
    rw [hi]
    simp only
    split
    · simp [Circ.setIsland, ChargeObj.setOffset]
    · split <;> simp [Circ.setIsland, ChargeObj.setOffset]
  have amp : ∀ (h : List Act) (w : World P) (o : ChargeObj), w.circ.islands i = some o →
      ∃ v, (run w h).circ.islands i = some ⟨v, o.A⟩ := by
    intro h
    induction h with
    | nil => intro w o ho; exact ⟨o.chValue, ho⟩
    | cons a t ih =>
      intro w o ho
      by_cases ha : ∃ v, a = .setChargeOffset (some ((i : ℤ) + 1)) v
      · obtain ⟨v, rfl⟩ := ha
        exact ih (setChargeOffset (some ((i : ℤ) + 1)) v w).2 ⟨v, o.A⟩ (set w v o ho)
      · push Not at ha
        refine ih (a.exec w).2 o ?_
        rw [(exec_inputs a w).2.2.2 i ha, ho]
  refine ⟨fun h1 h2 v hh => ?_, fun h hh => (keep h w hh).trans ho⟩
  rw [run_append]
  obtain ⟨v0, h0⟩ := amp h1 w o ho
  exact (keep h2 _ hh).trans (set _ v ⟨v0, o.A⟩ h0)

/-- C81 and C80 together: in a session of a fluxonium whose flux was last set to `f` (flux quanta), the external
phase of the Hamiltonian is `2π f`. -/
theorem C81_fluxonium (torch : Bool) (h : LoopId → LoopObj) (lib : ∀ n, NumLib n)
    (hlib : ∀ n, ∀ C L : Matrix (Fin n) (Fin n) ℝ, C.PosDef → L.PosSemidef → LibSpec (lib n) C L)
    (sv : SvdFn) (hsv : SvdSpec sv) (argsort : ArgsortFn) (argmax : ∀ k, ArgmaxFn k)
    (hm : ∀ k, ArgmaxSpec (argmax k)) (draws : Draws) (eigs as) (vals : ElemId → ℝ)
    (hv : FluxoniumValues vals) (flux : LoopId → ℝ) (u : ℝ) :
    ∃ w0, construct (circPhys (fluxoniumSpec torch h lib sv argsort argmax draws) eigs as) vals flux u = .ok w0 ∧
      ∀ (h1 h2 : List Act) (f : ℝ), (∀ f', .setFlux 0 f' ∉ h2) → (∀ i v, i ≠ 2 → .setValue i v ∉ h1 ++ h2) →
        Orderly w0 (h1 ++ .setFlux 0 f :: h2) → (run w0 (h1 ++ .setFlux 0 f :: h2)).circ.m ≠ [] →
        ∃ (k : ℕ) (d : Fin k → ℕ) (s : ℝ), k = 1 ∧
          (∀ i, d i = ((run w0 (h1 ++ .setFlux 0 f :: h2)).circ.m.getD i 0).toNat) ∧ (s = 1 ∨ s = -1) ∧ ∀ i : Fin k,
          (hamiltonian (run w0 (h1 ++ .setFlux 0 f :: h2))).1 = .ok ⟨k, d,
            fluxoniumHamiltonian d i (vals 0) (vals 1 + vals 3) ((run w0 (h1 ++ .setFlux 0 f :: h2)).vals 2) s
              (-(2 * π * f))⟩ := by
  obtain ⟨w0, hw, hall⟩ := C80_session torch h lib hlib sv hsv argsort argmax hm draws eigs as vals hv flux u
  refine ⟨w0, hw, ?_⟩
  intro h1 h2 f hf hval hord hne
  have hw0 : w0.vals = vals := by
    unfold construct at hw
    split at hw
    · cases hw
    · injection hw with hw
      rw [← hw]
  have vkeep : ∀ p q : List Act, h1 ++ .setFlux 0 f :: h2 = p ++ q → ∀ i, i ≠ 2 → (run w0 p).vals i = vals i := by
    intro p q hpq i hi
    rw [(C81_value w0 i).2 p, hw0]
    intro v' hmem
    have : Act.setValue i v' ∈ h1 ++ .setFlux 0 f :: h2 := by
      rw [hpq]; exact List.mem_append_left _ hmem
    rw [List.mem_append, List.mem_cons] at this
    have h3 := hval i v' hi
    rw [List.mem_append] at h3
    rcases this with h' | h' | h'
    · exact h3 (Or.inl h')
    · cases h'
    · exact h3 (Or.inr h')
  have good : ∀ p q : List Act, h1 ++ .setFlux 0 f :: h2 = p ++ q → FluxoniumValues (run w0 p).vals := by
    intro p q hpq
    unfold FluxoniumValues
    rw [vkeep p q hpq 0 (by decide), vkeep p q hpq 1 (by decide), vkeep p q hpq 3 (by decide)]
    exact hv
  have hlast : ∀ (q p : List Act), h1 ++ .setFlux 0 f :: h2 = p ++ q → ∀ v : ElemId → ℝ,
      (∀ i, i ≠ 2 → v i = vals i) → ∀ i, i ≠ 2 → lastBuilt v (run w0 p) q i = vals i := by
    intro q
    induction q with
    | nil => intro p _ v hv' i hi; exact hv' i hi
    | cons a t ih =>
      intro p hpq v hv' i hi
      have hp1 : h1 ++ .setFlux 0 f :: h2 = (p ++ [a]) ++ t := by rw [hpq]; simp
      have hr : run w0 (p ++ [a]) = (a.exec (run w0 p)).2 := by rw [run_append]; rfl
      have hrec := fun v hv' => ih (p ++ [a]) hp1 v hv' i hi
      rw [hr] at hrec
      cases a
      case update =>
        simp only [lastBuilt]
        cases hx : (Act.update.exec (run w0 p)).1 with
        | ok _ => exact hrec _ (fun i hi => vkeep p _ hpq i hi)
        | error _ => exact hrec v hv'
      all_goals exact hrec v hv'
  have hres := hall (h1 ++ .setFlux 0 f :: h2) hord (fun p q hpq => good p _ hpq)
    (fun i hi => by
      rw [vkeep _ [] (List.append_nil _).symm i hi]
      exact (hlast _ [] rfl vals (fun _ _ => rfl) i hi).symm)
    (good _ [] (List.append_nil _).symm) hne
  obtain ⟨k, d, s, hk, hdm, hs, hH⟩ := hres
  refine ⟨k, d, s, hk, hdm, hs, fun i => ?_⟩
  have e := hH i
  rw [(C81_flux w0 0).1 h1 h2 f hf, vkeep _ [] (List.append_nil _).symm 0 (by decide),
    vkeep _ [] (List.append_nil _).symm 1 (by decide), vkeep _ [] (List.append_nil _).symm 3 (by decide)] at e
  exact e

/-- On a freshly constructed circuit `set_trunc_nums` succeeds for every list of positive numbers, one per mode. -/
theorem C42_constructed {c : CircSpec} {eigs as} {vals : ElemId → ℝ} {flux : LoopId → ℝ} {u : ℝ}
    {w0 : World (circPhys c eigs as)} (hw : construct (circPhys c eigs as) vals flux u = .ok w0) (nums : List ℤ)
    (hl : nums.length = w0.circ.bd.k) (hp : ∀ x ∈ nums, 1 ≤ x) :
    (setTruncNums (.list nums) w0).1 = .ok () ∧
      (setTruncNums (.list nums) w0).2.circ.m.length = nums.length := by
  have hisl : ∀ i, w0.circ.bd.isCharge i = true → w0.circ.ng i ≠ none := by
    intro i hi
    unfold construct at hw
    split at hw
    · cases hw
    · rename_i bd hbd
      injection hw with hw
      subst hw
      have hi' : bd.isCharge i = true := hi
      have hlt : i < bd.k := by
        unfold Build.isCharge at hi'
        split at hi'
        · assumption
        · cases hi'
      have h1 : (circPhys c eigs as).isCharge bd i = true := hi'
      have h2 : i < (circPhys c eigs as).nModes bd := hlt
      simp [Circ.ng, h1, h2]
  have hnum : ∀ i, i < w0.circ.bd.k → 1 ≤ nums.getD i 0 := by
    intro i hi
    have hi' : i < nums.length := by omega
    have : nums.getD i 0 = nums[i] := by simp [List.getD, hi']
    rw [this]
    exact hp _ (List.getElem_mem _)
  have hd : ∀ i, i < w0.circ.bd.k → ¬ (dimsOf (circPhys c eigs as) w0.circ.bd nums).getD i 0 < 1 := by
    intro i hi
    have h1 := hnum i hi
    have hlen : i < (dimsOf (circPhys c eigs as) w0.circ.bd nums).length := by rw [dimsOf_length]; exact hi
    have e : (dimsOf (circPhys c eigs as) w0.circ.bd nums).getD i 0 =
        (dimsOf (circPhys c eigs as) w0.circ.bd nums)[i] := by simp [List.getD, hlen]
    rw [e]
    simp only [dimsOf, List.getElem_map, List.getElem_range]
    split <;> omega
  have hdl := dimsOf_length (P := circPhys c eigs as) w0.circ.bd nums
  have hm : ∃ mem, (circPhys c eigs as).memOps w0.circ.bd (dimsOf (circPhys c eigs as) w0.circ.bd nums) w0.circ.ng =
      .ok mem := by
    change ∃ mem, Build.memOps w0.circ.bd (dimsOf (circPhys c eigs as) w0.circ.bd nums) w0.circ.ng = .ok mem
    unfold Build.memOps
    rw [if_neg, if_neg, if_neg]
    · exact ⟨_, rfl⟩
    · rintro ⟨i, h1, h2⟩; exact hisl i h1 h2
    · rintro ⟨i, h1, h2⟩; exact hd i h1 h2
    · rw [hdl]; exact lt_irrefl _
  obtain ⟨mem, hmem⟩ := hm
  have h := setTruncNums_ok (w := w0) (nums := nums) hl hmem
  rw [h]
  exact ⟨rfl, hdl.trans hl.symm⟩

/-- A session meeting the hypotheses of `C81_fluxonium`: truncate at 10 levels, then half a flux quantum. -/
example (eigs as) : ∃ (lib : ∀ n, NumLib n) (sv : SvdFn) (argsort : ArgsortFn) (argmax : ∀ k, ArgmaxFn k) (w0 : _)
    (k : ℕ) (d : Fin k → ℕ) (s : ℝ),
    construct (circPhys (fluxoniumSpec false (fun _ => LoopObj.init 0 0) lib sv argsort argmax (fun _ _ => 0))
      eigs as) (fun i => if i = 0 then 2 else if i = 2 then 5 else 1) (fun _ => 0) 1 = .ok w0 ∧ k = 1 ∧
    ∀ i : Fin k, (hamiltonian (run w0 [.setTruncNums (.list [10]), .setFlux 0 (1 / 2)])).1 =
      .ok ⟨k, d, fluxoniumHamiltonian d i 2 2 5 s (-(2 * π * (1 / 2)))⟩ := by
  choose lib hlib using exists_lib
  choose argmax hm using exists_argmax
  obtain ⟨argsort, -⟩ := exists_argsort
  obtain ⟨b, hb, hk, -⟩ := C80_fluxonium false (fun _ => LoopObj.init 0 0) lib hlib exSv exSv_spec argsort argmax hm
    (fun _ _ => 0) (fun i => if i = 0 then 2 else if i = 2 then 5 else 1) fx_example_values.1 fx_example_values.2.1
    fx_example_values.2.2.1 fx_example_values.2.2.2
  obtain ⟨w0, hw, hall⟩ := C81_fluxonium false (fun _ => LoopObj.init 0 0) lib hlib exSv exSv_spec argsort argmax hm
    (fun _ _ => 0) eigs as _ fx_example_values (fun _ => 0) 1
  have hbb : w0.circ.bd = b := by
    have h0 : buildCirc _ _ = .ok w0.circ.bd := (construct_build hw).1
    rw [hb] at h0
    exact (Except.ok.inj h0).symm
  have ht := C42_constructed hw [10] (by rw [hbb]; exact hk.symm) (by simp)
  have hv2 : (run w0 ([.setTruncNums (.list [10])] ++ .setFlux 0 (1 / 2) :: [])).vals 2 = 5 := by
    rw [(C81_value w0 2).2 _ (by simp)]
    unfold construct at hw
    split at hw
    · cases hw
    · injection hw with hw
      rw [← hw]
      norm_num
  obtain ⟨k, d, s, h1, -, -, h2⟩ := hall [.setTruncNums (.list [10])] [] (1 / 2) (by simp) (by simp)
    ⟨fun _ => .inl ht.1, fun h => by simp [modifies] at h, trivial⟩ (by
      have : (run w0 ([.setTruncNums (.list [10])] ++ .setFlux 0 (1 / 2) :: [])).circ.m.length = 1 := ht.2
      intro h0
      rw [h0] at this
      simp at this)
  refine ⟨lib, exSv, argsort, argmax, w0, k, d, s, hw, h1, fun i => ?_⟩
  have h3 := h2 i
  rw [hv2] at h3
  norm_num at h3 ⊢
  exact h3

end SQ
