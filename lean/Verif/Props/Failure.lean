import Verif.Spec.Failure
import Verif.Props.Listing
import Verif.Props.Inputs
import Verif.Props.Reground

/-!
# C123: a call that raises leaves the circuit as it was
-/

namespace SQ
open Matrix Spec

variable {c : CircSpec} {eigs : EigsFn} {as : List ℂ → List ℕ}

/-- operators can be built: every charge mode has an island and the dimensions, once set, are positive -/
def OpsInv (w : World (circPhys c eigs as)) : Prop :=
  (∀ i, Build.isCharge w.circ.bd i = true → w.circ.islands i ≠ none) ∧
  (w.circ.m = [] ∨ (Build.k w.circ.bd ≤ w.circ.m.length ∧ ∀ i, i < Build.k w.circ.bd → 1 ≤ w.circ.m.getD i 0))

theorem memOps_good {b : Build} {m : List ℤ} {ng : ℕ → Option ℝ} (h1 : b.k ≤ m.length) (h2 : ∀ i, i < b.k → 1 ≤ m.getD i 0)
    (h3 : ∀ i, b.isCharge i = true → ng i ≠ none) : ∃ mem, Build.memOps b m ng = .ok mem := by
  unfold Build.memOps
  rw [if_neg, if_neg, if_neg]
  · exact ⟨_, rfl⟩
  · rintro ⟨i, h, h'⟩; exact h3 i h h'
  · rintro ⟨i, h, h'⟩
    have := h2 i h
    omega
  · exact not_lt.2 h1

theorem memOps_inv {b : Build} {m : List ℤ} {ng : ℕ → Option ℝ} {mem} (h : Build.memOps b m ng = .ok mem) :
    b.k ≤ m.length ∧ (∀ i, i < b.k → 1 ≤ m.getD i 0) ∧ ∀ i, b.isCharge i = true → ng i ≠ none := by
  unfold Build.memOps at h
  split_ifs at h with h1 h2 h3
  refine ⟨not_lt.1 h1, fun i hi => ?_, fun i hi hn => h3 ⟨i, hi, hn⟩⟩
  by_contra hc
  exact h2 ⟨i, hi, by omega⟩

theorem ng_of_islands {P : Phys} {cc : Circ P} {i : ℕ} (h : cc.islands i ≠ none) : cc.ng i ≠ none := by
  unfold Circ.ng
  simpa using h

theorem islands_of_ng {P : Phys} {cc : Circ P} {i : ℕ} (h : cc.ng i ≠ none) : cc.islands i ≠ none := by
  unfold Circ.ng at h
  simpa using h

theorem construct_inv {vals : ElemId → ℝ} {flux : LoopId → ℝ} {u : ℝ} {w0 : World (circPhys c eigs as)}
    (hw : construct (circPhys c eigs as) vals flux u = .ok w0) : OpsInv w0 ∧ w0.circ.m = [] := by
  unfold construct at hw
  split at hw
  · cases hw
  · rename_i bd hbd
    injection hw with hw
    subst hw
    refine ⟨⟨?_, Or.inl rfl⟩, rfl⟩
    intro i hi
    have hi' : bd.isCharge i = true := hi
    have hlt : i < bd.k := by
      unfold Build.isCharge at hi'
      split at hi'
      · assumption
      · cases hi'
    have h1 : (circPhys c eigs as).isCharge bd i = true := hi'
    have h2 : i < (circPhys c eigs as).nModes bd := hlt
    simp [h1, h2]

theorem dimsOf_pos {b : Build} {nums : List ℤ} (hl : nums.length = b.k) (hp : ∀ x ∈ nums, 1 ≤ x) :
    b.k ≤ (dimsOf (circPhys c eigs as) b nums).length ∧
    ∀ i, i < b.k → 1 ≤ (dimsOf (circPhys c eigs as) b nums).getD i 0 := by
  have hlen := dimsOf_length (P := circPhys c eigs as) b nums
  refine ⟨hlen.ge, fun i hi => ?_⟩
  have hi' : i < nums.length := by omega
  have h1 : 1 ≤ nums.getD i 0 := by
    have : nums.getD i 0 = nums[i] := by simp [List.getD, hi']
    rw [this]
    exact hp _ (List.getElem_mem _)
  have hlen' : i < (dimsOf (circPhys c eigs as) b nums).length := by rw [hlen]; exact hi
  have e : (dimsOf (circPhys c eigs as) b nums).getD i 0 = (dimsOf (circPhys c eigs as) b nums)[i] := by
    simp [List.getD, hlen']
  rw [e]
  simp only [dimsOf, List.getElem_map, List.getElem_range]
  split <;> omega

/-- `set_trunc_nums` with positive numbers -/
theorem trunc_good {w : World (circPhys c eigs as)} (hi : OpsInv w) (a : NumsArg)
    (hp : ∀ nums, a = .list nums → ∀ x ∈ nums, 1 ≤ x) :
    (setTruncNums a w = (.error .valueError, w)) ∨ ((setTruncNums a w).1 = .ok () ∧ OpsInv (setTruncNums a w).2) := by
  cases a with
  | other => exact Or.inl rfl
  | list nums =>
    by_cases hl : nums.length = Build.k w.circ.bd
    · right
      obtain ⟨h1, h2⟩ := dimsOf_pos (c := c) (eigs := eigs) (as := as) hl (hp nums rfl)
      obtain ⟨mem, hmem⟩ := memOps_good h1 h2 (fun i hh => ng_of_islands (hi.1 i hh))
      have e := setTruncNums_ok (P := circPhys c eigs as) (w := w) (nums := nums) hl hmem
      rw [e]
      exact ⟨rfl, hi.1, Or.inr ⟨h1, h2⟩⟩
    · exact Or.inl (C42_rejected w _ (by rintro _ ⟨⟩; exact hl))

theorem truncChoice_pos {P : Phys} {bd : P.BD} {K : ℤ} (hK : 1 ≤ K) : ∀ x ∈ truncChoice P bd K, 1 ≤ x := by
  have hK1 : (1 : ℝ) ≤ K := by exact_mod_cast hK
  have ha1 : (1 : ℝ) ≤ (K : ℝ) ^ (1 / (P.nModes bd : ℝ)) := Real.one_le_rpow hK1 (by positivity)
  intro x hx
  unfold truncChoice at hx
  simp only [List.mem_map] at hx
  obtain ⟨i, -, rfl⟩ := hx
  split <;> rw [Int.le_floor] <;> push_cast <;> linarith

theorem updateFull_ok {w : World (circPhys c eigs as)} (h : (updateFull w).1 = .ok ()) : updateFull w = update w := by
  unfold updateFull at h ⊢
  split
  · rfl
  · rename_i a B hx
    rw [hx] at h
    simp only at h ⊢
    split
    · rename_i hd
      rw [if_pos hd] at h
      cases h
    · rfl

/-- one call -/
theorem careful_step {w : World (circPhys c eigs as)} (hi : OpsInv w) (a : Act)
    (hp : ∀ nums, a = .setTruncNums (.list nums) → ∀ x ∈ nums, 1 ≤ x) (hu : a = .update → (a.execFull w).1 = .ok ()) :
    a.execFull w = a.exec w ∧ OpsInv (a.exec w).2 ∧ (modifies a = true → (a.exec w).1 = .ok () ∨ (a.exec w).2 = w) ∧
    (Raises (a.exec w) → (a.exec w).2 = w ∨ ∃ k, a = .diag k ∧ (a.exec w).2 = (hamiltonian w).2) := by
  cases a with
  | setTruncNums x =>
    refine ⟨rfl, ?_⟩
    rcases trunc_good hi x (fun nums e => hp nums (by rw [e])) with h | ⟨h1, h2⟩
    · change OpsInv (setTruncNums x w).2 ∧ (_ → (setTruncNums x w).1 = _ ∨ (setTruncNums x w).2 = w) ∧ (Raises (setTruncNums x w) → (setTruncNums x w).2 = w ∨ _)
      rw [h]
      exact ⟨hi, fun _ => Or.inr rfl, fun _ => Or.inl rfl⟩
    · refine ⟨h2, fun _ => Or.inl h1, ?_⟩
      rintro ⟨e, he⟩
      change (setTruncNums x w).1 = _ at he
      rw [h1] at he
      cases he
  | truncateCircuit x =>
    refine ⟨rfl, ?_⟩
    simp only [Act.exec, truncateCircuit]
    cases x with
    | none => exact ⟨hi, fun _ => Or.inr rfl, fun _ => Or.inl rfl⟩
    | some K =>
      simp only
      split
      · exact ⟨hi, fun _ => Or.inr rfl, fun _ => Or.inl rfl⟩
      · rename_i hK
        split
        · exact ⟨hi, fun _ => Or.inr rfl, fun _ => Or.inl rfl⟩
        · have hg := trunc_good hi (.list (truncChoice (circPhys c eigs as) w.circ.bd K))
            (by rintro _ ⟨⟩; exact truncChoice_pos (not_lt.1 hK))
          rcases hg with h | ⟨h1, h2⟩
          · rw [h]
            exact ⟨hi, fun _ => Or.inr rfl, fun _ => Or.inl rfl⟩
          · cases hx : setTruncNums (.list (truncChoice (circPhys c eigs as) w.circ.bd K)) w with
            | mk r w' =>
              rw [hx] at h1 h2
              simp only at h1 h2
              subst h1
              refine ⟨h2, fun _ => Or.inl rfl, ?_⟩
              rintro ⟨e, he⟩; cases he
  | setChargeOffset mode ng =>
    refine ⟨rfl, ?_⟩
    simp only [Act.exec, setChargeOffset]
    split
    · exact ⟨hi, fun _ => Or.inr rfl, fun _ => Or.inl rfl⟩
    · rename_i i o hio
      have hisl : ∀ j, Build.isCharge w.circ.bd j = true → (w.circ.setIsland i (o.setOffset ng)).islands j ≠ none := by
        intro j hj
        unfold Circ.setIsland
        by_cases hk : j = i
        · subst hk; simp
        · simp only [ne_eq]
          rw [Function.update_of_ne hk]
          exact hi.1 j hj
      split
      · refine ⟨⟨hisl, hi.2⟩, fun _ => Or.inl rfl, ?_⟩
        rintro ⟨e, he⟩; cases he
      · rename_i hm
        have hm' : w.circ.m ≠ [] := fun h0 => hm (by rw [h0]; rfl)
        obtain ⟨h1, h2⟩ := hi.2.resolve_left hm'
        obtain ⟨mem, hmem⟩ := memOps_good h1 h2 (fun j hj => ng_of_islands (hisl j hj))
        have hmem' : (circPhys c eigs as).memOps w.circ.bd w.circ.m (w.circ.setIsland i (o.setOffset ng)).ng = .ok mem := hmem
        rw [hmem']
        refine ⟨⟨hisl, hi.2⟩, fun _ => Or.inl rfl, ?_⟩
        rintro ⟨e, he⟩; cases he
  | setChargeNoise mode amp =>
    refine ⟨rfl, ?_⟩
    simp only [Act.exec, setChargeNoise]
    split <;> exact ⟨hi, fun _ => Or.inr rfl, fun _ => Or.inl rfl⟩
  | setFlux l v => exact ⟨rfl, hi, fun h => absurd h (by simp [modifies]), by rintro ⟨e, he⟩; cases he⟩
  | setValue i v => exact ⟨rfl, hi, fun h => absurd h (by simp [modifies]), by rintro ⟨e, he⟩; cases he⟩
  | setUnitFreq u => exact ⟨rfl, hi, fun h => absurd h (by simp [modifies]), by rintro ⟨e, he⟩; cases he⟩
  | hamiltonian =>
    refine ⟨rfl, ?_, fun h => absurd h (by simp [modifies]), ?_⟩
    · rcases hamiltonian_frame w with h | ⟨t, h⟩ <;> (simp only [Act.exec]; rw [h]; exact hi)
    · rintro ⟨e, he⟩
      left
      simp only [Act.exec] at he ⊢
      unfold hamiltonian at he ⊢
      repeat' split
      all_goals first | rfl | skip
      all_goals simp_all [Except.map]
  | diag k =>
    refine ⟨rfl, ?_, fun h => absurd h (by simp [modifies]), ?_⟩
    · obtain ⟨t, f, v, h⟩ := diag_frame k w
      simp only [Act.exec]; rw [h]; exact hi
    · rintro ⟨e, he⟩
      simp only [Act.exec] at he ⊢
      unfold diag diagNp at he ⊢
      by_cases hm : w.circ.m.length = 0
      · rw [if_pos hm]; exact Or.inl rfl
      · rw [if_neg hm] at he ⊢
        cases k with
        | none => exact Or.inl rfl
        | some k =>
          simp only at he ⊢
          cases hx : hamiltonian w with
          | mk r w' =>
            rw [hx] at he
            cases r with
            | error e' => exact Or.inr ⟨_, rfl, rfl⟩
            | ok H =>
              simp only at he ⊢
              cases hy : (circPhys c eigs as).eigs H k with
              | error e' => exact Or.inr ⟨_, rfl, rfl⟩
              | ok raw => rw [hy] at he; cases he
  | update =>
    have hx := hu rfl
    have he := updateFull_ok (w := w) hx
    refine ⟨he, ?_⟩
    change (updateFull w).1 = .ok () at hx
    change updateFull w = update w at he
    rw [he] at hx
    refine ⟨?_, fun _ => Or.inl hx, ?_⟩
    · rcases update_cases w with ⟨e, h⟩ | ⟨bd, -, ⟨e, h⟩ | ⟨mem, hmem, h⟩⟩
      · rw [h] at hx; cases hx
      · rw [h] at hx; cases hx
      · change OpsInv (update w).2
        rw [h]
        obtain ⟨h1, h2, h3⟩ := memOps_inv (b := bd) hmem
        exact ⟨fun i hh => islands_of_ng (h3 i hh), Or.inr ⟨h1, h2⟩⟩
    · rintro ⟨e, h⟩
      change (update w).1 = _ at h
      rw [hx] at h
      cases h

/-- along a careful history -/
theorem careful_run : ∀ (h : List Act) {w : World (circPhys c eigs as)}, OpsInv w → Careful w h →
    runFull w h = run w h ∧ OpsInv (run w h) ∧ Orderly w h
  | [], _, hi, _ => ⟨rfl, hi, trivial⟩
  | a :: h, w, hi, hc => by
    obtain ⟨h1, h2, h3, -⟩ := careful_step hi a hc.1 hc.2.1
    have hc' := hc.2.2
    rw [h1] at hc'
    obtain ⟨i1, i2, i3⟩ := careful_run h h2 hc'
    refine ⟨?_, i2, h3, i3⟩
    change runFull (a.execFull w).2 h = run (a.exec w).2 h
    rw [h1]
    exact i1

/-- C123, what holds: after construction and any calls, of which those of `set_trunc_nums` give only numbers from 1 on and those of
`update` succeed, a call (other than `update`, and of `set_trunc_nums` only with numbers from 1 on) that raises an exception leaves
the circuit, the elements, the loops and the settings exactly as they were. The one exception is `diag`: when the eigenvalue
routine raises, the operators of the junctions have been computed, as by `hamiltonian()`. -/
theorem C123_unchanged_partial {vals : ElemId → ℝ} {flux : LoopId → ℝ} {u : ℝ} {w0 : World (circPhys c eigs as)}
    (hw : construct (circPhys c eigs as) vals flux u = .ok w0) (h : List Act) (hc : Careful w0 h) (a : Act)
    (ha : ∀ nums, a = .setTruncNums (.list nums) → ∀ x ∈ nums, 1 ≤ x) (hu : a ≠ .update)
    (hr : Raises (a.execFull (runFull w0 h))) :
    (a.execFull (runFull w0 h)).2 = runFull w0 h ∨
      ∃ k, a = .diag k ∧ (a.execFull (runFull w0 h)).2 = (hamiltonian (runFull w0 h)).2 := by
  obtain ⟨h1, h2, -⟩ := careful_run h (construct_inv hw).1 hc
  rw [h1] at hr ⊢
  obtain ⟨h3, -, -, h4⟩ := careful_step h2 a ha (fun e => absurd e hu)
  rw [h3] at hr ⊢
  exact h4 hr

/-- C123: such histories are the orderly ones of the other theorems: no call has left anything behind. And `set_trunc_nums` (with a
list of the right length) and `set_charge_offset` (of a charge mode) succeed in every state they reach. -/
theorem C123_orderly_partial {vals : ElemId → ℝ} {flux : LoopId → ℝ} {u : ℝ} {w0 : World (circPhys c eigs as)}
    (hw : construct (circPhys c eigs as) vals flux u = .ok w0) (h : List Act) (hc : Careful w0 h) :
    runFull w0 h = run w0 h ∧ Orderly w0 h ∧
    (∀ nums : List ℤ, nums.length = Build.k (run w0 h).circ.bd → (∀ x ∈ nums, 1 ≤ x) →
      (setTruncNums (.list nums) (run w0 h)).1 = .ok ()) ∧
    (∀ (i : ℕ) (ng : ℝ), Build.isCharge (run w0 h).circ.bd i = true →
      (setChargeOffset (some (i + 1)) ng (run w0 h)).1 = .ok ()) := by
  obtain ⟨h1, h2, h3⟩ := careful_run h (construct_inv hw).1 hc
  refine ⟨h1, h3, fun nums hl hp => ?_, fun i ng hi => ?_⟩
  · rcases trunc_good h2 (.list nums) (by rintro _ ⟨⟩; exact hp) with h4 | ⟨h4, -⟩
    · obtain ⟨d1, d2⟩ := dimsOf_pos (c := c) (eigs := eigs) (as := as) hl hp
      obtain ⟨mem, hmem⟩ := memOps_good d1 d2 (fun i hh => ng_of_islands (h2.1 i hh))
      rw [setTruncNums_ok (P := circPhys c eigs as) hl hmem]
    · exact h4
  · obtain ⟨-, -, h5, h6⟩ := careful_step h2 (.setChargeOffset (some (i + 1)) ng) (by rintro _ ⟨⟩) (by rintro ⟨⟩)
    obtain ⟨o, ho⟩ := Option.ne_none_iff_exists'.1 (h2.1 i hi)
    have hio : islandOf (run w0 h).circ (some ((i : ℤ) + 1)) = some (i, o) := by
      unfold islandOf
      simp [ho]
    unfold setChargeOffset
    rw [hio]
    simp only
    split
    · rfl
    · rename_i hm
      have hm' : (run w0 h).circ.m ≠ [] := fun h0 => hm (by rw [h0]; rfl)
      obtain ⟨d1, d2⟩ := h2.2.resolve_left hm'
      have hisl : ∀ j, Build.isCharge (run w0 h).circ.bd j = true → ((run w0 h).circ.setIsland i (o.setOffset ng)).islands j ≠ none := by
        intro j hj
        unfold Circ.setIsland
        by_cases hk : j = i
        · subst hk; simp
        · simp only [ne_eq]
          rw [Function.update_of_ne hk]
          exact h2.1 j hj
      obtain ⟨mem, hmem⟩ := memOps_good d1 d2 (fun j hj => ng_of_islands (hisl j hj))
      have hmem' : (circPhys c eigs as).memOps (run w0 h).circ.bd (run w0 h).circ.m
        ((run w0 h).circ.setIsland i (o.setOffset ng)).ng = .ok mem := hmem
      rw [hmem']

/-- the capacitance matrix of `k` nodes is singular -/
def SingularAt (c : CircSpec) (k : ℕ) (vals : ElemId → ℝ) : Prop :=
  ∃ a B, getLCWB c.sv c.torch c.fd (c.O.withVals vals) k c.h c.els = .ok ⟨a, B⟩ ∧ a.cMat.det = 0

theorem updateFull_regular {w : World (circPhys c eigs as)} (h : ¬ SingularAt c (Build.k w.circ.bd) w.vals) :
    updateFull w = update w := by
  unfold updateFull
  split
  · rfl
  · rename_i a B hx
    exact if_neg fun hd => h ⟨a, B, hx, hd⟩

theorem updateFull_singular {w : World (circPhys c eigs as)} (h : SingularAt c (Build.k w.circ.bd) w.vals) :
    ∃ C, updateFull w = (.error .linAlg, { w with circ := {
        bd := Build.resetFrame w.circ.bd C, islands := w.circ.islands, m := w.circ.m, ms := w.circ.ms
        mem := w.circ.mem, exp := w.circ.exp, lc := w.circ.lc, trig := w.circ.trig
        efreqs := w.circ.efreqs, evecs := w.circ.evecs } }) := by
  obtain ⟨a, B, hx, hd⟩ := h
  refine ⟨a.cMat, ?_⟩
  unfold updateFull
  rw [hx]
  exact if_pos hd

theorem updateFull_congr {w w' : World (circPhys c eigs as)} (hk : Build.k w'.circ.bd = Build.k w.circ.bd)
    (h1 : w'.circ.islands = w.circ.islands) (h2 : w'.circ.m = w.circ.m) (h3 : w'.circ.ms = w.circ.ms) (h4 : w'.vals = w.vals)
    (h5 : w'.flux = w.flux) (h6 : w'.unitFreq = w.unitFreq) (hok : (updateFull w).1 = .ok ()) : updateFull w' = updateFull w := by
  have hr : ¬ SingularAt c (Build.k w.circ.bd) w.vals := by
    intro hs
    obtain ⟨C, e⟩ := updateFull_singular hs
    rw [e] at hok
    cases hok
  have hr' : ¬ SingularAt c (Build.k w'.circ.bd) w'.vals := by rw [hk, h4]; exact hr
  rw [updateFull_regular hr] at hok ⊢
  rw [updateFull_regular hr']
  rcases update_cases w with ⟨e, h⟩ | ⟨bd, hbd, ⟨e, h⟩ | ⟨mem, hmem, h⟩⟩
  · rw [h] at hok; cases hok
  · rw [h] at hok; cases hok
  · rw [h]
    have hbd' : (circPhys c eigs as).rebuild ((circPhys c eigs as).nModes w'.circ.bd) w'.vals = .ok bd := by
      rw [h4]
      have : (circPhys c eigs as).nModes w'.circ.bd = (circPhys c eigs as).nModes w.circ.bd := hk
      rw [this]
      exact hbd
    have hng : w'.circ.ng = w.circ.ng := by unfold Circ.ng; rw [h1]
    unfold update
    rw [hbd']
    unfold Circ.buildOps
    have hmem' : (circPhys c eigs as).memOps bd w'.circ.m (Circ.ng (P := circPhys c eigs as) { bd := bd, islands := w'.circ.islands, m := w'.circ.m, ms := w'.circ.ms, mem := none, exp := none, lc := none, trig := none, efreqs := w'.circ.efreqs, evecs := w'.circ.evecs }) = .ok mem := by
      rw [h2]
      exact (congrArg _ hng).trans hmem
    simp only
    rw [hmem']
    simp only [h1, h2, h3, h4, h5, h6]

/-- C123, what follows a failure: after a call of `set_trunc_nums` that raised, the next call with a list of the right length gives
the result and state it would have given without that call; and after an `update` that raised, the next one that would have
succeeded without it (the elements then having the values `v`) does, with the state it would have given. -/
theorem C123_heals_partial (w : World (circPhys c eigs as)) :
    (∀ (bad : NumsArg) (nums : List ℤ), Raises (setTruncNums bad w) → nums.length = Build.k w.circ.bd →
      setTruncNums (.list nums) (setTruncNums bad w).2 = setTruncNums (.list nums) w) ∧
    (∀ v : ElemId → ℝ, Raises (updateFull w) → (updateFull { w with vals := v }).1 = .ok () →
      updateFull { (updateFull w).2 with vals := v } = updateFull { w with vals := v }) := by
  constructor
  · rintro bad nums ⟨e, he⟩ hl
    rcases setTruncNums_cases bad w with ⟨h, -⟩ | ⟨nums', -, -, ⟨e, -, h⟩ | ⟨mem, -, h, -⟩⟩
    · rw [h]
    · rw [h]
      have hl' : nums.length = (circPhys c eigs as).nModes w.circ.bd := hl
      unfold setTruncNums
      simp only
      rw [if_neg (not_not.2 hl'), if_neg (not_not.2 hl')]
    · rw [h] at he; cases he
  · rintro v ⟨e, he⟩ hok
    by_cases hs : SingularAt c (Build.k w.circ.bd) w.vals
    · obtain ⟨C, e1⟩ := updateFull_singular hs
      refine updateFull_congr ?_ ?_ ?_ ?_ rfl ?_ ?_ hok <;> rw [e1]
      rfl
    · have e1 := updateFull_regular hs
      rcases update_cases w with ⟨e, h⟩ | ⟨bd, hbd, ⟨e, h⟩ | ⟨mem, hmem, h⟩⟩
      · rw [e1, h]
      · refine updateFull_congr ?_ ?_ ?_ ?_ rfl ?_ ?_ hok <;> rw [e1, h]
        exact rebuild_k _ _ _ hbd
      · rw [e1, h] at he; cases he

theorem setTruncNums_err {P : Phys} {w : World P} {nums : List ℤ} {e : PyErr} (hl : nums.length = P.nModes w.circ.bd)
    (hm : P.memOps w.circ.bd (dimsOf P w.circ.bd nums) w.circ.ng = .error e) :
    setTruncNums (.list nums) w = (.error e, { w with circ := { w.circ with
      m := dimsOf P w.circ.bd nums
      ms := (dimsOf P w.circ.bd nums).filter (fun x => x ≠ 1) } }) := by
  rcases setTruncNums_cases (.list nums) w with ⟨h, h'⟩ | ⟨nums', h0, -, ⟨e', h1, h2⟩ | ⟨mem, h1, -⟩⟩
  · exact absurd hl (h' _ rfl)
  · cases h0
    refine Prod.ext ?_ h2
    unfold setTruncNums Circ.buildOps
    simp only
    rw [if_neg (not_not.2 hl)]
    have hm' : P.memOps w.circ.bd (dimsOf P w.circ.bd nums) (Circ.ng { w.circ with
      m := dimsOf P w.circ.bd nums
      ms := (dimsOf P w.circ.bd nums).filter (fun x => x ≠ 1) }) = .error e := hm
    rw [hm']
  · cases h0
    rw [hm] at h1; cases h1

/-- C123 fails for `set_trunc_nums`: on any circuit, after a successful call, a call with a number below 1 raises ValueError, yet
`trunc_nums` returns the rejected list; `hamiltonian()` still returns the previous operator, and `set_charge_offset`, which would
have succeeded for every charge mode before, raises. -/
theorem C123_trunc_refuted {vals : ElemId → ℝ} {flux : LoopId → ℝ} {u : ℝ} {w0 : World (circPhys c eigs as)}
    (hw : construct (circPhys c eigs as) vals flux u = .ok w0) (good bad : List ℤ) (hg : good.length = Build.k w0.circ.bd)
    (hp : ∀ x ∈ good, 1 ≤ x) (hb : bad.length = Build.k w0.circ.bd) (hx : ∃ x ∈ bad, x < 1) :
    let w := run w0 [.setTruncNums (.list good)]
    let w' := run w0 [.setTruncNums (.list good), .setTruncNums (.list bad)]
    truncNums w = .ok good ∧ (setTruncNums (.list bad) w).1 = .error .valueError ∧ truncNums w' = .ok bad ∧ good ≠ bad ∧
    (hamiltonian w').1 = (hamiltonian w).1 ∧
    ∀ (i : ℕ) (ng : ℝ), Build.isCharge w.circ.bd i = true →
      (setChargeOffset (some (i + 1)) ng w).1 = .ok () ∧ (setChargeOffset (some (i + 1)) ng w').1 = .error .valueError := by
  intro w w'
  have hcare : Careful w0 [.setTruncNums (.list good)] := ⟨by rintro _ ⟨⟩; exact hp, by rintro ⟨⟩, trivial⟩
  obtain ⟨h1, h2, h3⟩ := careful_run _ (construct_inv hw).1 hcare
  obtain ⟨-, -, -, hco⟩ := C123_orderly_partial hw _ hcare
  have hbd : w.circ.bd = w0.circ.bd := (run_frame [.setTruncNums (.list good)] w0 (by simp)).1
  have hkb : bad.length = Build.k w.circ.bd := by rw [hbd]; exact hb
  have hlen := dimsOf_length (P := circPhys c eigs as) w.circ.bd bad
  -- an entry of the new dimensions is below 1
  have hlow : ∃ i, i < Build.k w.circ.bd ∧ (dimsOf (circPhys c eigs as) w.circ.bd bad).getD i 0 < 1 := by
    obtain ⟨x, hx1, hx2⟩ := hx
    obtain ⟨i, hi, rfl⟩ := List.getElem_of_mem hx1
    have hi' : i < Build.k w.circ.bd := by omega
    refine ⟨i, hi', ?_⟩
    have hl' : i < (dimsOf (circPhys c eigs as) w.circ.bd bad).length := by rw [hlen]; exact hi'
    have e : (dimsOf (circPhys c eigs as) w.circ.bd bad).getD i 0 = (dimsOf (circPhys c eigs as) w.circ.bd bad)[i] := by
      simp [List.getD, hl']
    have e2 : bad.getD i 0 = bad[i] := by simp [List.getD, hi]
    rw [e]
    simp only [dimsOf, List.getElem_map, List.getElem_range]
    split <;> omega
  have hmem : ∀ ng, (circPhys c eigs as).memOps w.circ.bd (dimsOf (circPhys c eigs as) w.circ.bd bad) ng = .error .valueError := by
    intro ng
    change Build.memOps w.circ.bd _ ng = _
    unfold Build.memOps
    rw [if_neg]
    · exact if_pos hlow
    · rw [hlen]; exact lt_irrefl _
  have hset : setTruncNums (.list bad) w = (.error .valueError, { w with circ := { w.circ with
      m := dimsOf (circPhys c eigs as) w.circ.bd bad
      ms := (dimsOf (circPhys c eigs as) w.circ.bd bad).filter (fun x => x ≠ 1) } }) := by
    exact setTruncNums_err (P := circPhys c eigs as) hkb (hmem _)
  have hw' : w' = (setTruncNums (.list bad) w).2 := rfl
  have hne : Build.k w.circ.bd ≠ 0 := by
    obtain ⟨i, hi, -⟩ := hlow
    omega
  refine ⟨(C42_roundtrip good w0 hg).1, by rw [hset], (C42_roundtrip bad w hkb).1, ?_, ?_, ?_⟩
  · rintro rfl
    obtain ⟨x, hx1, hx2⟩ := hx
    have := hp x hx1
    omega
  · rw [hw', hset]
    have hm : w.circ.m.length ≠ 0 := by
      obtain ⟨ok, hl⟩ := C42_constructed hw good hg hp
      change (setTruncNums (.list good) w0).2.circ.m.length ≠ 0
      rw [hl, hg, ← hbd]
      exact hne
    unfold hamiltonian
    simp only
    rw [if_neg hm, if_neg (by rw [hlen]; exact hne)]
    split
    · split <;> rfl
    · rfl
  · intro i ng hi
    refine ⟨hco i ng hi, ?_⟩
    obtain ⟨o, ho⟩ := Option.ne_none_iff_exists'.1 (h2.1 i hi)
    rw [hw', hset]
    unfold setChargeOffset
    have hio : islandOf w.circ (some ((i : ℤ) + 1)) = some (i, o) := by
      unfold islandOf
      have : w.circ.islands i = some o := ho
      simp [this]
    have hio' : islandOf { w.circ with
      m := dimsOf (circPhys c eigs as) w.circ.bd bad
      ms := (dimsOf (circPhys c eigs as) w.circ.bd bad).filter (fun x => x ≠ 1) } (some ((i : ℤ) + 1)) = some (i, o) := hio
    simp only
    rw [hio']
    simp only
    rw [if_neg (by rw [hlen]; exact hne), hmem]

/-- C123 fails for `update`: called on a circuit with at least one mode before the truncation numbers are set, it raises. -/
theorem C123_update_first {vals : ElemId → ℝ} {flux : LoopId → ℝ} {u : ℝ} {w0 : World (circPhys c eigs as)}
    (hw : construct (circPhys c eigs as) vals flux u = .ok w0) (hk : 0 < Build.k w0.circ.bd) : Raises (updateFull w0) := by
  by_cases hs : SingularAt c (Build.k w0.circ.bd) w0.vals
  · obtain ⟨C, e⟩ := updateFull_singular hs
    exact ⟨_, by rw [e]⟩
  · rw [updateFull_regular hs]
    rcases update_cases w0 with ⟨e, h⟩ | ⟨bd, hbd, ⟨e, h⟩ | ⟨mem, hmem, h⟩⟩
    · exact ⟨_, by rw [h]⟩
    · exact ⟨_, by rw [h]⟩
    · obtain ⟨h1, -⟩ := memOps_inv (b := bd) hmem
      rw [(construct_inv hw).2] at h1
      have h2 : bd.k = Build.k w0.circ.bd := rebuild_k _ _ _ hbd
      simp at h1
      omega

/-- after the inversion has failed, `coord_transform` returns identity matrices -/
theorem frame_reset (b : Build) (h : b.n = b.k) (C : Matrix (Fin b.k) (Fin b.k) ℝ) (s : String)
    (hs : s.toList.map Char.toLower = "charge".toList ∨ s.toList.map Char.toLower = "flux".toList) :
    coordTransform (b.resetFrame C).M s = .ok 1 := by
  unfold coordTransform Build.resetFrame
  simp only [if_pos h]
  rcases hs with hs | hs
  · rw [if_pos hs, if_neg (by rw [det_one]; norm_num), inv_one]
  · rw [if_neg (by rw [hs]; decide), if_pos hs, if_neg (by rw [det_one]; norm_num), inv_one]

/-- capacitances of 0 -/
theorem singular_zero {n : ℕ} (hn : 0 < n) {vals : ElemId → ℝ} (hv : ValidElements n c.els) (hL : NoInductors c.O c.els)
    (hl : ∀ q ∈ placements c.els, (c.O.elem q.2).loops = [])
    (h0 : ∀ q ∈ placements c.els, placedCap (c.O.withVals vals) q.2 = 0) : SingularAt c n vals := by
  obtain ⟨a, ha, -⟩ := C14_energy_forms c.torch c.fd (c.O.withVals vals) n c.h c.els hv (by
    intro p hp i hi hk
    exact absurd hk (hL (p.1, i) (List.mem_flatMap.2 ⟨p, hp, List.mem_map.2 ⟨i, hi, rfl⟩⟩)))
  have hlu : loopUses c.O c.els = [] := by
    unfold loopUses
    rw [List.flatMap_eq_nil_iff]
    intro q hq
    have hq2 : q.1 ∈ inductivePlacements c.O c.els := by
      have := List.mem_map_of_mem (f := Prod.fst) hq
      simpa [numbered] using this
    rw [hl q.1 (List.mem_of_mem_filter hq2)]
    rfl
  have hl0 : a.st.loops = [] := by
    obtain ⟨l1, -⟩ := C19_loop_membership c.torch c.fd (c.O.withVals vals) n c.h _ hv a ha
    have : loopUses (c.O.withVals vals) c.els = [] := hlu
    rw [l1, this]
    rfl
  have hf : fluxMatrix c.sv n a.st.kMat a.st.cEdge (a.st.loops.map a.st.loopHeap) = .ok none := by
    rw [hl0]
    unfold fluxMatrix
    simp [loopRows]
  refine ⟨a, none, ?_, ?_⟩
  · unfold getLCWB
    rw [ha]
    simp only
    rw [hf]
  · have : a.cMat = 0 := by
      rw [(traverse_mats hv ha).1]
      apply List.sum_eq_zero
      intro x hx
      obtain ⟨q, hq, rfl⟩ := List.mem_map.1 hx
      rw [h0 q hq, zero_smul]
    rw [this]
    have : Nonempty (Fin n) := ⟨⟨0, hn⟩⟩
    exact det_zero

/-- C123 fails for `update`: two islands in a chain of junctions. The capacitances are set to 0 and `update()` raises LinAlgError.
After all values have been restored, `coord_transform('charge')` returns the identity matrix, which it did not before. -/
theorem C123_refuted : ∃ (c : CircSpec) (eigs : EigsFn) (as : List ℂ → List ℕ) (w0 : World (circPhys c eigs as)),
    c.els = [((0, 1), [0]), ((1, 2), [2]), ((0, 2), [4])] ∧ RoutinesOK c ∧ EigsLowest eigs ∧ CArgsortSpec as ∧
    construct (circPhys c eigs as) twoVals (fun _ => 0) 1 = .ok w0 ∧
    let w := runFull w0 [.setTruncNums (.list [2, 2]), .setValue 1 0, .setValue 3 0, .setValue 4 0]
    let w' := runFull (updateFull w).2 [.setValue 1 2, .setValue 3 3, .setValue 4 1]
    (∃ T, coordTransform (Build.M w.circ.bd) "charge" = .ok T ∧ T ≠ 1) ∧ (updateFull w).1 = .error .linAlg ∧
    w'.vals = w0.vals ∧ coordTransform (Build.M w'.circ.bd) "charge" = .ok 1 := by
  choose lib hlib using exists_lib
  choose argmax hm using exists_argmax
  obtain ⟨argsort, hsrt⟩ := exists_argsort
  obtain ⟨eigs, he⟩ := exists_eigs_lowest
  obtain ⟨as, ha⟩ := exists_cargsort
  let c0 : CircSpec := twoSpec false .junctions twoObjs [0] [2] [4] (fun _ => LoopObj.init 0 0) lib exSv argsort argmax (fun _ _ => 0)
  let c : CircSpec := { c0 with els := chainEls }
  have hr0 : RoutinesOK c0 := ⟨hlib, exSv_spec, hsrt, hm, le_refl 3⟩
  have hr : RoutinesOK c := ⟨hlib, exSv_spec, hsrt, hm, le_refl 3⟩
  have hI0 : IslandCircuit c0 2 := two_island two_ex_islands
  have hI : IslandCircuit c 2 := chain_island _ _ _ _
  have hV0 : IslandValues c0 2 twoVals := two_values two_ex_islands two_ex_values
  have hV : IslandValues c 2 twoVals := corr_values (c := c0) (c' := c) rfl (reground_corr hI0 hI rfl chain_regrounded) hV0
  have hcaps : CapsOK twoObjs := by
    intro i
    change (twoObjs.elem (twoObjs.elem i).cap).kind ≠ .jj
    unfold twoObjs
    simp only
    split_ifs <;> simp_all
  obtain ⟨w0, hw, -⟩ := C93_session _ 2 hI hr hcaps eigs as twoVals hV (fun _ => 0) 1
  refine ⟨c, eigs, as, w0, rfl, hr, he, ha, hw, ?_⟩
  intro w w'
  have hb := (construct_build hw).1
  obtain ⟨hn, hk, σ, -, -, hR, -⟩ := isl_built hI hr hV hb
  have hw0v : w0.vals = twoVals := by
    unfold construct at hw
    split at hw
    · cases hw
    · injection hw with hw
      rw [← hw]
  have hcare : Careful w0 [.setTruncNums (.list [2, 2]), .setValue 1 0, .setValue 3 0, .setValue 4 0] :=
    ⟨by rintro _ ⟨⟩; decide, by rintro ⟨⟩, by rintro _ ⟨⟩, by rintro ⟨⟩, by rintro _ ⟨⟩, by rintro ⟨⟩, by rintro _ ⟨⟩, by rintro ⟨⟩, trivial⟩
  have hrun : w = run w0 _ := (careful_run _ (construct_inv hw).1 hcare).1
  have hbd : w.circ.bd = w0.circ.bd := by
    rw [hrun]
    exact (run_frame _ w0 (by simp)).1
  have hk2 : Build.k w.circ.bd = 2 := by
    rw [hbd]
    exact hk.trans hn
  have hn2 : Build.n w.circ.bd = 2 := by rw [hbd]; exact hn
  have hvals : w.vals = Function.update (Function.update (Function.update twoVals 1 0) 3 0) 4 0 := by
    have h1 : (setTruncNums (.list [2, 2]) w0).2.vals = w0.vals := (setTruncNums_eigs (.list [2, 2]) w0).2.2.1
    rw [hw0v] at h1
    change Function.update (Function.update (Function.update (setTruncNums (.list [2, 2]) w0).2.vals 1 0) 3 0) 4 0 = _
    rw [h1]
  have hsing : SingularAt c (Build.k w.circ.bd) w.vals := by
    rw [hk2, hvals]
    refine singular_zero (by norm_num) hI.valid hI.noInd hI.noLoops ?_
    intro q hq
    have hq' : q = ((0, 1), 0) ∨ q = ((1, 2), 2) ∨ q = ((0, 2), 4) := by
      have : q ∈ placements chainEls := hq
      simpa [placements, chainEls] using this
    rcases hq' with rfl | rfl | rfl <;> simp [c, c0, twoSpec, placedCap, twoObjs, Objs.withVals, twoVals, Function.update]
  obtain ⟨C, hu⟩ := updateFull_singular hsing
  refine ⟨?_, by rw [hu], ?_, ?_⟩
  · rw [hbd]
    obtain ⟨a, hta, -⟩ := C14_energy_forms c.torch c.fd (c.O.withVals twoVals) (Build.n w0.circ.bd) c.h c.els
      (by rw [hn]; exact hI.valid) (by
        intro p hp i hi hk
        exact absurd hk (hI.noInd (p.1, i) (List.mem_flatMap.2 ⟨p, hp, List.mem_map.2 ⟨i, hi, rfl⟩⟩)))
    obtain ⟨Tq, Tf, cF, lF, hT, -⟩ := C83_transform c twoVals (isl_good hI hr hV) _ hb a hta "charge" "flux" rfl rfl
    refine ⟨Tq, hT, ?_⟩
    rintro rfl
    unfold coordTransform at hT
    rw [if_pos (by rfl)] at hT
    split at hT
    · cases hT
    · rename_i hdet
      have hinv := Except.ok.inj hT
      have hR1 : (Build.M w0.circ.bd).R = 1 := by
        have h4 := Matrix.mul_nonsing_inv _ (isUnit_iff_ne_zero.2 hdet)
        rw [hinv, mul_one] at h4
        exact h4
      have hlen : (junctionEdges c.O c.els).length = 2 := hI.square
      have hed : (junctionEdges c.O c.els).get ⟨1, by omega⟩ = (1, 2) := by
        have : junctionEdges c.O c.els = [(0, 1), (1, 2)] := chain_edges
        simp [this]
      have e0 := hR ⟨1, by omega⟩ ⟨0, by omega⟩
      have e1 := hR ⟨1, by omega⟩ ⟨1, by omega⟩
      rw [hed, hR1, one_apply] at e0 e1
      have e2 : incidence (1, 2) 1 ≠ 0 := by decide
      have e3 : incidence (1, 2) 2 ≠ 0 := by decide
      split_ifs at e0 with c0
      · split_ifs at e1 with c1
        · rw [← c1] at c0
          simp at c0
        · exact e3 (by exact_mod_cast e1.symm)
      · exact e2 (by exact_mod_cast e0.symm)
  · have h2 : w'.vals = Function.update (Function.update (Function.update (updateFull w).2.vals 1 2) 3 3) 4 1 := rfl
    rw [h2, hu]
    simp only
    rw [hvals, hw0v]
    funext i
    simp only [Function.update, twoVals]
    split_ifs <;> simp_all
  · have h3 : w'.circ.bd = (updateFull w).2.circ.bd := rfl
    rw [h3, hu]
    exact frame_reset _ (hn2.trans hk2.symm) _ _ (Or.inl rfl)

/-- the hypotheses can be met: two coupled islands; a call without a list and an offset for a mode that does not exist are
rejected, and so is `diag` without a number -/
theorem C123_example : ∃ (c : CircSpec) (eigs : EigsFn) (as : List ℂ → List ℕ) (w0 : World (circPhys c eigs as)),
    construct (circPhys c eigs as) twoVals (fun _ => 0) 1 = .ok w0 ∧ Build.k w0.circ.bd = 2 ∧
    Careful w0 [.setTruncNums (.list [2, 2]), .setTruncNums .other, .setChargeOffset (some 7) 0.3, .diag none] ∧
    Raises (Act.execFull (.setTruncNums .other) (runFull w0 [.setTruncNums (.list [2, 2])])) ∧
    Raises (Act.execFull (.diag none) (runFull w0 [.setTruncNums (.list [2, 2])])) ∧
    runFull w0 [.setTruncNums (.list [2, 2]), .setTruncNums .other, .setChargeOffset (some (-7)) 0.3, .diag none] =
      runFull w0 [.setTruncNums (.list [2, 2])] := by
  choose lib hlib using exists_lib
  choose argmax hm using exists_argmax
  obtain ⟨argsort, hsrt⟩ := exists_argsort
  obtain ⟨eigs, he⟩ := exists_eigs_lowest
  obtain ⟨as, ha⟩ := exists_cargsort
  let c : CircSpec := twoSpec false .junctions twoObjs [0] [2] [4] (fun _ => LoopObj.init 0 0) lib exSv argsort argmax (fun _ _ => 0)
  have hr : RoutinesOK c := ⟨hlib, exSv_spec, hsrt, hm, le_refl 3⟩
  have hI : IslandCircuit c 2 := two_island two_ex_islands
  have hV : IslandValues c 2 twoVals := two_values two_ex_islands two_ex_values
  have hcaps : CapsOK twoObjs := by
    intro i
    unfold twoObjs
    simp only
    split_ifs <;> simp_all
  obtain ⟨w0, hw, -⟩ := C93_session _ 2 hI hr hcaps eigs as twoVals hV (fun _ => 0) 1
  obtain ⟨hn, hk, -⟩ := isl_built hI hr hV (construct_build hw).1
  have hd : ∀ w : World (circPhys c eigs as), (diag none w).2 = w ∧ Raises (Act.execFull (.diag none) w) := by
    intro w
    unfold Act.execFull Act.exec diag
    split <;> exact ⟨rfl, _, rfl⟩
  refine ⟨c, eigs, as, w0, hw, hk.trans hn, ⟨by rintro _ ⟨⟩; decide, by rintro ⟨⟩, by rintro _ ⟨⟩, by rintro ⟨⟩, by rintro _ ⟨⟩,
    by rintro ⟨⟩, by rintro _ ⟨⟩, by rintro ⟨⟩, trivial⟩, ⟨_, rfl⟩, (hd _).2, ?_⟩
  exact (hd _).1

end SQ
