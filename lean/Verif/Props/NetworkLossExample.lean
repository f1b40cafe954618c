import Verif.Props.NetworkLoss
import Verif.Props.LinearExample

/-!
# C129: two coupled resonators
-/

namespace SQ
open Matrix Spec

theorem coup_cap : nodeCap 2 (pairObjs.withVals fun _ => 1) coupEls = !![2, -1; -1, 2] := by
  ext i j
  fin_cases i <;> fin_cases j <;>
    simp [nodeCap, placements, coupEls, placedCap, Objs.withVals, pairObjs, edgeMat, incidence] <;> norm_num

theorem coup_ind : nodeInvInd 2 (pairObjs.withVals fun _ => 1) coupEls = 1 := by
  ext i j
  fin_cases i <;> fin_cases j <;>
    simp [nodeInvInd, placements, coupEls, placedInvInd, Objs.withVals, pairObjs, edgeMat, incidence]

/-- the even and the odd mode -/
theorem coup_mode {ω : ℝ} {y : Fin 2 → ℝ} (h : ModePattern (!![2, -1; -1, 2] : Matrix (Fin 2) (Fin 2) ℝ) 1 ω y) :
    (y 1 = y 0 ∧ ω ^ 2 = 1 ∧ y 0 ^ 2 = 1 / 2) ∨ (y 1 = -y 0 ∧ ω ^ 2 = 1 / 3 ∧ y 0 ^ 2 = 1 / 6) := by
  have h0 := congrFun h.mode 0
  have h1 := congrFun h.mode 1
  have hu := h.unit
  simp [mulVec, dotProduct, Fin.sum_univ_two] at h0 h1 hu
  have hs : (ω ^ 2 - 1) * (y 0 + y 1) = 0 := by linear_combination -h0 - h1
  have hd : (3 * ω ^ 2 - 1) * (y 0 - y 1) = 0 := by linear_combination -h0 + h1
  rcases mul_eq_zero.1 hs with h2 | h2
  · left
    have h3 : y 1 = y 0 := by
      rcases mul_eq_zero.1 hd with h3 | h3
      · exfalso; linarith
      · linarith
    refine ⟨h3, by linarith, ?_⟩
    rw [h3] at hu
    linear_combination hu / 2
  · right
    have h3 : y 1 = -y 0 := by linarith
    rw [h3] at hu hd
    refine ⟨h3, ?_, by linear_combination hu / 6⟩
    rcases mul_eq_zero.1 hd with h4 | h4
    · linarith
    · exfalso
      have : y 0 = 0 := by linarith
      rw [this] at hu
      norm_num at hu

theorem coup_modes {ω : Fin 2 → ℝ} {y : Fin 2 → Fin 2 → ℝ} (hn : ∀ i, 0 ≤ ω i) (ha : Antitone ω)
    (h : ∀ i, ModePattern (!![2, -1; -1, 2] : Matrix (Fin 2) (Fin 2) ℝ) 1 (ω i) (y i))
    (ho : y 0 ⬝ᵥ ((!![2, -1; -1, 2] : Matrix (Fin 2) (Fin 2) ℝ) *ᵥ y 1) = 0) :
    ω 0 = 1 ∧ ω 1 = 1 / √3 ∧ (y 0 1 = y 0 0 ∧ y 0 0 ^ 2 = 1 / 2) ∧ (y 1 1 = -y 1 0 ∧ y 1 0 ^ 2 = 1 / 6) := by
  have hanti : ω 1 ≤ ω 0 := ha (Fin.zero_le 1)
  have e1 : ∀ i, ω i ^ 2 = 1 → ω i = 1 := fun i hi => (pow_eq_one_iff_of_nonneg (hn i) two_ne_zero).1 hi
  have e3 : ∀ i, ω i ^ 2 = 1 / 3 → ω i = 1 / √3 := fun i hi => by
    rw [← Real.sqrt_sq (hn i), hi, Real.sqrt_div zero_le_one, Real.sqrt_one]
  simp [mulVec, dotProduct, Fin.sum_univ_two] at ho
  rcases coup_mode (h 0) with ⟨a1, a2, a3⟩ | ⟨a1, a2, a3⟩ <;> rcases coup_mode (h 1) with ⟨b1, b2, b3⟩ | ⟨b1, b2, b3⟩
  · exfalso
    rw [a1, b1] at ho
    have : y 0 0 * y 1 0 = 0 := by linear_combination ho / 2
    rcases mul_eq_zero.1 this with h | h
    · rw [h] at a3; norm_num at a3
    · rw [h] at b3; norm_num at b3
  · exact ⟨e1 0 a2, e3 1 b2, ⟨a1, a3⟩, b1, b3⟩
  · exfalso
    have := pow_le_pow_left₀ (hn 1) hanti 2
    rw [a2, b2] at this
    norm_num at this
  · exfalso
    rw [a1, b1] at ho
    have : y 0 0 * y 1 0 = 0 := by linear_combination ho / 6
    rcases mul_eq_zero.1 this with h | h
    · rw [h] at a3; norm_num at a3
    · rw [h] at b3; norm_num at b3

/-- energies of the two modes with two and three states -/
theorem coup_states {ω κ ng : Fin 2 → ℝ} (h0 : ω 0 = 1) (h1 : ω 1 = 1 / √3) (d : Fin 2 → ℕ) (d0 : d 0 = 2) (d1 : d 1 = 3) :
    ∃ a b e : ∀ i, Fin (d i), ((a 0 : ℕ) = 0 ∧ (a 1 : ℕ) = 0) ∧ ((b 0 : ℕ) = 0 ∧ (b 1 : ℕ) = 1) ∧ ((e 0 : ℕ) = 1 ∧ (e 1 : ℕ) = 0) ∧
      (∀ x : ∀ i, Fin (d i), ladder ω κ ng d x = (x 0 : ℕ) + 1 / √3 * (x 1 : ℕ)) ∧
      (∀ x, OnlyState (ladder ω κ ng d) x) ∧
      (lowest (ladder ω κ ng d) 3)[0]? = some (ladder ω κ ng d a) ∧ (lowest (ladder ω κ ng d) 3)[1]? = some (ladder ω κ ng d b) ∧
      (lowest (ladder ω κ ng d) 3)[2]? = some (ladder ω κ ng d e) := by
  classical
  have hs : (0 : ℝ) < √3 := by positivity
  have hs2 : √3 * √3 = 3 := Real.mul_self_sqrt (by norm_num)
  have hs1 : 1 < √3 := by
    rw [Real.lt_sqrt zero_le_one]
    norm_num
  have hs3 : √3 < 2 := by
    rw [Real.sqrt_lt' (by norm_num)]
    norm_num
  have hlad : ∀ x : ∀ i, Fin (d i), ladder ω κ ng d x = (x 0 : ℕ) + 1 / √3 * (x 1 : ℕ) := by
    intro x
    unfold ladder
    rw [Fin.sum_univ_two, if_pos (by rw [h0]; norm_num), if_pos (by rw [h1]; positivity), h0, h1, one_mul]
  have hex : ∀ r s : ℕ, r < 2 → s < 3 → ∃ x : ∀ i, Fin (d i), (x 0 : ℕ) = r ∧ (x 1 : ℕ) = s := by
    intro r s hr hs
    exact ⟨Fin.cons ⟨r, by omega⟩ (fun j => ⟨s, by rw [Subsingleton.elim j 0]; show s < d 1; omega⟩), rfl, rfl⟩
  have hext : ∀ x y : ∀ i, Fin (d i), (x 0 : ℕ) = y 0 → (x 1 : ℕ) = y 1 → x = y := by
    intro x y h h'
    funext i
    fin_cases i
    · exact Fin.ext h
    · exact Fin.ext h'
  obtain ⟨a, ha⟩ := hex 0 0 (by norm_num) (by norm_num)
  obtain ⟨b, hb⟩ := hex 0 1 (by norm_num) (by norm_num)
  obtain ⟨e, he⟩ := hex 1 0 (by norm_num) (by norm_num)
  have hr : ∀ x : ∀ i, Fin (d i), (x 0 : ℕ) < 2 ∧ (x 1 : ℕ) < 3 := fun x =>
    ⟨by have := (x 0).isLt; omega, by have := (x 1).isLt; omega⟩
  have h13 : 1 / 2 < 1 / √3 ∧ 1 / √3 < 1 := by
    constructor
    · exact one_div_lt_one_div_of_lt hs hs3
    · rw [div_lt_one hs]; exact hs1
  obtain ⟨g1, g2⟩ := h13
  have hval : ∀ x : ∀ i, Fin (d i), (x 0 : ℕ) = 0 ∨ (x 0 : ℕ) = 1 := fun x => by have := (hr x).1; omega
  have hval' : ∀ x : ∀ i, Fin (d i), (x 1 : ℕ) = 0 ∨ (x 1 : ℕ) = 1 ∨ (x 1 : ℕ) = 2 := fun x => by have := (hr x).2; omega
  have hirr : 2 * (1 / √3) ≠ 1 := by
    intro h
    have : √3 = 2 := by field_simp at h; linarith
    linarith
  set t := 1 / √3 with ht
  refine ⟨a, b, e, ha, hb, he, hlad, ?_, ?_, ?_, ?_⟩
  · intro x z hz
    rw [hlad, hlad] at hz
    rcases hval x with p | p <;> rcases hval z with q | q <;> rcases hval' x with r | r | r <;> rcases hval' z with s | s | s <;>
      rw [p, q, r, s] at hz <;> first | exact hext _ _ (by omega) (by omega) | (exfalso; push_cast at hz; linarith)
  · refine C129_position _ a 3 0 (by norm_num) ?_
    rw [Nat.card_eq_zero]
    left
    refine ⟨fun ⟨z, hz⟩ => ?_⟩
    rw [hlad, hlad, ha.1, ha.2] at hz
    have : 0 ≤ t * (z 1 : ℕ) := by positivity
    have : (0 : ℝ) ≤ (z 0 : ℕ) := by positivity
    push_cast at hz
    linarith
  · refine C129_position _ b 3 1 (by norm_num) ?_
    rw [Nat.card_eq_fintype_card, Fintype.card_subtype, Finset.card_eq_one]
    refine ⟨a, ?_⟩
    ext z
    rw [Finset.mem_filter, Finset.mem_singleton, hlad, hlad, hb.1, hb.2]
    constructor
    · rintro ⟨-, hz⟩
      rcases hval z with q | q <;> rcases hval' z with s | s | s <;> rw [q, s] at hz <;>
        first | exact hext _ _ (by omega) (by omega) | (exfalso; push_cast at hz; linarith)
    · rintro rfl
      refine ⟨Finset.mem_univ _, ?_⟩
      rw [ha.1, ha.2]
      push_cast
      linarith
  · refine C129_position _ e 3 2 (by norm_num) ?_
    rw [Nat.card_eq_fintype_card, Fintype.card_subtype, Finset.card_eq_two]
    refine ⟨a, b, fun h => by rw [h] at ha; omega, ?_⟩
    ext z
    rw [Finset.mem_filter, Finset.mem_insert, Finset.mem_singleton, hlad, hlad, he.1, he.2]
    constructor
    · rintro ⟨-, hz⟩
      rcases hval z with q | q <;> rcases hval' z with s | s | s <;> rw [q, s] at hz <;>
        first | exact .inl (hext _ _ (by omega) (by omega)) | exact .inr (hext _ _ (by omega) (by omega)) |
          (exfalso; push_cast at hz; linarith)
    · rintro (rfl | rfl)
      · refine ⟨Finset.mem_univ _, ?_⟩
        rw [ha.1, ha.2]
        push_cast
        linarith
      · refine ⟨Finset.mem_univ _, ?_⟩
        rw [hb.1, hb.2]
        push_cast
        linarith

/-- Two LC resonators with L = 1 and C = 1, coupled by a capacitor C = 1: the odd mode has frequency 1/√3 and the even one
frequency 1.  If the coupling capacitor has quality factor 20 and the others 10, the first excited state, one quantum in
the odd mode, decays with 1/Q = 1/15 since two thirds of the capacitive energy are in the coupling capacitor; the second,
one quantum in the even mode, with 1/Q = 1/10; and the second does not decay to the first. -/
theorem C129_example : ∃ (c : CircSpec) (eigs : EigsFn) (as : List ℂ → List ℕ) (w0 : World (circPhys c eigs as))
    (noise : ObjNoise) (env : NoiseEnv),
    EigsLowest eigs ∧ CArgsortSpec as ∧ CapsOK c.O ∧ Linear c.O c.els ∧ c.els = [((0, 1), [0]), ((0, 2), [2]), ((1, 2), [4])] ∧
    env.T = 1 ∧ construct (circPhys c eigs as) (fun _ => 1) (fun _ => 0) 1 = .ok w0 ∧
    sessionRate noise env "capacitive" (1, 0) false (diag (some 3) (run w0 [.setTruncNums (.list [2, 3])])).2 =
      some (.ok (.val ((bose (hbar * (1 / √3) / kB) + 1) * (1 / √3 * (1 / 15))))) ∧
    sessionRate noise env "capacitive" (2, 0) false (diag (some 3) (run w0 [.setTruncNums (.list [2, 3])])).2 =
      some (.ok (.val ((bose (hbar * 1 / kB) + 1) * (1 * (1 / 10))))) ∧
    sessionRate noise env "inductive" (2, 0) false (diag (some 3) (run w0 [.setTruncNums (.list [2, 3])])).2 =
      some (.ok (.val ((bose (hbar * 1 / kB) + 1) * (1 * (1 / 5))))) ∧
    sessionRate noise env "capacitive" (2, 1) false (diag (some 3) (run w0 [.setTruncNums (.list [2, 3])])).2 =
      some (.ok (.val 0)) := by
  choose lib hlib using exists_lib
  choose argmax hm using exists_argmax
  obtain ⟨argsort, hsrt⟩ := exists_argsort
  obtain ⟨eigs, he⟩ := exists_eigs_lowest
  obtain ⟨as, ha⟩ := exists_cargsort
  have hn : numNodes coupEls = .ok 2 := rfl
  have hv : ValidElements 2 coupEls := by
    intro p hp
    simp [coupEls] at hp
    rcases hp with rfl | rfl | rfl <;> simp [ValidEdge]
  have hg : GroundConnected 2 coupEls := by
    intro k hk
    interval_cases k
    · exact .refl
    · exact .single ⟨((0, 1), [0]), by simp [coupEls], by simp, by simp⟩
    · exact .single ⟨((0, 2), [2]), by simp [coupEls], by simp, by simp⟩
  have hi : InductivelyGrounded 2 pairObjs coupEls := by
    intro k hk
    interval_cases k
    · exact .refl
    · exact .single ⟨((0, 1), 0), by simp [placements, coupEls], by simp [pairObjs], by simp⟩
    · exact .single ⟨((0, 2), 2), by simp [placements, coupEls], by simp [pairObjs], by simp⟩
  have hgood := pair_good (argsort := argsort) hlib hm hn hv hg coup_ind
  obtain ⟨w0, hw, ho, hlast, hvals, hfl, hmm, hu⟩ := pair_session (argsort := argsort) hlib hm hn hv hg coup_ind hi eigs as [2, 3]
    rfl (by simp)
  let noise : ObjNoise := ⟨fun i => some fun _ => if i = 4 then 20 else 10, fun _ _ _ => some 5, fun _ _ _ => none, fun _ => 0,
    fun _ => 0⟩
  let env : NoiseEnv := ⟨1, 1, 1⟩
  have key := C129_network (c := pairSpec coupEls lib argsort argmax) he ha pair_caps (pair_linear _) _ _ _ w0 hw
    _ ho noise env (by simp [env]) hlast (by rw [hvals]; exact hgood) hfl (by rw [hmm]; simp)
  obtain ⟨n, k, ω, κ, y, hn', hmod, -, hpat, horth, hrate⟩ := key
  obtain rfl : n = 2 := Except.ok.inj (hn'.symm.trans hn)
  obtain rfl : k = 2 := hmod.number
  have eC : nodeCap 2 ((pairSpec coupEls lib argsort argmax).O.withVals
      (run w0 [.setTruncNums (.list [2, 3])]).vals) (pairSpec coupEls lib argsort argmax).els = !![2, -1; -1, 2] := by
    rw [hvals]; exact coup_cap
  have eL : nodeInvInd 2 ((pairSpec coupEls lib argsort argmax).O.withVals
      (run w0 [.setTruncNums (.list [2, 3])]).vals) (pairSpec coupEls lib argsort argmax).els = 1 := by
    rw [hvals]; exact coup_ind
  rw [eC, eL] at hpat
  rw [eC] at horth
  obtain ⟨w1, w2, ⟨ya, yb⟩, yc, yd⟩ := coup_modes hmod.nonneg hmod.descending hpat (horth 0 1 (by simp))
  obtain ⟨a, b, e, ⟨a0, a1⟩, ⟨b0, b1⟩, ⟨e0, e1⟩, hlad, honly, l0, l1, l2⟩ := coup_states (κ := κ)
    (ng := fun i : Fin 2 => ((run w0 [.setTruncNums (.list [2, 3])]).circ.ng i).getD 0) w1 w2
    (fun i : Fin 2 => ((run w0 [.setTruncNums (.list [2, 3])]).circ.m.getD i 0).toNat) (by rw [hmm]; rfl) (by rw [hmm]; rfl)
  have hprod : 3 + 1 < ∏ i : Fin 2, ((run w0 [.setTruncNums (.list [2, 3])]).circ.m.getD i 0).toNat := by
    rw [hmm, Fin.prod_univ_two]
    decide
  have hs1 : 1 / √3 < 1 := by
    rw [div_lt_one (by positivity)]
    rw [Real.lt_sqrt zero_le_one]
    norm_num
  have hs0 : 0 < 1 / √3 := by positivity
  have hsmall : ∀ x : ℝ, x ≤ 2 → hbar * x / (kB * 1) ≤ 709 := by
    intro x hx
    have hp : 0 < kB := by unfold kB; norm_num
    rw [div_le_iff₀ (by linarith)]
    have : hbar * x ≤ hbar * 2 := mul_le_mul_of_nonneg_left hx (by unfold hbar; norm_num)
    refine this.trans ?_
    unfold hbar kB
    norm_num
  have q1 : OneQuantum b a 1 := ⟨by omega, fun j hj => by
    obtain rfl : j = 0 := by omega
    exact Fin.ext (by omega)⟩
  have q2 : OneQuantum e a 0 := ⟨by omega, fun j hj => by
    obtain rfl : j = 1 := by omega
    exact Fin.ext (by omega)⟩
  have r1 := (hrate 3 1 0 hprod (by norm_num) (by norm_num) b a l1 l0 (honly b) (honly a)
    (fun h => by rw [h] at b1; omega) (by
      refine hsmall _ ?_
      rw [hlad, hlad, a0, a1, b0, b1, abs_le]
      push_cast
      constructor <;> linarith) false).1 1 q1 (by rw [w2]; positivity)
  have r2 := (hrate 3 2 0 hprod (by norm_num) (by norm_num) e a l2 l0 (honly e) (honly a)
    (fun h => by rw [h] at e0; omega) (by
      refine hsmall _ ?_
      rw [hlad, hlad, a0, a1, e0, e1, abs_le]
      push_cast
      constructor <;> linarith) false).1 0 q2 (by rw [w1]; norm_num)
  have r3 := (hrate 3 2 1 hprod (by norm_num) (by norm_num) e b l2 l1 (honly e) (honly b)
    (fun h => by rw [h] at e0; omega) (by
      refine hsmall _ ?_
      rw [hlad, hlad, b0, b1, e0, e1, abs_le]
      push_cast
      constructor <;> linarith) false).2 (fun i hq => by
        exfalso
        by_cases h0 : i = 0
        · have := congrArg Fin.val (hq.2 1 (by omega))
          omega
        · have := congrArg Fin.val (hq.2 0 (by omega))
          omega)
  have pl : placements coupEls = [((0, 1), 0), ((0, 2), 2), ((1, 2), 4)] := rfl
  have pi' : placedInds pairObjs coupEls = [((0, 1), 0), ((0, 2), 2)] := rfl
  have c1 : capQinv pairObjs coupEls noise (fun _ => 1) (1 / √3) (y 1) = 1 / 15 := by
    unfold capQinv
    rw [pl]
    simp [noise, capShare, capacitorOf, pairObjs, branchDiff, pot, yc]
    linear_combination (2 / 5 : ℝ) * yd
  have c2 : capQinv pairObjs coupEls noise (fun _ => 1) 1 (y 0) = 1 / 10 := by
    unfold capQinv
    rw [pl]
    simp [noise, capShare, capacitorOf, pairObjs, branchDiff, pot, ya]
    linear_combination (1 / 5 : ℝ) * yb
  have c3 : indQinv pairObjs coupEls noise (fun _ => 1) 1 1 (y 0) = 1 / 5 := by
    unfold indQinv
    rw [pi']
    simp [noise, indShare, branchDiff, pot, ya]
    linear_combination (2 / 5 : ℝ) * yb
  have hq1 : ∀ x, quanta x 1 0 false = bose x + 1 := fun x => by simp [quanta]
  have hq2 : ∀ x, quanta x 2 0 false = bose x + 1 := fun x => by simp [quanta]
  rw [hvals, w2, b1, a1] at r1
  rw [hvals, w1, e0, a0] at r2
  refine ⟨pairSpec coupEls lib argsort argmax, eigs, as, w0, noise, env, he, ha, pair_caps, pair_linear _, rfl, rfl, hw,
    r1.1.trans ?_, r2.1.trans ?_, r2.2.trans ?_, r3.1⟩
  · rw [show kB * env.T = kB from mul_one kB, hq1]
    refine congrArg (fun x => some (Except.ok (Rate.val x))) ?_
    change _ * (_ * capQinv pairObjs coupEls noise (fun _ => 1) (1 / √3) (y 1)) = _
    rw [c1]
    push_cast
    norm_num
  · rw [show kB * env.T = kB from mul_one kB, hq2]
    refine congrArg (fun x => some (Except.ok (Rate.val x))) ?_
    change _ * (_ * capQinv pairObjs coupEls noise (fun _ => 1) 1 (y 0)) = _
    rw [c2]
    push_cast
    norm_num
  · rw [show kB * env.T = kB from mul_one kB, hq2]
    refine congrArg (fun x => some (Except.ok (Rate.val x))) ?_
    change _ * (_ * indQinv pairObjs coupEls noise (fun _ => 1) 1 1 (y 0)) = _
    rw [c3]
    push_cast
    norm_num

end SQ
