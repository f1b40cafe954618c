import Verif.Props.ResonatorLoss
import Verif.Props.LinearExample

/-!
# C114: a concrete resonator
-/

namespace SQ
open Matrix Spec

/-- An LC resonator with L = 1 and C = 1 + 1 whose capacitors have quality factor 10 and whose inductor has quality
factor 5, at temperature 1: rates of emission from state 2 to state 1 and from state 2 to state 0. -/
theorem C114_example : ∃ (c : CircSpec) (eigs : EigsFn) (as : List ℂ → List ℕ) (w0 : World (circPhys c eigs as))
    (noise : ObjNoise) (env : NoiseEnv),
    EigsLowest eigs ∧ CArgsortSpec as ∧ CapsOK c.O ∧ Linear c.O c.els ∧ c.els = [((0, 1), [0, 1])] ∧ env.T = 1 ∧
    construct (circPhys c eigs as) (fun _ => 1) (fun _ => 0) 1 = .ok w0 ∧
    sessionRate noise env "capacitive" (2, 1) false (diag (some 3) (run w0 [.setTruncNums (.list [6])])).2 =
      some (.ok (.val ((bose (hbar * (1 / √2) / kB) + 1) * (1 / √2 * 2 / 10)))) ∧
    sessionRate noise env "inductive" (2, 1) false (diag (some 3) (run w0 [.setTruncNums (.list [6])])).2 =
      some (.ok (.val ((bose (hbar * (1 / √2) / kB) + 1) * (1 / √2 * 2 / 5)))) ∧
    sessionRate noise env "capacitive" (2, 0) false (diag (some 3) (run w0 [.setTruncNums (.list [6])])).2 =
      some (.ok (.val 0)) := by
  choose lib hlib using exists_lib
  choose argmax hm using exists_argmax
  obtain ⟨argsort, hsrt⟩ := exists_argsort
  obtain ⟨eigs, he⟩ := exists_eigs_lowest
  obtain ⟨as, ha⟩ := exists_cargsort
  have hn : numNodes resEls = .ok 1 := rfl
  have hv : ValidElements 1 resEls := by
    intro p hp
    simp [resEls] at hp
    subst hp
    simp [ValidEdge]
  have hg : GroundConnected 1 resEls := by
    intro k hk
    interval_cases k
    · exact .refl
    · exact .single ⟨((0, 1), [0, 1]), by simp [resEls], by simp, by simp⟩
  have hL : nodeInvInd 1 (pairObjs.withVals fun _ => 1) resEls = 1 := by
    ext i j
    fin_cases i; fin_cases j
    simp [nodeInvInd, placements, resEls, placedInvInd, Objs.withVals, pairObjs, edgeMat, incidence]
  have hi : InductivelyGrounded 1 pairObjs resEls := by
    intro k hk
    interval_cases k
    · exact .refl
    · exact .single ⟨((0, 1), 0), by simp [placements, resEls], by simp [pairObjs], by simp⟩
  have hgood := pair_good (argsort := argsort) hlib hm hn hv hg hL
  obtain ⟨w0, hw, ho, hlast, hvals, hfl, hmm, hu⟩ := pair_session (argsort := argsort) hlib hm hn hv hg hL hi eigs as [6] rfl
    (by simp)
  have hedge : ∀ p ∈ (pairSpec resEls lib argsort argmax).els, p.1 = (0, 1) := by
    intro p hp
    simp [pairSpec, resEls] at hp
    rw [hp]
  have hind : ∃ q ∈ placements (pairSpec resEls lib argsort argmax).els,
      ((pairSpec resEls lib argsort argmax).O.elem q.2).kind = .ind :=
    ⟨((0, 1), 0), by simp [pairSpec, placements, resEls], by simp [pairSpec, pairObjs]⟩
  have e0 : placements (pairSpec resEls lib argsort argmax).els = [((0, 1), 0), ((0, 1), 1)] := rfl
  have ei : inductorsOf (pairSpec resEls lib argsort argmax).O (pairSpec resEls lib argsort argmax).els = [0] := rfl
  have e1 : allInd (pairSpec resEls lib argsort argmax).O (pairSpec resEls lib argsort argmax).els (fun _ => 1) = 1 := by
    rw [allInd, ei]
    simp
  have e2 : allCap (pairSpec resEls lib argsort argmax).O (pairSpec resEls lib argsort argmax).els (fun _ => 1) = 2 := by
    rw [allCap, e0]
    norm_num
  let noise : ObjNoise := ⟨fun _ => some fun _ => 10, fun _ _ _ => some 5, fun _ _ _ => none, fun _ => 0, fun _ => 0⟩
  let env : NoiseEnv := ⟨1, 1, 1⟩
  have e3 : ∀ ω, capDissipation (pairSpec resEls lib argsort argmax).O (pairSpec resEls lib argsort argmax).els noise
      (fun _ => 1) ω = 1 / 10 := by
    intro ω
    rw [capDissipation, e0, e2]
    simp only [noise, List.map_cons, List.map_nil, List.sum_cons, List.sum_nil]
    norm_num
  have e4 : ∀ ω T, indDissipation (pairSpec resEls lib argsort argmax).O (pairSpec resEls lib argsort argmax).els noise
      (fun _ => 1) ω T = 1 / 5 := by
    intro ω T
    rw [indDissipation, ei, e1]
    simp only [noise, List.map_cons, List.map_nil, List.sum_cons, List.sum_nil]
    norm_num
  have hsq : 1 / √(1 * 2 : ℝ) ≤ 1 := by
    rw [one_mul, div_le_one (by positivity)]
    exact Real.one_le_sqrt.2 (by norm_num)
  have hsq0 : 0 ≤ 1 / √(1 * 2 : ℝ) := by positivity
  have hsmall : ∀ x : ℝ, x ≤ 2 → hbar * x / (kB * 1) ≤ 709 := by
    intro x hx
    have hp : 0 < kB := by unfold kB; norm_num
    rw [div_le_iff₀ (by linarith)]
    have : hbar * x ≤ hbar * 2 := mul_le_mul_of_nonneg_left hx (by unfold hbar; norm_num)
    refine this.trans ?_
    unfold hbar kB
    norm_num
  have key := C114_resonator (c := pairSpec resEls lib argsort argmax) he ha pair_caps (pair_linear _) hedge hind _ _ _ w0 hw
    _ ho noise env (by simp [env]) hlast (by rw [hvals]; exact hgood) hfl (by rw [hmm]; simp) 3 (by rw [hmm]; decide)
    (by rw [hvals, e1, e2]; exact hsmall _ (by linarith)) 2 1 (by norm_num) (by norm_num) (by norm_num) false
  have key2 := C114_selection (c := pairSpec resEls lib argsort argmax) he ha pair_caps (pair_linear _) hedge hind _ _ _ w0 hw
    _ ho noise env (by simp [env]) hlast (by rw [hvals]; exact hgood) hfl (by rw [hmm]; simp) 3 (by rw [hmm]; decide)
    2 0 (by norm_num) (by norm_num) (by norm_num) (by norm_num) (by norm_num)
    (by
      rw [hvals, e1, e2]
      refine hsmall _ ?_
      rw [abs_le]
      constructor <;> push_cast <;> linarith) false
  rw [hvals, e1, e2, e3, e4] at key
  have hq : ∀ x, quanta x 2 1 false = bose x + 1 := fun x => by simp [quanta]
  rw [hq, one_mul] at key
  refine ⟨_, eigs, as, w0, noise, env, he, ha, pair_caps, pair_linear _, rfl, rfl, hw, key.1.trans ?_, key.2.trans ?_, key2.1⟩
  · rw [show kB * env.T = kB from mul_one kB, show (max 2 1 : ℕ) = 2 from rfl]
    refine congrArg (fun x => some (Except.ok (Rate.val x))) ?_
    push_cast
    ring
  · rw [show kB * env.T = kB from mul_one kB, show (max 2 1 : ℕ) = 2 from rfl]
    refine congrArg (fun x => some (Except.ok (Rate.val x))) ?_
    push_cast
    ring

end SQ
