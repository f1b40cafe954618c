import Verif.Props.FromEnd
import Verif.Props.ResonatorSlopeExample

/-!
# C124: a concrete circuit
-/

namespace SQ
open Matrix Spec

/-- C124, refuted: an LC resonator with L = 1 and C = 1 + 1, capacitors of quality factor 10, temperature 1, three states
computed. State 2 is also state -1. The rate from state 2 to state 1 is that of emission, (n+1)·2ω/Q; asked for the rate
from state -1 to state 1, `dec_rate` returns that of absorption, n·2ω/Q. -/
theorem C124_refuted : ∃ (c : CircSpec) (eigs : EigsFn) (as : List ℂ → List ℕ) (w0 : World (circPhys c eigs as))
    (noise : ObjNoise) (env : NoiseEnv),
    EigsLowest eigs ∧ CArgsortSpec as ∧ CapsOK c.O ∧ Linear c.O c.els ∧ c.els = [((0, 1), [0, 1])] ∧ env.T = 1 ∧
    construct (circPhys c eigs as) (fun _ => 1) (fun _ => 0) 1 = .ok w0 ∧
    let w := (diag (some 3) (run w0 [.setTruncNums (.list [6])])).2
    sessionRate noise env "capacitive" (2, 1) false w =
      some (.ok (.val ((bose (hbar * (1 / √2) / kB) + 1) * (1 / √2 * 2 / 10)))) ∧
    sessionRate noise env "capacitive" (-1, 1) false w =
      some (.ok (.val (bose (hbar * (1 / √2) / kB) * (1 / √2 * 2 / 10)))) ∧
    sessionRate noise env "capacitive" (-1, 1) false w ≠ sessionRate noise env "capacitive" (2, 1) false w ∧
    sessionRate noise env "capacitive" (-1, 1) true w = sessionRate noise env "capacitive" (2, 1) true w := by
  choose lib hlib using exists_lib
  choose argmax hm using exists_argmax
  obtain ⟨argsort, hsrt⟩ := exists_argsort
  obtain ⟨eigs, he⟩ := exists_eigs_lowest
  obtain ⟨as, ha⟩ := exists_cargsort
  have hn : numNodes resEls = .ok 1 := rfl
  have hv : ValidElements 1 resEls := by
    intro p hp
    simp [resEls] at hp
    subst hp
    simp [ValidEdge]
  have hg : GroundConnected 1 resEls := by
    intro k hk
    interval_cases k
    · exact .refl
    · exact .single ⟨((0, 1), [0, 1]), by simp [resEls], by simp, by simp⟩
  have hL : nodeInvInd 1 (pairObjs.withVals fun _ => 1) resEls = 1 := by
    ext i j
    fin_cases i; fin_cases j
    simp [nodeInvInd, placements, resEls, placedInvInd, Objs.withVals, pairObjs, edgeMat, incidence]
  have hi : InductivelyGrounded 1 pairObjs resEls := by
    intro k hk
    interval_cases k
    · exact .refl
    · exact .single ⟨((0, 1), 0), by simp [placements, resEls], by simp [pairObjs], by simp⟩
  have hgood := pair_good (argsort := argsort) hlib hm hn hv hg hL
  obtain ⟨w0, hw, ho, hlast, hvals, hfl, hmm, hu⟩ := pair_session (argsort := argsort) hlib hm hn hv hg hL hi eigs as [6] rfl
    (by simp)
  have hedge : ∀ p ∈ (pairSpec resEls lib argsort argmax).els, p.1 = (0, 1) := by
    intro p hp
    simp [pairSpec, resEls] at hp
    rw [hp]
  have hind : ∃ q ∈ placements (pairSpec resEls lib argsort argmax).els,
      ((pairSpec resEls lib argsort argmax).O.elem q.2).kind = .ind :=
    ⟨((0, 1), 0), by simp [pairSpec, placements, resEls], by simp [pairSpec, pairObjs]⟩
  have e0 : placements (pairSpec resEls lib argsort argmax).els = [((0, 1), 0), ((0, 1), 1)] := rfl
  have ei : inductorsOf (pairSpec resEls lib argsort argmax).O (pairSpec resEls lib argsort argmax).els = [0] := rfl
  have e1 : allInd (pairSpec resEls lib argsort argmax).O (pairSpec resEls lib argsort argmax).els (fun _ => 1) = 1 := by
    rw [allInd, ei]
    simp
  have e2 : allCap (pairSpec resEls lib argsort argmax).O (pairSpec resEls lib argsort argmax).els (fun _ => 1) = 2 := by
    rw [allCap, e0]
    norm_num
  let noise : ObjNoise := ⟨fun _ => some fun _ => 10, fun _ _ _ => some 5, fun _ _ _ => none, fun _ => 0, fun _ => 0⟩
  let env : NoiseEnv := ⟨1, 1, 1⟩
  have e3 : ∀ ω, capDissipation (pairSpec resEls lib argsort argmax).O (pairSpec resEls lib argsort argmax).els noise
      (fun _ => 1) ω = 1 / 10 := by
    intro ω
    rw [capDissipation, e0, e2]
    simp only [noise, List.map_cons, List.map_nil, List.sum_cons, List.sum_nil]
    norm_num
  have hsq : 1 / √(1 * 2 : ℝ) ≤ 1 := by
    rw [one_mul, div_le_one (by positivity)]
    exact Real.one_le_sqrt.2 (by norm_num)
  have hsq0 : 0 ≤ 1 / √(1 * 2 : ℝ) := by positivity
  have hsmall : ∀ x : ℝ, x ≤ 2 → hbar * x / (kB * 1) ≤ 709 := by
    intro x hx
    have hp : 0 < kB := by unfold kB; norm_num
    rw [div_le_iff₀ (by linarith)]
    have : hbar * x ≤ hbar * 2 := mul_le_mul_of_nonneg_left hx (by unfold hbar; norm_num)
    refine this.trans ?_
    unfold hbar kB
    norm_num
  have key := C114_resonator (c := pairSpec resEls lib argsort argmax) he ha pair_caps (pair_linear _) hedge hind _ _ _ w0 hw
    _ ho noise env (by simp [env]) hlast (by rw [hvals]; exact hgood) hfl (by rw [hmm]; simp) 3 (by rw [hmm]; decide)
    (by rw [hvals, e1, e2]; exact hsmall _ (by linarith)) 2 1 (by norm_num) (by norm_num) (by norm_num) false
  have key' := C114_resonator (c := pairSpec resEls lib argsort argmax) he ha pair_caps (pair_linear _) hedge hind _ _ _ w0 hw
    _ ho noise env (by simp [env]) hlast (by rw [hvals]; exact hgood) hfl (by rw [hmm]; simp) 3 (by rw [hmm]; decide)
    (by rw [hvals, e1, e2]; exact hsmall _ (by linarith)) 1 2 (by norm_num) (by norm_num) (by norm_num) false
  rw [hvals, e1, e2, e3] at key key'
  have hq : ∀ x, quanta x 2 1 false = bose x + 1 := fun x => by simp [quanta]
  have hq' : ∀ x, quanta x 1 2 false = bose x := fun x => by simp [quanta]
  rw [hq, one_mul] at key
  rw [hq', one_mul] at key'
  have k1 : sessionRate noise env "capacitive" (2, 1) false (diag (some 3) (run w0 [.setTruncNums (.list [6])])).2 =
      some (.ok (.val ((bose (hbar * (1 / √2) / kB) + 1) * (1 / √2 * 2 / 10)))) := by
    refine key.1.trans ?_
    rw [show kB * env.T = kB from mul_one kB, show (max 2 1 : ℕ) = 2 from rfl]
    refine congrArg (fun x => some (Except.ok (Rate.val x))) ?_
    push_cast
    ring
  have k2 : sessionRate noise env "capacitive" (1, 2) false (diag (some 3) (run w0 [.setTruncNums (.list [6])])).2 =
      some (.ok (.val (bose (hbar * (1 / √2) / kB) * (1 / √2 * 2 / 10)))) := by
    refine key'.1.trans ?_
    rw [show kB * env.T = kB from mul_one kB, show (max 1 2 : ℕ) = 2 from rfl]
    refine congrArg (fun x => some (Except.ok (Rate.val x))) ?_
    push_cast
    ring
  have hcard : ∀ (k : ℕ) (d : Fin k → ℕ) (i : Fin k), k = 1 → Fintype.card (Idx d) = d i := by
    rintro k d i rfl
    rw [Subsingleton.elim i 0]
    show Fintype.card (∀ i : Fin 1, Fin (d i)) = _
    simp
  have hb : buildCirc (pairSpec resEls lib argsort argmax) (run w0 [.setTruncNums (.list [6])]).vals =
      .ok (run w0 [.setTruncNums (.list [6])]).circ.bd :=
    linear_bd_now pair_caps (pair_linear _) _ _ _ w0 hw _ ho hlast hgood.noSelf
  obtain ⟨hk1, -⟩ := resonator_core (c := pairSpec resEls lib argsort argmax) (by rw [hvals]; exact hgood) (pair_linear _) hb hedge hind
  obtain ⟨s1, -, s3⟩ := C124_session (c := pairSpec resEls lib argsort argmax) he ha hgood.noSelf _ _ _ w0 hw _ ho
    (by rw [hmm]; simp) 3 (by
      rw [hcard _ _ ⟨0, by omega⟩ hk1]
      show 3 + 1 < ((run w0 [.setTruncNums (.list [6])]).circ.m.getD 0 0).toNat
      rw [hmm]
      decide) noise env (-1) 1 2 1 ⟨by norm_num, Or.inr (by norm_num)⟩ ⟨by norm_num, Or.inl (by norm_num)⟩
  have k3 := ((s3 (by norm_num) "capacitive" (by simp [lossTypes])).2 (by norm_num)).trans k2
  refine ⟨_, eigs, as, w0, noise, env, he, ha, pair_caps, pair_linear _, rfl, rfl, hw, k1, k3, ?_, s1 _⟩
  have k3' := k3
  intro hne
  have := (k3'.symm.trans hne).trans k1
  have h4 := Rate.val.inj (Except.ok.inj (Option.some.inj this))
  have hpos : (0 : ℝ) < 1 / √2 * 2 / 10 := by positivity
  nlinarith

/-- C124, refuted, `get_partial_vec`: an LC resonator with L = 1 and C = 1 + 1, three states computed: the derivative of the
ground state with respect to the inductance is not the same named 0 and named -N, with N the number of states computed,
whatever the frequencies held. -/
theorem C124_vec_circuit : ∃ (c : CircSpec) (eigs : EigsFn) (as : List ℂ → List ℕ) (w0 : World (circPhys c eigs as))
    (f : List ℝ),
    let w := run w0 [.setTruncNums (.list [6])]
    ∃ (ev : List (Idx (w.circ.bd.dims w.circ.m) → ℂ)) (a : Acc w.circ.bd.n),
    EigsLowest eigs ∧ CArgsortSpec as ∧ c.els = [((0, 1), [0, 1])] ∧
    construct (circPhys c eigs as) (fun _ => 1) (fun _ => 0) 1 = .ok w0 ∧
    (diag (some 3) w).1 = .ok (f, ev.map fun v => ⟨_, _, v⟩) ∧
    traverse c.torch c.fd (c.O.withVals w.vals) w.circ.bd.n c.h c.els = .ok a ∧
    ∀ freqs : List ℝ, freqs.length = ev.length → partialVec ev freqs (partialH w.circ.bd.C w.circ.bd.M
        (buildMem w.circ.bd.M.data (w.circ.bd.dims w.circ.m) (fun i => (w.circ.ng i).getD 0)) w.vals w.circ.bd.B
        (fun j => w.flux (w.circ.bd.loops.get j)) a.st.partialMats w.circ.bd.inds w.circ.bd.juns none
        (gradElOf c.O _ 0)) (-(ev.length : ℤ)) (1 / 1000000000000) ≠
    partialVec ev freqs (partialH w.circ.bd.C w.circ.bd.M
        (buildMem w.circ.bd.M.data (w.circ.bd.dims w.circ.m) (fun i => (w.circ.ng i).getD 0)) w.vals w.circ.bd.B
        (fun j => w.flux (w.circ.bd.loops.get j)) a.st.partialMats w.circ.bd.inds w.circ.bd.juns none
        (gradElOf c.O _ 0)) 0 (1 / 1000000000000) := by
  obtain ⟨c, eigs, as, w0, F, f, ev, a, D, he, ha, hels, -, hw, -, hd, htr, -, -, -, hp, -⟩ := C115_refuted
  refine ⟨c, eigs, as, w0, f, ev, a, he, ha, hels, hw, hd, htr, ?_⟩
  intro freqs hl
  have h0 : 0 < ev.length := by
    by_contra h
    have h' : ev.length = 0 := by omega
    unfold partialOmega at hp
    rw [if_pos h'] at hp
    cases hp
  have := C124_vec_refuted ev freqs hl _ (1 / 1000000000000) (by norm_num) ⟨0, h0⟩ _ hp
    (by
      have : 0 < 1 / √2 / 4 := by positivity
      linarith)
  have e : ((((⟨0, h0⟩ : Fin ev.length) : ℕ) : ℤ) - (ev.length : ℤ)) = -(ev.length : ℤ) := by simp
  rw [e] at this
  exact this

end SQ
