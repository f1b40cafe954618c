import Verif.Spec.FluxKinds
import Verif.Lemmas.FluxKinds
import Verif.Props.LoopSigns

/-!
# C135: which elements carry the external fluxes
-/

namespace SQ
open Matrix Spec Real

theorem fluxCap_carrier {O : Objs} {fd : FluxDist} {kd : Kind} (hfd : carrier fd = some kd) {i : ElemId} (hi : (O.elem i).kind ≠ .cap) :
    fluxCap O fd i = if (O.elem i).kind = kd then 1e-20 else 1e20 := by
  unfold fluxCap
  cases fd
  case all => cases hfd
  all_goals
    injection hfd with hfd
    subst hfd
    cases hk : (O.elem i).kind
    · exact absurd hk hi
    · simp
    · simp

section
variable {c : CircSpec} {n : ℕ} {vals : ElemId → ℝ} {b : Build} {kd : Kind}

theorem place_kind (O : Objs) (els : Elements) (i : Fin (inductivePlacements O els).length) :
    (O.elem ((inductivePlacements O els).get i).2).kind ≠ .cap := by
  have := List.of_mem_filter (List.get_mem (inductivePlacements O els) i)
  simpa using this

/-- with an element of its own in every loop, the exact shares of all other elements are below 1e-20 -/
theorem shares_small {fst : LoopId → Option ℕ} {G B0} (hs : LoopShares n c.O (inductivePlacements c.O c.els) fst
      (fluxCap (c.O.withVals vals) c.fd) (firstUses ((loopUses c.O c.els).map Prod.fst)) G B0)
    (hfd : carrier c.fd = some kd) (hown : OwnElements n c.O c.els kd) {l : LoopId}
    (hl : l ∈ firstUses ((loopUses c.O c.els).map Prod.fst)) (i : Fin (inductivePlacements c.O c.els).length)
    (hi : (c.O.elem ((inductivePlacements c.O c.els).get i).2).kind ≠ kd) : |B0 i l| ≤ 1e-20 := by
  obtain ⟨j, hj⟩ := (mem_usedLoops l c.els).1 hl
  obtain ⟨i0, ho⟩ := hown _ (List.get_mem _ j) l hj
  have hcap : ∀ i : Fin (inductivePlacements c.O c.els).length, fluxCap (c.O.withVals vals) c.fd ((inductivePlacements c.O c.els).get i).2 =
      if (c.O.elem ((inductivePlacements c.O c.els).get i).2).kind = kd then 1e-20 else 1e20 :=
    fun i => fluxCap_carrier hfd (place_kind c.O c.els i)
  have hg0 : G l i0 ≠ 0 := by
    intro h0
    have := ho.needed (G l) h0 (hs.support l hl) (hs.closes l hl)
    obtain ⟨i1, -, h1, -⟩ := hs.first l hl
    rw [this] at h1
    simp at h1
  have hgs : G l i0 * G l i0 = 1 := by
    rcases hs.sign l hl i0 with h | h | h
    · exact absurd h hg0
    · rw [h]; norm_num
    · rw [h]; norm_num
  let x : Fin (inductivePlacements c.O c.els).length → ℝ := fun i => if i = i0 then G l i0 else 0
  have hmin := least_energy (ι := {l // l ∈ firstUses ((loopUses c.O c.els).map Prod.fst)})
    (fun (k : Fin n) (i : Fin (inductivePlacements c.O c.els).length) => (incidence ((inductivePlacements c.O c.els).get i).1 (k + 1) : ℝ))
    (fun i => fluxCap (c.O.withVals vals) c.fd ((inductivePlacements c.O c.els).get i).2) (fun i => by rw [hcap]; split_ifs <;> norm_num)
    (fun l => G l.1) (fun l k => hs.closes l.1 l.2 k) (by
      intro v hv1 hv2
      have := hs.unique l hl (fun i => B0 i l + v i) (fun l' hl' => by
        have := hv1 ⟨l', hl'⟩
        simp only [mul_add, Finset.sum_add_distrib]
        rw [this, add_zero]
        exact hs.loop l' hl' l hl) (fun k => by
        simp only [mul_add, Finset.sum_add_distrib]
        rw [hv2 k, add_zero]
        exact hs.node l hl k)
      funext i
      have := congrFun this i
      simpa using this)
    (fun i => B0 i l) x (fun k => hs.node l hl k) (by
      intro l'
      rw [hs.loop l'.1 l'.2 l hl]
      simp only [x, mul_ite, mul_zero, Finset.sum_ite_eq', Finset.mem_univ, if_true]
      by_cases h : l'.1 = l
      · rw [if_pos h, h, hgs]
      · rw [if_neg h, hs.support l'.1 l'.2 i0 (by rw [ho.only]; simpa using h), zero_mul])
  have hr : ∑ i, fluxCap (c.O.withVals vals) c.fd ((inductivePlacements c.O c.els).get i).2 * x i ^ 2 = 1e-20 := by
    rw [Finset.sum_eq_single i0]
    · rw [hcap, if_pos ho.kind]
      simp only [x, if_true]
      rw [pow_two, hgs, mul_one]
    · intro i _ hne
      simp [x, hne]
    · intro h
      exact absurd (Finset.mem_univ _) h
  have hone : fluxCap (c.O.withVals vals) c.fd ((inductivePlacements c.O c.els).get i).2 * B0 i l ^ 2 ≤ 1e-20 := by
    rw [← hr]
    refine le_trans ?_ hmin
    exact Finset.single_le_sum (f := fun i => fluxCap (c.O.withVals vals) c.fd ((inductivePlacements c.O c.els).get i).2 * B0 i l ^ 2)
      (fun i _ => mul_nonneg (by rw [hcap]; split_ifs <;> norm_num) (sq_nonneg _)) (Finset.mem_univ i)
  rw [hcap, if_neg hi] at hone
  refine abs_le_of_sq_le_sq ?_ (by norm_num)
  norm_num at hone ⊢
  linarith

/-- C135: with `flux_dist='junctions'`, if every loop has a junction of its own, no inductor carries any external phase, at any
fluxes; with `flux_dist='inductors'` the same with the roles exchanged. -/
theorem C135_flux_dist (hs : NoSelfLoops c.els) (ho : LoopsListedOnce c.O) (hsv : SvdSpec c.sv) (hn : numNodes c.els = .ok n)
    (hb : buildCirc c vals = .ok b) (hfd : carrier c.fd = some kd) (hown : OwnElements n c.O c.els kd) (flux : LoopId → ℝ)
    (i : Fin (inductivePlacements c.O c.els).length)
    (hi : (c.O.elem ((inductivePlacements c.O c.els).get i).2).kind ≠ kd) : branchPhase b flux i = 0 := by
  obtain ⟨G, B0, hsh, hp⟩ := build_shares hs ho hsv hn hb
  rw [hp]
  refine List.sum_eq_zero fun y hy => ?_
  obtain ⟨l, hl, rfl⟩ := List.mem_map.1 hy
  rw [round5_small (le_trans (shares_small hsh hfd hown hl i hi) (by norm_num)), mul_zero]

/-- C135 for circuits with one junction per loop: it carries the whole flux of its loop, and nothing of any other. -/
theorem C135_one_each (hs : NoSelfLoops c.els) (ho : LoopsListedOnce c.O) (hsv : SvdSpec c.sv) (hn : numNodes c.els = .ok n)
    (hb : buildCirc c vals = .ok b) (hfd : carrier c.fd = some kd) (hown : OwnElements n c.O c.els kd)
    (hone : OneEach c.O c.els kd) (hlen : (inductivePlacements c.O c.els).length ≤ 10 ^ 12) :
    ∃ s : LoopId → ℝ, (∀ l, s l = 1 ∨ s l = -1) ∧ ∀ (flux : LoopId → ℝ) (l : LoopId) (i),
      OwnElement n c.O (inductivePlacements c.O c.els) kd l i → branchPhase b flux i = s l * flux l := by
  obtain ⟨G, B0, hsh, hp⟩ := build_shares hs ho hsv hn hb
  have key : ∀ l, ∃ s : ℝ, (s = 1 ∨ s = -1) ∧ ∀ (flux : LoopId → ℝ) (i), OwnElement n c.O (inductivePlacements c.O c.els) kd l i → branchPhase b flux i = s * flux l := by
    intro l
    by_cases hex : ∃ i0, OwnElement n c.O (inductivePlacements c.O c.els) kd l i0
    swap
    · exact ⟨1, Or.inl rfl, fun flux i hi => absurd ⟨i, hi⟩ hex⟩
    obtain ⟨i0, hi0⟩ := hex
    have hl : l ∈ firstUses ((loopUses c.O c.els).map Prod.fst) := (mem_usedLoops l c.els).2 ⟨i0, by
      rw [hi0.only]; simp⟩
    have hs0 : G l i0 = 1 ∨ G l i0 = -1 := by
      rcases hsh.sign l hl i0 with h | h
      · have := hi0.needed (G l) h (hsh.support l hl) (hsh.closes l hl)
        obtain ⟨i1, -, h1, -⟩ := hsh.first l hl
        rw [this] at h1
        simp at h1
      · exact h
    refine ⟨G l i0, hs0, fun flux i hi => ?_⟩
    obtain rfl : i = i0 := hone i i0 l hi.kind hi0.kind (by rw [hi.only]; simp) (by rw [hi0.only]; simp)
    -- the other elements of the loop carry less than 1e-20 each
    have hsmall : ∀ l' ∈ firstUses ((loopUses c.O c.els).map Prod.fst), |G l i * B0 i l' - if l = l' then 1 else 0| ≤ 1e-6 := by
      intro l' hl'
      have h1 := hsh.loop l hl l' hl'
      rw [← Finset.add_sum_erase _ _ (Finset.mem_univ i)] at h1
      have h2 : G l i * B0 i l' - (if l = l' then 1 else 0) = -∑ j ∈ Finset.univ.erase i, G l j * B0 j l' := by
        rw [← h1]; ring
      rw [h2, abs_neg]
      refine le_trans (Finset.abs_sum_le_sum_abs _ _) ?_
      have h3 : ∀ j ∈ Finset.univ.erase i, |G l j * B0 j l'| ≤ 1e-20 := by
        intro j hj
        by_cases hlj : l ∈ (c.O.elem ((inductivePlacements c.O c.els).get j).2).loops
        · have hkj : (c.O.elem ((inductivePlacements c.O c.els).get j).2).kind ≠ kd := by
            intro hk
            exact (Finset.ne_of_mem_erase hj) (hone j i l hk hi.kind hlj (by rw [hi.only]; simp))
          have h4 := shares_small hsh hfd hown hl' j hkj
          rw [abs_mul]
          have h5 : |G l j| ≤ 1 := by
            rcases hsh.sign l hl j with h | h | h <;> rw [h] <;> norm_num
          calc |G l j| * |B0 j l'| ≤ 1 * 1e-20 := mul_le_mul h5 h4 (abs_nonneg _) zero_le_one
            _ = 1e-20 := one_mul _
        · rw [hsh.support l hl j hlj, zero_mul, abs_zero]
          norm_num
      refine le_trans (Finset.sum_le_card_nsmul _ _ _ h3) ?_
      have h6 : ((Finset.univ.erase i).card : ℝ) ≤ 10 ^ 12 := by
        have : (Finset.univ.erase i).card ≤ (inductivePlacements c.O c.els).length := by
          refine le_trans (Finset.card_le_card (Finset.erase_subset _ _)) ?_
          simp
        exact_mod_cast le_trans this hlen
      rw [nsmul_eq_mul]
      calc ((Finset.univ.erase i).card : ℝ) * 1e-20 ≤ 10 ^ 12 * 1e-20 := mul_le_mul_of_nonneg_right h6 (by norm_num)
        _ ≤ 1e-6 := by norm_num
    have hround : ∀ l' ∈ firstUses ((loopUses c.O c.els).map Prod.fst), round5 (B0 i l') = if l' = l then G l i else 0 := by
      intro l' hl'
      have h1 := hsmall l' hl'
      have h2 : round5 (G l i * B0 i l') = G l i * round5 (B0 i l') := round5_sgn hs0 _
      have h3 : round5 (B0 i l') = G l i * round5 (G l i * B0 i l') := by
        rw [h2, ← mul_assoc, sgn_mul_self hs0, one_mul]
      rw [h3]
      by_cases h : l' = l
      · rw [if_pos h]
        rw [if_pos h.symm] at h1
        rw [round5_one h1, mul_one]
      · rw [if_neg h]
        rw [if_neg (Ne.symm h), sub_zero] at h1
        rw [round5_small h1, mul_zero]
    rw [hp]
    have hmap : (firstUses ((loopUses c.O c.els).map Prod.fst)).map (fun l' => flux l' * round5 (B0 i l')) =
        (firstUses ((loopUses c.O c.els).map Prod.fst)).map (fun l' => if l' = l then G l i * flux l else 0) := by
      refine List.map_congr_left fun l' hl' => ?_
      rw [hround l' hl']
      by_cases h : l' = l
      · rw [if_pos h, if_pos h, h, mul_comm]
      · rw [if_neg h, if_neg h, mul_zero]
    rw [hmap, List.sum_map_ite_eq, List.count_eq_one_of_mem (nodup_firstUses _) hl]
    simp
  choose s hs1 hs2 using key
  exact ⟨s, hs1, fun flux l i hi => hs2 l flux i hi⟩

end
end SQ
