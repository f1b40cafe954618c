import Verif.Spec.Islands
import Verif.Lemmas.Islands
import Verif.Props.Transmon

/-! # C93: capacitively coupled islands, from dictionary to Hamiltonian -/

namespace SQ
open Matrix Spec Real

section Operators
variable {nJ k : ℕ}

theorem island_Q (D : ModeData nJ k) (m : Fin k → ℕ) (ng : Fin k → ℝ) {i : Fin k} (h : D.omega i = 0) :
    (buildMem D m ng).Q i = ((2 * eCharge / √hbar : ℝ) : ℂ) • pairs m ng i := by
  rw [buildMem_Q]
  unfold chargeOpIso
  rw [if_pos h, single_smul, single_sub, single_smul, single_one]
  rfl

theorem island_lc (D : ModeData nJ k) (m : Fin k → ℕ) (ng : Fin k → ℝ) (h : ∀ i, D.omega i = 0)
    (hs : D.cInv.IsSymm) : lcHamil D (buildMem D m ng) = pairEnergy m D.cInv ng := by
  have h39 := C39_lc_hamiltonian D hs m ng
  simp only at h39
  rw [h39]
  have h0 : ∑ i, (if D.omega i ≠ 0 then ((D.omega i : ℝ) : ℂ) • (buildMem D m ng).N i else 0) = 0 := by
    apply Finset.sum_eq_zero
    intro i _
    rw [if_neg (by simp [h i])]
  rw [h0, zero_add]
  unfold pairEnergy
  simp only [Finset.smul_sum]
  refine Finset.sum_congr rfl fun i _ => Finset.sum_congr rfl fun j _ => ?_
  rw [if_neg (by simp [h i]), island_Q D m ng (h i), island_Q D m ng (h j)]
  simp only [smul_mul_assoc, mul_smul_comm, smul_smul]
  congr 1
  have hh := hbar_pos
  have h1 : ((2 * eCharge / √hbar : ℝ)) * (2 * eCharge / √hbar) = (2 * eCharge) ^ 2 / hbar := by
    rw [div_mul_div_comm, Real.mul_self_sqrt hh.le, pow_two]
  have h2 : (((2 * eCharge) ^ 2 / 2 / hbar : ℝ) : ℂ) =
      1 / 2 * (((2 * eCharge / √hbar : ℝ) : ℂ) * ((2 * eCharge / √hbar : ℝ) : ℂ)) := by
    rw [← Complex.ofReal_mul, h1]
    push_cast
    ring
  rw [h2]
  ring

theorem island_cos (D : ModeData nJ k) (m : Fin k → ℕ) (ng : Fin k → ℝ) (h : ∀ i, D.omega i = 0) (w : Fin nJ)
    (i : Fin k) (hw : ∀ j, D.w w j = if j = i then 1 else 0) (x : ℝ) :
    cosOp (buildMem D m ng) w x = chargeCos m i x := by
  have he : (buildMem D m ng).exp w = onMode m i (chargeRaise (m i)) := by
    change tens (expFactor D m w) = tens _
    congr 1
    funext j
    unfold expFactor
    rw [if_pos (h j), hw j]
    by_cases hji : j = i
    · subst hji
      rw [if_pos rfl, Function.update_self]
      unfold dOp chargeRaise
      rw [if_neg one_ne_zero, if_neg (by norm_num)]
      ext a b
      simp only [conjTranspose_apply, of_apply]
      by_cases hab : (a : ℕ) = b + 1
      · rw [if_pos hab, if_pos (by omega)]; simp
      · rw [if_neg hab, if_neg (by omega)]; simp
    · rw [if_neg hji, Function.update_of_ne hji]
      unfold dOp
      rw [if_pos rfl]
  unfold cosOp chargeCos
  rw [he]
  rfl

end Operators


section Circuit

/-- matrices that the constructor collects for a circuit without inductors -/
theorem isl_mats {c : CircSpec} {vals : ElemId → ℝ} (hc : GoodCircuit c vals) (hL : NoInductors c.O c.els)
    (hJ0 : junctionEdges c.O c.els ≠ []) {n : ℕ} {a : Acc n} (hn : numNodes c.els = .ok n)
    (htr : traverse c.torch c.fd (c.O.withVals vals) n c.h c.els = .ok a) :
    n ≠ 0 ∧ a.cMat = capacitances (c.O.withVals vals) c.els n ∧ a.lMat = 0 ∧ a.numJunWithoutInd ≠ 0 ∧
    a.st.indKeys = [] ∧
    ∃ h : a.wMat.length = (junctionEdges c.O c.els).length,
      arrayOf n a.wMat = (junctionIncidence c.O c.els n).submatrix (Fin.cast h) id ∧
      ∀ k ∈ a.st.junKeys, (junctionEdges c.O c.els)[k.2.2.2]? = some k.1 := by
  obtain ⟨hv, hC, -⟩ := good_mats hc hn htr
  obtain ⟨hcm, hlm⟩ := traverse_mats hv htr
  obtain ⟨h1, -, h3, h4, -⟩ := C18_branch_numbering _ _ _ _ _ _ hv a htr
  have hL' : NoInductors (c.O.withVals vals) c.els := hL
  have hwl : a.wMat = (junctionEdges c.O c.els).map (incVec n) := h3
  have hlen : a.wMat.length = (junctionEdges c.O c.els).length := by rw [hwl, List.length_map]
  have hany : ∀ p ∈ c.els, p.2.any (fun i => decide ((c.O.elem i).kind = .ind)) = false := by
    intro p hp
    rw [List.any_eq_false]
    intro i hi
    have := hL (p.1, i) (by
      unfold placements
      rw [List.mem_flatMap]
      exact ⟨p, hp, List.mem_map.2 ⟨i, hi, rfl⟩⟩)
    simpa using this
  refine ⟨?_, hcm, ?_, ?_, ?_, hlen, ?_, fun k hk => (h4 k hk).1⟩
  · obtain ⟨e, l, he⟩ := List.exists_cons_of_ne_nil hJ0
    have hm : e ∈ junctionEdges c.O c.els := by rw [he]; simp
    unfold junctionEdges at hm
    obtain ⟨p, hp, -⟩ := List.mem_map.1 hm
    obtain ⟨h1, h2, h3⟩ := hv p (List.mem_of_mem_filter hp)
    omega
  · rw [hlm]
    apply List.sum_eq_zero
    intro x hx
    obtain ⟨q, hq, rfl⟩ := List.mem_map.1 hx
    have : placedInvInd (c.O.withVals vals) q.2 = 0 := by
      have := hL' q hq
      unfold placedInvInd
      cases hk : ((c.O.withVals vals).elem q.2).kind with
      | ind => exact absurd hk this
      | cap => rfl
      | jj => rfl
    rw [this, zero_smul]
  · rw [traverse_numJ htr]
    have : (bareJunctionEdges (c.O.withVals vals) c.els).length = (junctionEdges c.O c.els).length := by
      unfold bareJunctionEdges junctionEdges
      rw [List.length_map]
      congr 1
      apply List.filter_congr
      intro p hp
      have e : (p.2.any fun i => decide (((c.O.withVals vals).elem i).kind = Kind.ind)) = false := hany p hp
      rw [e]
      simp
      rfl
    rw [this]
    simpa using hJ0
  · rw [h1, List.map_eq_nil_iff, List.filter_eq_nil_iff]
    intro q hq
    have hq2 : q.1 ∈ inductivePlacements (c.O.withVals vals) c.els := by
      have := List.mem_map_of_mem (f := Prod.fst) hq
      simpa [numbered] using this
    have := hL' q.1 (List.mem_of_mem_filter hq2)
    simpa using this
  · ext i j
    change rowVec n (a.wMat.get i) j = (incidence ((junctionEdges c.O c.els).get (i.cast hlen)) (j + 1) : ℝ)
    have : a.wMat.get i = incVec n ((junctionEdges c.O c.els).get (i.cast hlen)) := by
      simp only [List.get_eq_getElem, Fin.val_cast]
      have h5 : ∀ (l : List (List ℤ)) (_ : l = (junctionEdges c.O c.els).map (incVec n)) (k : ℕ) (hk : k < l.length)
        (hk' : k < (junctionEdges c.O c.els).length), l[k] = incVec n ((junctionEdges c.O c.els)[k]) := by
        rintro _ rfl k hk hk'
        rw [List.getElem_map]
      exact h5 _ hwl _ _ _
    rw [this]
    simp [rowVec, incVec]

/-- the reductions of the junction matrices to those of the dictionary -/
theorem isl_gram {n q q' : ℕ} (h : q' = q) {C : Matrix (Fin n) (Fin n) ℝ} (hC : C.PosDef)
    {J : Matrix (Fin q) (Fin n) ℝ} (hli : LinearIndependent ℝ J.row)
    (hcond : WellConditioned n (J * C⁻¹ * Jᵀ)) {W : Matrix (Fin q') (Fin n) ℝ} (hW : W = J.submatrix (Fin.cast h) id) :
    LinearIndependent ℝ W.row ∧ IsUnit (W * C⁻¹ * Wᵀ).det ∧ (W * C⁻¹ * Wᵀ).IsSymm ∧
    (∀ i j, (W * C⁻¹ * Wᵀ) i j = (J * C⁻¹ * Jᵀ) (i.cast h) (j.cast h)) ∧
    ∀ i, accGS * (√((W * C⁻¹ * Wᵀ) i i) + 1e-9) * (√n * √((W * C⁻¹ * Wᵀ)⁻¹ i i)) < 1 := by
  subst h
  have hWJ : W = J := hW
  subst hWJ
  have hCi : C⁻¹.PosDef := hC.inv
  have hG : (W * C⁻¹ * Wᵀ).PosDef := by
    have := hCi.mul_mul_conjTranspose_same (B := W) (vecMul_injective_iff.2 hli)
    simpa using this
  refine ⟨hli, isUnit_iff_ne_zero.2 hG.det_pos.ne', ?_, fun i j => rfl, fun i => by unfold accGS; exact hcond i⟩
  have h1 := hG.isHermitian.eq
  rwa [conjTranspose_eq_transpose_of_trivial] at h1

theorem isl_S1 {n : ℕ} [NeZero n] {lib : NumLib n} {C : Matrix (Fin n) (Fin n) ℝ} (hC : C.PosDef) (hlib : LibSpec lib C 0)
    {nJ : ℕ} (W : Matrix (Fin nJ) (Fin n) ℝ) :
    (W * matS1 lib C 0) * (W * matS1 lib C 0)ᵀ = W * C⁻¹ * Wᵀ := by
  obtain ⟨hcap, -⟩ := noL_first hC hlib W
  have hS1C : matS1 lib C 0 * (matS1 lib C 0)ᵀ = C⁻¹ := by
    symm
    apply inv_eq_right_inv
    have h1 : (matS1 lib C 0)ᵀ * (C * matS1 lib C 0) = 1 := by rw [← Matrix.mul_assoc]; exact hcap
    have h2 := mul_eq_one_comm.1 h1
    rw [← Matrix.mul_assoc]; exact h2
  rw [transpose_mul, ← hS1C]
  simp only [Matrix.mul_assoc]

/-- modes of the constructed circuit -/
theorem isl_modes {n nJ : ℕ} [NeZero n] {sv : SvdFn} (hsv : SvdSpec sv) {argsort : ArgsortFn} (ha : ArgsortSpec argsort)
    (argmax : ArgmaxFn nJ) (draws : Draws) {numJ : ℕ} (hJ : numJ ≠ 0) (hnJ : nJ ≠ 0) {lib : NumLib n}
    {C : Matrix (Fin n) (Fin n) ℝ} (hC : C.PosDef) (hlib : LibSpec lib C 0) (W : Matrix (Fin nJ) (Fin n) ℝ)
    (hli : LinearIndependent ℝ W.row) {G : Matrix (Fin nJ) (Fin nJ) ℝ} (hG : W * C⁻¹ * Wᵀ = G) (hdet : IsUnit G.det)
    (hcond : ∀ i, accGS * (√(G i i) + 1e-9) * (√n * √(G⁻¹ i i)) < 1) {fuel : ℕ} {t : Trans nJ n}
    (ht : transformHamil lib sv argsort argmax draws numJ C 0 W fuel (initTrans C 0 W) = some (.ok t))
    {torch : Bool} (htn : torch = false ∨ nJ = n) :
    ∃ σ : Fin nJ ≃ Fin (finishModes torch t).keep.length, (∀ j, (finishModes torch t).omega j = 0) ∧
      (∀ i j, (finishModes torch t).w i j = if j = σ i then 1 else 0) ∧
      (∀ i j, (finishModes torch t).cInv (σ i) (σ j) = G i j) ∧
      (∀ i j, G j j < G i i → σ i < σ j) ∧
      (∀ i p, (finishModes torch t).R p ((finishModes torch t).keep.get (σ i)) = W i p) := by
  classical
  obtain ⟨hperm, hlen, hsort, -⟩ := selects_all hsv ha W hli (matS1 lib C 0) ((isl_S1 hC hlib W).trans hG) hdet hcond
  have hk := kept_all hsv W hli
  have hpos : ∀ i, ∃ p : Fin (independentRows argsort (wCharge sv W (matS1 lib C 0) (fun _ => 0))).1.length,
      (keptCols sv Wᵀ).get ((independentRows argsort (wCharge sv W (matS1 lib C 0) (fun _ => 0))).1.get p) = i := by
    intro i
    obtain ⟨a, ha'⟩ := List.get_of_mem (show i ∈ keptCols sv Wᵀ by rw [hk]; exact List.mem_finRange i)
    obtain ⟨p, hp⟩ := List.get_of_mem (hperm.mem_iff.2 (List.mem_finRange a))
    exact ⟨p, by rw [hp, ha']⟩
  obtain ⟨ρ, hinj, -, hom, hw, hcI, hord, hR⟩ := islands_result hsv argmax draws hJ hnJ hC hlib W hpos fuel t ht
  obtain ⟨hnd0, h32o, h32w, h32c⟩ := (C32_uncoupled_removal t).2.2 torch
  have hmem : ∀ i, ρ i ∈ (finishModes torch t).keep := by
    intro i
    cases torch with
    | true => rw [(C32_uncoupled_removal t).2.1.2]; exact List.mem_finRange _
    | false =>
      rw [(C32_uncoupled_removal t).1 hnJ]
      exact ⟨i, by rw [hw, if_pos rfl]; exact one_ne_zero⟩
  have hsurj : ∀ j ∈ (finishModes torch t).keep, ∃ i, ρ i = j := by
    intro j hj
    rcases htn with rfl | rfl
    · rw [(C32_uncoupled_removal t).1 hnJ] at hj
      obtain ⟨i, hi⟩ := hj
      rw [hw] at hi
      refine ⟨i, ?_⟩
      by_contra hne
      exact hi (if_neg (fun h => hne h.symm))
    · exact Finite.injective_iff_surjective.1 hinj j
  have hRt : (finishModes torch t).R = t.R := by
    unfold finishModes
    split <;> rfl
  rw [← hRt] at hR
  generalize hM : finishModes torch t = M at *
  have hnd : M.keep.Nodup := hnd0.imp (fun h => ne_of_lt h)
  have hget : ∀ i, ∃ k : Fin M.keep.length, M.keep.get k = ρ i := fun i => List.get_of_mem (hmem i)
  choose σ0 hσ using hget
  have hgi : Function.Injective M.keep.get := List.nodup_iff_injective_get.1 hnd
  have hb : Function.Bijective σ0 := by
    constructor
    · intro i j hij
      apply hinj
      rw [← hσ, ← hσ, hij]
    · intro k
      obtain ⟨i, hi⟩ := hsurj (M.keep.get k) (List.get_mem _ _)
      exact ⟨i, hgi (by rw [hσ, hi])⟩
  refine ⟨Equiv.ofBijective σ0 hb, ?_, ?_, ?_, ?_, fun i p => by
    change M.R p (M.keep.get (σ0 i)) = _
    rw [hσ, hR]⟩
  · intro j
    rw [h32o]; exact hom _
  · intro i j
    rw [h32w, hw, ← hσ]
    change _ = if j = σ0 i then (1 : ℝ) else 0
    by_cases hj : j = σ0 i
    · rw [if_pos hj, if_pos (by rw [hj])]
    · rw [if_neg hj, if_neg (fun h => hj (hgi h))]
  · intro i j
    change M.cInv (σ0 i) (σ0 j) = _
    rw [(h32c _ _).1, hσ, hσ, hcI, hG]
  · intro i j hij
    change σ0 i < σ0 j
    have hρ : ρ i < ρ j := by
      obtain ⟨p, hp, hp'⟩ := hord i
      obtain ⟨p', hq, hq'⟩ := hord j
      rw [Fin.lt_def, hp', hq']
      by_contra hge
      push Not at hge
      rcases Nat.lt_or_eq_of_le hge with h | h
      · have := List.pairwise_iff_get.1 hsort p' p h
        simp only [hp, hq] at this
        linarith
      · have : p = p' := Fin.ext h.symm
        subst this
        rw [hp] at hq
        subst hq
        exact lt_irrefl _ hij
    by_contra hge
    push Not at hge
    have h2 : M.keep.get (σ0 j) ≤ M.keep.get (σ0 i) := by
      rcases hge.lt_or_eq with h | h
      · exact (List.pairwise_iff_get.1 hnd0 _ _ h).le
      · rw [h]
    rw [hσ, hσ] at h2
    exact absurd hρ (not_lt.2 h2)

theorem isl_facts (c : CircSpec) (vals : ElemId → ℝ) (hc : GoodCircuit c vals) (hL : NoInductors c.O c.els)
    (hJ0 : junctionEdges c.O c.els ≠ []) (n : ℕ) (hn : numNodes c.els = .ok n)
    (hli : IndependentJunctions c.O c.els n)
    (hcond : WellConditioned n (junctionInvCap (c.O.withVals vals) c.els n))
    (hsv : SvdSpec c.sv) (ha : ArgsortSpec c.argsort)
    (htn : c.torch = false ∨ (junctionEdges c.O c.els).length = n) (b : Build) (hb : buildCirc c vals = .ok b) :
    b.M.keep.length ≤ b.n ∧ b.inds = [] ∧ (∀ j, b.M.omega j = 0) ∧
    ∃ (hJ : b.nJ = (junctionEdges c.O c.els).length)
      (σ : Fin (junctionEdges c.O c.els).length ≃ Fin b.M.keep.length),
      (∀ key ∈ b.juns, (junctionEdges c.O c.els).get (key.wId.cast hJ) = key.edge) ∧
      (∀ i j, junctionInvCap (c.O.withVals vals) c.els n j j < junctionInvCap (c.O.withVals vals) c.els n i i →
        σ i < σ j) ∧
      (∀ i j, b.M.w i j = if j = σ (i.cast hJ) then 1 else 0) ∧
      (∀ i j, b.M.cInv (σ i) (σ j) = junctionInvCap (c.O.withVals vals) c.els n i j) ∧
      (junctionInvCap (c.O.withVals vals) c.els n).IsSymm ∧
      (∀ i p (hp : p < b.n), b.M.R ⟨p, hp⟩ (b.M.keep.get (σ i)) = incidence ((junctionEdges c.O c.els).get i) (p + 1)) := by
  obtain ⟨n', a, B, t, hn', htr, hB, ht, rfl⟩ := buildCirc_stages hb
  have : n' = n := by rw [hn] at hn'; exact (Except.ok.inj hn').symm
  subst this
  obtain ⟨hn0, hcm, hlm, hnum, hind, hlen, hW, hkeys⟩ := isl_mats hc hL hJ0 hn htr
  have : NeZero n' := ⟨hn0⟩
  obtain ⟨-, hC, -⟩ := good_mats hc hn htr
  obtain ⟨hlib, -⟩ := hc.lib n' a hn htr
  have hJi : junctionIncidence (c.O.withVals vals) c.els n' = junctionIncidence c.O c.els n' := rfl
  have hGdef : junctionInvCap (c.O.withVals vals) c.els n' =
    junctionIncidence c.O c.els n' * a.cMat⁻¹ * (junctionIncidence c.O c.els n')ᵀ := by rw [hcm]; rfl
  obtain ⟨hli', hdet', hsym', hG', hcond'⟩ := isl_gram hlen hC hli (by rw [← hGdef]; exact hcond) hW
  have hnJ : a.wMat.length ≠ 0 := by rw [hlen]; simpa using hJ0
  rw [hlm] at ht hlib
  obtain ⟨σ, hom, hw, hcI, hord, hR⟩ := isl_modes hsv ha (c.argmax _) c.draws hnum hnJ hC hlib _ hli' rfl hdet' hcond' ht
    (torch := c.torch) (by rw [hlen]; exact htn)
  have hcard : (finishModes c.torch t).keep.length ≤ n' := by
    have hnd0 := ((C32_uncoupled_removal t).2.2 c.torch).1
    have hnd : (finishModes c.torch t).keep.Nodup := hnd0.imp (fun h => ne_of_lt h)
    simpa using hnd.length_le_card
  refine ⟨hcard, ?_, hom, hlen, (finCongr hlen).symm.trans σ, ?_, ?_, ?_, ?_, ?_, ?_⟩
  · change indKeysOf _ a.st.indKeys = []
    rw [hind]; rfl
  · intro key hkey
    have hkey : key ∈ junKeysOf a.st.kMat.length a.wMat.length a.st.junKeys := hkey
    unfold junKeysOf at hkey
    obtain ⟨k, hk, hk2⟩ := List.mem_filterMap.1 hkey
    split at hk2
    · rename_i hlt
      have hk2 := Option.some.inj hk2
      subst hk2
      have h1 := hkeys k hk
      obtain ⟨h2, h3⟩ := List.getElem?_eq_some_iff.1 h1
      exact h3
    · cases hk2
  · intro i j hij
    refine hord _ _ ?_
    rw [hG', hG']
    rw [hGdef] at hij
    exact hij
  · intro i j
    exact hw i j
  · intro i j
    refine (hcI _ _).trans ?_
    rw [hG', hGdef]
    rfl
  · have hJs : (junctionIncidence c.O c.els n' * a.cMat⁻¹ * (junctionIncidence c.O c.els n')ᵀ).IsSymm := by
      ext i j
      have := hsym'.apply (i.cast hlen.symm) (j.cast hlen.symm)
      rw [hG', hG'] at this
      exact this
    rw [hGdef]
    exact hJs
  · intro i p hp
    refine (hR _ _).trans ?_
    rw [hW]
    rfl

/-- Hamiltonian of a circuit whose modes are its junction edges -/
theorem isl_ham (b : Build) {q : ℕ} {vals : ElemId → ℝ} (hJ : b.nJ = q) (σ : Fin q ≃ Fin b.M.keep.length)
    {G : Matrix (Fin q) (Fin q) ℝ} (hcard : b.M.keep.length ≤ b.n) (hin : b.inds = []) (hom : ∀ j, b.M.omega j = 0)
    (hw : ∀ i j, b.M.w i j = if j = σ (i.cast hJ) then 1 else 0) (hcI : ∀ i j, b.M.cInv (σ i) (σ j) = G i j)
    (hsym : G.IsSymm) (flux : LoopId → ℝ) (m : Fin b.M.keep.length → ℕ) (ng : Fin b.M.keep.length → ℝ) :
    fullHamiltonian b.C b.M m ng vals (b.fluxes flux) b.inds b.juns = .ok (
      pairEnergy m (G.submatrix σ.symm σ.symm) ng -
      (b.juns.map (fun key => (vals key.el : ℂ) • chargeCos m (σ (key.wId.cast hJ)) (b.fluxes flux key.bId))).sum) := by
  generalize b.fluxes flux = phi
  have key : ∀ {q n' nB nJ : ℕ} (hJ : nJ = q) (C : Matrix (Fin n') (Fin n') ℝ) (M : Modes nJ n') (σ : Fin q ≃ Fin M.keep.length)
      (G : Matrix (Fin q) (Fin q) ℝ) (phi : Fin nB → ℝ)
      (juns : List (JunKey nB nJ)) (m : Fin M.keep.length → ℕ) (ng : Fin M.keep.length → ℝ),
      M.keep.length ≤ n' → (∀ j, M.omega j = 0) → (∀ i j, M.w i j = if j = σ (i.cast hJ) then 1 else 0) →
      (∀ i j, M.cInv (σ i) (σ j) = G i j) → G.IsSymm →
      fullHamiltonian C M m ng vals phi [] juns = .ok (pairEnergy m (G.submatrix σ.symm σ.symm) ng -
        (juns.map (fun key => (vals key.el : ℂ) • chargeCos m (σ (key.wId.cast hJ)) (phi key.bId))).sum) := by
    intro q n' nB nJ hJ C M σ G phi juns m ng hcard hom hw hcI hsym
    have hGM : G.submatrix σ.symm σ.symm = M.data.cInv := by
      ext i j
      change G _ _ = M.cInv i j
      have := hcI (σ.symm i) (σ.symm j)
      rw [Equiv.apply_symm_apply, Equiv.apply_symm_apply] at this
      exact this.symm
    have hsymM : M.data.cInv.IsSymm := by
      rw [← hGM]
      ext i j
      exact hsym.apply _ _
    unfold fullHamiltonian
    refine (hamiltonianOf_eq C M hcard _ _ vals phi [] juns (by simp)).trans ?_
    congr 1
    rw [island_lc M.data m ng hom hsymM, hGM]
    rw [List.map_nil, List.sum_nil, zero_add, sub_eq_add_neg, add_comm]
    congr 1
    have hcos : ∀ key : JunKey nB nJ,
        (-(vals key.el : ℂ)) • cosOp (buildMem M.data m ng) key.wId (phi key.bId) =
        - ((vals key.el : ℂ) • chargeCos m (σ (key.wId.cast hJ)) (phi key.bId)) := by
      intro key
      rw [island_cos M.data m ng hom key.wId (σ (key.wId.cast hJ)) (hw key.wId), neg_smul]
    simp only [hcos]
    generalize juns = l
    induction l with
    | nil => simp
    | cons x l ih => rw [List.map_cons, List.sum_cons, ih, List.map_cons, List.sum_cons, neg_add]
  have := key hJ b.C b.M σ _ phi b.juns m ng hcard hom hw hcI hsym
  rw [← hin] at this
  exact this

/-- C93: Circuits of junctions and capacitors without inductors, of any size: capacitively coupled transmons and
Cooper pair boxes, floating or grounded.  Whenever such a circuit is constructed, it has one mode per junction edge,
ordered by decreasing charging energy, and its Hamiltonian is
½(2e)² Σ_ij (J C⁻¹ Jᵀ)_ij (n_i - ng_i)(n_j - ng_j) - Σ E_J cos(φ_e + φ_ext), where C is the capacitance matrix of the
dictionary, J the incidence matrix of the junction edges and φ_e the phase of the mode of the edge of the junction.
(Under PyTorch modes without junction are not removed, so there the number of nodes has to be that of junction edges.) -/
theorem C93_islands (c : CircSpec) (vals : ElemId → ℝ) (hc : GoodCircuit c vals) (hL : NoInductors c.O c.els)
    (hJ0 : junctionEdges c.O c.els ≠ []) (n : ℕ) (hn : numNodes c.els = .ok n)
    (hli : IndependentJunctions c.O c.els n)
    (hcond : WellConditioned n (junctionInvCap (c.O.withVals vals) c.els n))
    (hsv : SvdSpec c.sv) (ha : ArgsortSpec c.argsort)
    (htn : c.torch = false ∨ (junctionEdges c.O c.els).length = n) (b : Build) (hb : buildCirc c vals = .ok b) :
    ∃ (hJ : b.nJ = (junctionEdges c.O c.els).length)
      (σ : Fin (junctionEdges c.O c.els).length ≃ Fin b.M.keep.length), b.inds = [] ∧
      (∀ key ∈ b.juns, (junctionEdges c.O c.els).get (key.wId.cast hJ) = key.edge) ∧
      (∀ i j, junctionInvCap (c.O.withVals vals) c.els n j j < junctionInvCap (c.O.withVals vals) c.els n i i →
        σ i < σ j) ∧
      ∀ (flux : LoopId → ℝ) (m : Fin b.M.keep.length → ℕ) (ng : Fin b.M.keep.length → ℝ),
        fullHamiltonian b.C b.M m ng vals (b.fluxes flux) b.inds b.juns = .ok (
          pairEnergy m ((junctionInvCap (c.O.withVals vals) c.els n).submatrix σ.symm σ.symm) ng -
          (b.juns.map (fun key => (vals key.el : ℂ) • chargeCos m (σ (key.wId.cast hJ)) (b.fluxes flux key.bId))).sum) := by
  obtain ⟨hcard, hin, hom, hJ, σ, hed, hord, hw, hcI, hsym, -⟩ := isl_facts c vals hc hL hJ0 n hn hli hcond hsv ha htn b hb
  refine ⟨hJ, σ, hin, hed, hord, ?_⟩
  exact isl_ham b hJ σ hcard hin hom hw hcI hsym

end Circuit

end SQ
