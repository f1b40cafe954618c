import Verif.Lemmas.System
import Verif.Lemmas.LcBuild

/-!
# Properties C64–C68: coupled systems
-/

namespace SQ
open Matrix Spec

/-! ## C65: the list of circuits -/

/-- C65: every circuit mentioned in a coupling occurs exactly once, and circuits are listed in the order
in which the couplings first mention them. -/
theorem C65_circuits (cps : List Couple) :
    (getAllCircuits cps).Nodup ∧
    (∀ c, c ∈ getAllCircuits cps ↔ ∃ cp ∈ cps, c = cp.cr1 ∨ c = cp.cr2) ∧
    (∀ c ∈ getAllCircuits cps, ∀ c' ∈ getAllCircuits cps,
      ((getAllCircuits cps).idxOf c < (getAllCircuits cps).idxOf c' ↔
        (mentions cps).idxOf c < (mentions cps).idxOf c')) := by
  rw [getAllCircuits_eq]
  refine ⟨nodup_firstUses _, fun c => ?_, fun c hc c' hc' => ?_⟩
  · rw [mem_firstUses]
    simp [mentions]
  · exact idxOf_firstUses _ c ((mem_firstUses _ _).1 hc) c' ((mem_firstUses _ _).1 hc')

/-- C65: the truncation numbers are aligned with the list of circuits, and they exist exactly if every
circuit has been diagonalized. -/
theorem C65_truncations (sub : CircId → SubCirc) (cs : List CircId) :
    ((∀ c ∈ cs, (sub c).efreqs ≠ []) → numEigs sub cs = .ok (cs.map (fun c => (sub c).efreqs.length))) ∧
    ((∃ c ∈ cs, (sub c).efreqs = []) → numEigs sub cs = .error .circuitState) := by
  induction cs with
  | nil => simp [numEigs]
  | cons c cs ih =>
    refine ⟨fun h => ?_, fun h => ?_⟩
    · have hc : (sub c).efreqs.length ≠ 0 := by simpa using h c (by simp)
      simp only [numEigs, if_neg hc, ih.1 (fun c' hc' => h c' (by simp [hc'])), List.map_cons]
    · by_cases hc : (sub c).efreqs = []
      · simp [numEigs, hc]
      · have : ∃ c ∈ cs, (sub c).efreqs = [] := by
          obtain ⟨c', hc', he⟩ := h
          rcases List.mem_cons.1 hc' with rfl | h'
          · exact absurd he hc
          · exact ⟨c', h', he⟩
        have hc0 : (sub c).efreqs.length ≠ 0 := by simpa using hc
        simp only [numEigs, if_neg hc0, ih.2 this]

/-- three circuits, mentioned in the order 7, 2, 2, 7, 5 -/
example : getAllCircuits [⟨7, 1, 2, 1, some 1⟩, ⟨2, 1, 7, 2, none⟩, ⟨7, 1, 5, 1, some 2⟩] = [7, 2, 5] := by decide

/-! ## C64: numbering -/

/-- C64: modes are numbered consecutively; the two maps are mutually inverse. -/
theorem C64_modes (sub : CircId → SubCirc) (cps : List Couple) :
    (∀ c ∈ getAllCircuits cps, ∀ i : ℤ, 1 ≤ i → i ≤ (sub c).n →
      (0 ≤ nodeIdxInSys (fun c => (sub c).n) (getAllCircuits cps) c i ∧
        nodeIdxInSys (fun c => (sub c).n) (getAllCircuits cps) c i < sysModes sub (getAllCircuits cps)) ∧
      nodeIdxInSubSys (fun c => (sub c).n) (getAllCircuits cps)
        (nodeIdxInSys (fun c => (sub c).n) (getAllCircuits cps) c i) = (i, (getAllCircuits cps).idxOf c)) ∧
    (∀ g : ℤ, 0 ≤ g → g < sysModes sub (getAllCircuits cps) →
      ∃ c ∈ getAllCircuits cps, ∃ i : ℤ, 1 ≤ i ∧ i ≤ (sub c).n ∧
        nodeIdxInSubSys (fun c => (sub c).n) (getAllCircuits cps) g = (i, (getAllCircuits cps).idxOf c) ∧
        nodeIdxInSys (fun c => (sub c).n) (getAllCircuits cps) c i = g) := by
  have hnd := (C65_circuits cps).1
  refine ⟨fun c hc i h1 h2 => ⟨?_, ?_⟩, fun g h0 hg => ?_⟩
  · have hb := nodesBefore_le (fun c => (sub c).n) c _ hc
    unfold nodeIdxInSys sysModes
    omega
  · have := subSysLoop_spec (fun c => (sub c).n) (getAllCircuits cps) c i (getAllCircuits cps) 0 hc h1 h2
    simpa [nodeIdxInSubSys, nodeIdxInSys] using this
  · obtain ⟨c, hc, e1, e2, e3, e4⟩ := subSysLoop_inv (fun c => (sub c).n) (getAllCircuits cps) g
      (getAllCircuits cps) 0 hnd (by simpa using h0) (by rw [Nat.cast_zero, zero_add]; exact hg)
    refine ⟨c, hc, _, e2, e3, Prod.ext rfl e1, ?_⟩
    simpa [nodeIdxInSys] using e4

/-- C64: on nodes the maps are mutually inverse if no circuit has lost modes. -/
theorem C64_nodes_partial (sub : CircId → SubCirc) (cps : List Couple)
    (hn : ∀ c ∈ getAllCircuits cps, (sub c).n = (sub c).nodes) (c : CircId) (hc : c ∈ getAllCircuits cps)
    (i : ℤ) (h1 : 1 ≤ i) (h2 : i ≤ (sub c).nodes) :
    nodeIdxInSubSys (fun c => (sub c).n) (getAllCircuits cps)
        (nodeIdxInSys (fun c => (sub c).n) (getAllCircuits cps) c i) = (i, (getAllCircuits cps).idxOf c) :=
  ((C64_modes sub cps).1 c hc i h1 (by rw [hn c hc]; exact h2)).2

/-- the LC oscillator beside a junction, as constructed under NumPy: two nodes, one mode -/
noncomputable def lcSub : SubCirc :=
  (lcBuild false).sub (buildMem (lcBuild false).M.data (fun _ => 1) (fun _ => 0)) [0] (fun _ _ => 1)

theorem lcSub_n : lcSub.n = 1 := by
  show (lcBuild false).M.keep.length = 1
  show (finishModes false lcFinal).keep.length = 1
  rw [lc_keep]; rfl

theorem lcSub_nodes : lcSub.nodes = 2 := rfl

/-- C64 is false for nodes of a circuit whose uncoupled modes were removed: two nodes of different
circuits get the same number. -/
theorem C64_nodes_refuted :
    ∃ (sub : CircId → SubCirc) (cps : List Couple) (c c' : CircId) (i i' : ℤ),
      (∀ cp ∈ cps, ValidCouple sub cp) ∧ c ∈ getAllCircuits cps ∧ c' ∈ getAllCircuits cps ∧
      (1 ≤ i ∧ i ≤ (sub c).nodes) ∧ (1 ≤ i' ∧ i' ≤ (sub c').nodes) ∧ c ≠ c' ∧
      nodeIdxInSys (fun c => (sub c).n) (getAllCircuits cps) c i
        = nodeIdxInSys (fun c => (sub c).n) (getAllCircuits cps) c' i' := by
  refine ⟨fun _ => lcSub, [⟨0, 2, 1, 1, some 1⟩], 0, 1, 2, 1, ?_, by decide, by decide, ?_, ?_, by decide, ?_⟩
  · simp [ValidCouple, lcSub_nodes]
  · simp [lcSub_nodes]
  · simp [lcSub_nodes]
  · rw [show getAllCircuits [⟨0, 2, 1, 1, some 1⟩] = [0, 1] from by decide]
    simp [nodeIdxInSys, nodesBefore, lcSub_n]

/-! ## C66: capacitance matrix -/

/-- C66: the system's capacitance matrix is symmetric if those of the circuits are. -/
theorem C66_symmetric (sub : CircId → SubCirc) (cps : List Couple)
    (hC : ∀ c ∈ getAllCircuits cps, ∀ p q, (sub c).C p q = (sub c).C q p) {M : ℕ → ℕ → ℝ}
    (h : capMatrix sub cps = .ok M) : ∀ p q, M p q = M q p :=
  addCouples_symm (bareCap_symm hC) h

/-- C66: for circuits that kept all modes and couplings between nodes, the quadratic form of the matrix
is the sum of the circuits' forms and c·(v_i − v_j)² for every coupling capacitor. Missing: circuits with
removed modes and couplings to ground, for which it is false. -/
theorem C66_form_partial (sub : CircId → SubCirc) (cps : List Couple)
    (hn : ∀ c ∈ getAllCircuits cps, (sub c).n = (sub c).nodes) (hv : ∀ cp ∈ cps, ValidCouple sub cp) :
    ∃ M, capMatrix sub cps = .ok M ∧ ∀ v : CircId → ℕ → ℝ,
      form (sysNodes sub (getAllCircuits cps)) M (stack sub v (getAllCircuits cps))
        = ((getAllCircuits cps).map (selfForm sub v)).sum + (cps.map (coupleForm v)).sum := by
  have hm := (C65_circuits cps).2.1
  obtain ⟨M, hM, hf⟩ := addCouples_form sub (getAllCircuits cps) hn cps
    (fun cp hcp => ⟨(hm _).2 ⟨cp, hcp, Or.inl rfl⟩, (hm _).2 ⟨cp, hcp, Or.inr rfl⟩, hv cp hcp⟩)
    (bareCap sub (getAllCircuits cps))
  exact ⟨M, hM, fun v => by rw [hf, form_blockDiag]⟩

/-- C66: without capacitive couplings the matrix is block diagonal: it does not mix circuits. -/
theorem C66_uncoupled (sub : CircId → SubCirc) (cps : List Couple) (h : ∀ cp ∈ cps, cp.cap = none) :
    ∃ M, capMatrix sub cps = .ok M ∧ ∀ v : CircId → ℕ → ℝ,
      form (sysNodes sub (getAllCircuits cps)) M (stack sub v (getAllCircuits cps))
        = ((getAllCircuits cps).map (selfForm sub v)).sum :=
  ⟨_, addCouples_none h _, fun v => form_blockDiag sub v _⟩

/-- C66: without capacitive couplings the interaction Hamiltonian is zero. -/
theorem C66_no_interaction (sub : CircId → SubCirc) (cps : List Couple) (h : ∀ cp ∈ cps, cp.cap = none)
    (hdet : (toMat (sysNodes sub (getAllCircuits cps)) (bareCap sub (getAllCircuits cps))).det ≠ 0)
    (unitFreq : ℝ) : hInt sub cps unitFreq = .ok 0 := by
  have h1 : capMatrix sub cps = .ok (bareCap sub (getAllCircuits cps)) := addCouples_none h _
  have h2 : npInv (toMat (sysNodes sub (getAllCircuits cps)) (bareCap sub (getAllCircuits cps)))
      = .ok (toMat (sysNodes sub (getAllCircuits cps)) (bareCap sub (getAllCircuits cps)))⁻¹ := by
    unfold npInv; rw [if_neg hdet]
  simp only [hInt, h1, h2, sub_self]
  congr 1
  unfold sysQuadQ
  rw [Finset.sum_eq_zero, smul_zero]
  intro i _
  refine Finset.sum_eq_zero (fun j _ => ?_)
  simp [transCoef]

/-- one node of capacitance `c` -/
def oneNode (c : ℝ) (fr : List ℝ) : SubCirc := ⟨1, 1, fun _ _ => c, fun _ _ => 1, fr, fun _ => 0⟩

/-- the hypotheses of `C66_form_partial`: two one-node circuits joined by a capacitor of 3 -/
example : let cps : List Couple := [⟨0, 1, 1, 1, some 3⟩]
    (∀ c ∈ getAllCircuits cps, (oneNode 1 []).n = (oneNode 1 []).nodes) ∧
      ∀ cp ∈ cps, ValidCouple (fun _ => oneNode 1 []) cp := by
  simp [oneNode, ValidCouple]

/-- C66 is false if a circuit lost modes: a capacitor between node 1 of two equal circuits ends up
between the two nodes of the first. -/
theorem C66_form_refuted :
    ∃ (sub : CircId → SubCirc) (cps : List Couple) (M : ℕ → ℕ → ℝ) (v : CircId → ℕ → ℝ),
      (∀ cp ∈ cps, ValidCouple sub cp) ∧ capMatrix sub cps = .ok M ∧
      form (sysNodes sub (getAllCircuits cps)) M (stack sub v (getAllCircuits cps))
        ≠ ((getAllCircuits cps).map (selfForm sub v)).sum + (cps.map (coupleForm v)).sum := by
  have hcs : getAllCircuits [⟨0, 1, 1, 1, some 1⟩] = [0, 1] := by decide
  have hN : sysNodes (fun _ => lcSub) [0, 1] = 4 := by simp [sysNodes, lcSub_nodes]
  refine ⟨fun _ => lcSub, [⟨0, 1, 1, 1, some 1⟩], ?_⟩
  rw [hcs]
  have hcap : capMatrix (fun _ => lcSub) [⟨0, 1, 1, 1, some 1⟩] = .ok
      (incAt (incAt (incAt (incAt (bareCap (fun _ => lcSub) [0, 1]) 0 0 1) 1 1 1) 0 1 (-1)) 1 0 (-1)) := by
    unfold capMatrix
    rw [hcs]
    simp [addCouples, addCouple, nodeIdxInSys, nodesBefore, lcSub_n, hN, pyIdx]
  -- potentials: node 2 of the first circuit at 1, all others at 0
  refine ⟨_, fun c i => if c = 0 ∧ i = 2 then 1 else 0, ?_, hcap, ?_⟩
  · simp [ValidCouple, lcSub_nodes]
  · rw [form_incAt _ _ (by rw [hN]; norm_num) (by rw [hN]; norm_num),
      form_incAt _ _ (by rw [hN]; norm_num) (by rw [hN]; norm_num),
      form_incAt _ _ (by rw [hN]; norm_num) (by rw [hN]; norm_num),
      form_incAt _ _ (by rw [hN]; norm_num) (by rw [hN]; norm_num), form_blockDiag]
    simp [stack, lcSub_nodes, coupleForm]

/-- C66 is false for a coupling to ground (node 0): the capacitor is connected to the last node of the
preceding circuit. -/
theorem C66_ground_refuted :
    ∃ (sub : CircId → SubCirc) (cps : List Couple) (M : ℕ → ℕ → ℝ) (v : CircId → ℕ → ℝ),
      (∀ cp ∈ cps, (0 ≤ cp.attr1 ∧ cp.attr1 ≤ (sub cp.cr1).nodes) ∧
        0 ≤ cp.attr2 ∧ cp.attr2 ≤ (sub cp.cr2).nodes) ∧
      (∀ c, (sub c).n = (sub c).nodes) ∧ (∀ c, v c 0 = 0) ∧ capMatrix sub cps = .ok M ∧
      form (sysNodes sub (getAllCircuits cps)) M (stack sub v (getAllCircuits cps))
        ≠ ((getAllCircuits cps).map (selfForm sub v)).sum + (cps.map (coupleForm v)).sum := by
  have hcs : getAllCircuits [⟨0, 1, 1, 0, some 1⟩] = [0, 1] := by decide
  have hN : sysNodes (fun _ => oneNode 1 []) [0, 1] = 2 := by simp [sysNodes, oneNode]
  refine ⟨fun _ => oneNode 1 [], [⟨0, 1, 1, 0, some 1⟩], ?_⟩
  rw [hcs]
  have hcap : capMatrix (fun _ => oneNode 1 []) [⟨0, 1, 1, 0, some 1⟩] = .ok
      (incAt (incAt (incAt (incAt (bareCap (fun _ => oneNode 1 []) [0, 1]) 0 0 1) 0 0 1) 0 0 (-1)) 0 0 (-1)) := by
    unfold capMatrix
    rw [hcs]
    simp [addCouples, addCouple, nodeIdxInSys, nodesBefore, oneNode, pyIdx, sysNodes]
  refine ⟨_, fun c i => if c = 0 ∧ i = 1 then 1 else 0, ?_, ?_, ?_, hcap, ?_⟩
  · simp [oneNode]
  · simp [oneNode]
  · simp
  · rw [form_incAt _ _ (by rw [hN]; norm_num) (by rw [hN]; norm_num),
      form_incAt _ _ (by rw [hN]; norm_num) (by rw [hN]; norm_num),
      form_incAt _ _ (by rw [hN]; norm_num) (by rw [hN]; norm_num),
      form_incAt _ _ (by rw [hN]; norm_num) (by rw [hN]; norm_num), form_blockDiag]
    simp [stack, oneNode, coupleForm]

/-! ## C67: operators -/

variable {k : ℕ} {d : Fin k → ℕ}

/-- C67: the embedded operator acts on its subsystem as given and as the identity on the others. -/
theorem C67_embedding (s : Fin k) (A : Matrix (Fin (d s)) (Fin (d s)) ℂ) : Embeds s A (opInSys s A) := by
  intro x y
  rw [opInSys_single]
  unfold single tens
  rw [Matrix.of_apply, Fintype.prod_eq_mul_prod_compl s]
  rw [Function.update_self]
  by_cases h : ∀ i, i ≠ s → x i = y i
  · rw [if_pos h, Finset.prod_eq_one, mul_one]
    intro i hi
    have hi' : i ≠ s := by simpa using hi
    rw [Function.update_of_ne hi', h i hi', Matrix.one_apply_eq]
  · rw [if_neg h]
    push Not at h
    obtain ⟨i, hi, hne⟩ := h
    rw [Finset.prod_eq_zero (i := i) (by simpa using hi), mul_zero]
    rw [Function.update_of_ne hi, Matrix.one_apply_ne hne]

/-- C67: the operator built for a product of two subsystem operators is the product of the embedded
operators, for equal and for different subsystems. -/
theorem C67_product (s : Fin k) (A : Matrix (Fin (d s)) (Fin (d s)) ℂ) (t : Fin k)
    (B : Matrix (Fin (d t)) (Fin (d t)) ℂ) :
    opTimesOpInSys s A t B = opInSys s A * opInSys t B := opTimes_eq s A t B

/-- C67: operators of different subsystems commute. -/
theorem C67_commute {s t : Fin k} (h : s ≠ t) (A : Matrix (Fin (d s)) (Fin (d s)) ℂ)
    (B : Matrix (Fin (d t)) (Fin (d t)) ℂ) : opInSys s A * opInSys t B = opInSys t B * opInSys s A := by
  rw [opInSys_single, opInSys_single, single_comm h]

/-- a subsystem operator that is not a multiple of the identity, in a system of two qubits -/
example : opInSys (d := fun _ : Fin 2 => 2) 0 (!![0, 1; 1, 0] : Matrix (Fin 2) (Fin 2) ℂ)
    ≠ opInSys (d := fun _ : Fin 2 => 2) 1 (!![0, 1; 1, 0] : Matrix (Fin 2) (Fin 2) ℂ) := by
  intro h
  have := congrFun₂ h (fun i => if i = 0 then 1 else 0) (fun _ => 0)
  rw [C67_embedding _ _ _ _, C67_embedding _ _ _ _] at this
  simp [Fin.forall_fin_two] at this

theorem kron_fold (ops : List ((ℕ × (ℕ → ℕ → ℂ)) × ℕ × ℕ)) :
    ∀ (A : ℕ × (ℕ → ℕ → ℂ)) (p q : ℕ), (∀ o ∈ ops, o.2.1 < o.1.1 ∧ o.2.2 < o.1.1) →
      ((ops.map Prod.fst).foldl kron2 A).2
        ((ops.map (fun o => (o.2.1, o.1.1))).foldl (fun acc xd => acc * xd.2 + xd.1) p)
        ((ops.map (fun o => (o.2.2, o.1.1))).foldl (fun acc xd => acc * xd.2 + xd.1) q)
      = A.2 p q * (ops.map (fun o => o.1.2 o.2.1 o.2.2)).prod := by
  induction ops with
  | nil => intro A p q _; simp
  | cons o ops ih =>
    intro A p q h
    obtain ⟨h1, h2⟩ := h o (by simp)
    have hpos : 0 < o.1.1 := by omega
    simp only [List.map_cons, List.foldl_cons, List.prod_cons]
    rw [ih (kron2 A o.1) _ _ (fun o' ho' => h o' (by simp [ho']))]
    have e1 : ∀ p x : ℕ, x < o.1.1 → (p * o.1.1 + x) / o.1.1 = p := by
      intro p x hx
      rw [Nat.mul_comm, Nat.mul_add_div hpos, Nat.div_eq_of_lt hx, Nat.add_zero]
    have e2 : ∀ p x : ℕ, x < o.1.1 → (p * o.1.1 + x) % o.1.1 = x := by
      intro p x hx
      rw [Nat.mul_comm, Nat.mul_add_mod, Nat.mod_eq_of_lt hx]
    simp only [kron2, e1 _ _ h1, e1 _ _ h2, e2 _ _ h1, e2 _ _ h2]
    ring

/-- C67: `tensor_product_torch` computes the Kronecker product: the entry at the row-major indices of two
lists of digits is the product of the operators' entries. -/
theorem C67_kron (ops : List ((ℕ × (ℕ → ℕ → ℂ)) × ℕ × ℕ)) (hne : ops ≠ [])
    (h : ∀ o ∈ ops, o.2.1 < o.1.1 ∧ o.2.2 < o.1.1) :
    ∃ X, tensorProductTorch (ops.map Prod.fst) = .ok X ∧ X.1 = (ops.map (fun o => o.1.1)).prod ∧
      X.2 (kronIndex (ops.map (fun o => (o.2.1, o.1.1)))) (kronIndex (ops.map (fun o => (o.2.2, o.1.1))))
        = (ops.map (fun o => o.1.2 o.2.1 o.2.2)).prod := by
  cases ops with
  | nil => exact absurd rfl hne
  | cons o ops =>
    refine ⟨_, rfl, ?_, ?_⟩
    · have : ∀ (l : List (ℕ × (ℕ → ℕ → ℂ))) (A : ℕ × (ℕ → ℕ → ℂ)),
          (l.foldl kron2 A).1 = A.1 * (l.map Prod.fst).prod := by
        intro l
        induction l with
        | nil => intro A; simp
        | cons B l ih => intro A; rw [List.foldl_cons, ih]; simp [kron2, mul_assoc]
      rw [this]
      simp [List.map_map, Function.comp_def]
    · have := kron_fold ops o.1 (0 * o.1.1 + o.2.1) (0 * o.1.1 + o.2.2) (fun o' ho' => h o' (by simp [ho']))
      simp only [kronIndex, List.map_cons, List.foldl_cons, List.prod_cons]
      rw [this]
      simp

end SQ
