import Verif.Lemmas.Linear

/-!
# C100: circuits without junctions are harmonic oscillators
-/

namespace SQ
open Matrix Spec

variable {c : CircSpec} {eigs : EigsFn} {as : List ℂ → List ℕ}

/-- C100: in every reachable state of a circuit without junctions and with no external flux, `diag` returns the lowest
energies of independent oscillators whose frequencies are the normal-mode frequencies of the network formed by the placed
capacitors and inductors (a mode of frequency zero being a free charge island), divided by 2π times the frequency unit. -/
theorem C100_linear (he : EigsLowest eigs) (ha : CArgsortSpec as) (hcaps : CapsOK c.O) (hlin : Linear c.O c.els)
    (vals : ElemId → ℝ) (flux : LoopId → ℝ) (u : ℝ)
    (w0 : World (circPhys c eigs as)) (hw : construct (circPhys c eigs as) vals flux u = .ok w0)
    (h : List Act) (hh : Orderly w0 h) :
    let w := run w0 h
    (∀ i, w.vals i = lastBuilt vals w0 h i) → GoodCircuit c w.vals → (∀ l, w.flux l = 0) → w.circ.m ≠ [] →
    ∃ (n k : ℕ) (ω κ : Fin k → ℝ), numNodes c.els = .ok n ∧
      NormalModes (nodeCap n (c.O.withVals w.vals) c.els) (nodeInvInd n (c.O.withVals w.vals) c.els) ω ∧
      (∀ i, 0 < κ i) ∧
      ∀ num : ℕ, 1 ≤ num → num + 1 < ∏ i : Fin k, (w.circ.m.getD i 0).toNat →
        ∃ v, (diag (some num) w).1 = .ok
          ((lowest (ladder ω κ (fun i => (w.circ.ng i).getD 0) (fun i => (w.circ.m.getD i 0).toNat)) num).map
            (fun f => f / (2 * Real.pi * w.unitFreq)), v) := by
  intro w hlast hgood hflux hm0
  have hrem : NoRemoval c w0 h := by
    intro h1 h2 _
    right
    have hb0 : buildCirc c vals = .ok w0.circ.bd := (construct_build hw).1
    have h0 := linear_keep hgood.noSelf hlin hb0
    exact ⟨by rw [h0.2]; exact h0.1, fun b hb => (linear_keep hgood.noSelf hlin hb).2⟩
  obtain ⟨b, hb, hham⟩ := C48_circuit hcaps vals flux u w0 hw h hh hrem (fun i _ => hlast i) hm0
  rw [linear_ham hgood hlin hb _ _ _ _ hflux] at hham
  obtain ⟨-, -, hpos, hmodes⟩ := linear_modes hgood hlin hb
  refine ⟨b.n, _, b.M.omega, fun i => islandCoef (b.M.cInv i i), (linear_keep hgood.noSelf hlin hb).1, hmodes, ?_, ?_⟩
  · intro i
    have := hpos i
    have h2 : (0 : ℝ) < (2 * eCharge / √hbar) ^ 2 := by unfold eCharge hbar; positivity
    unfold islandCoef
    positivity
  · intro num h1 hnum
    set E := ladder b.M.omega (fun i => islandCoef (b.M.cInv i i)) (fun i => (w.circ.ng i).getD 0) (b.dims w.circ.m) with hE
    have hherm : (diagonal fun x : Idx (b.dims w.circ.m) => ((E x : ℝ) : ℂ)).IsHermitian := by
      rw [IsHermitian, diagonal_conjTranspose]
      congr 1
      funext x
      exact Complex.conj_ofReal _
    obtain ⟨vs, ws, ev, w', hlev, hd, -⟩ := diag_lowest he ha hm0 hham hherm num h1 (by
      show num + 1 < Fintype.card (∀ i : Fin b.M.keep.length, Fin (b.dims w.circ.m i))
      rw [Fintype.card_pi]
      simp only [Fintype.card_fin]
      exact hnum)
    obtain ⟨vs', hlev'⟩ := levels_diagonal E
    rw [levels_unique hlev hlev'] at hd
    exact ⟨_, by rw [hd]; rfl⟩

/-- C100: a circuit of capacitors and inductors with positive values outside loops, connected to ground, is accepted by
the constructor. -/
theorem C100_accepted {vals : ElemId → ℝ} (hc : GoodCircuit c vals) (hlin : Linear c.O c.els) {n : ℕ}
    (hn : numNodes c.els = .ok n) (hv : ValidElements n c.els)
    (hl : ∀ q ∈ placements c.els, (c.O.elem q.2).loops = []) (flux : LoopId → ℝ) (u : ℝ) :
    ∃ w0, construct (circPhys c eigs as) vals flux u = .ok w0 := by
  obtain ⟨b, hb⟩ := linear_exists hc hlin hn hv hl
  unfold construct
  have : (circPhys c eigs as).build vals = .ok b := hb
  rw [this]
  exact ⟨_, rfl⟩

/-- C100 (LC resonator): capacitors and inductors in parallel between one node and ground.  In every reachable state the
frequencies returned by `diag` are 0, f, 2f, … with f = 1/(2π √(L C)) in the frequency unit, where C is the sum of the
capacitances and 1/L the sum of the inverse inductances. -/
theorem C100_resonator (he : EigsLowest eigs) (ha : CArgsortSpec as) (hcaps : CapsOK c.O) (hlin : Linear c.O c.els)
    (hedge : ∀ p ∈ c.els, p.1 = (0, 1)) (hind : ∃ q ∈ placements c.els, (c.O.elem q.2).kind = .ind)
    (vals : ElemId → ℝ) (flux : LoopId → ℝ) (u : ℝ)
    (w0 : World (circPhys c eigs as)) (hw : construct (circPhys c eigs as) vals flux u = .ok w0)
    (h : List Act) (hh : Orderly w0 h) :
    let w := run w0 h
    (∀ i, w.vals i = lastBuilt vals w0 h i) → GoodCircuit c w.vals → (∀ l, w.flux l = 0) → w.circ.m ≠ [] →
    let C := ((placements c.els).map fun q => placedCap (c.O.withVals w.vals) q.2).sum
    let L := 1 / ((placements c.els).map fun q => placedInvInd (c.O.withVals w.vals) q.2).sum
    ∀ num : ℕ, 1 ≤ num → num + 1 < (w.circ.m.getD 0 0).toNat →
      ∃ v, (diag (some num) w).1 = .ok
        ((List.range num).map (fun j : ℕ => j * (1 / (2 * Real.pi * √(L * C))) / w.unitFreq), v) := by
  intro w hlast hgood hflux hm0 C L num h1 hnum
  obtain ⟨n, k, ω, κ, hn, hmodes, -, hd⟩ := C100_linear he ha hcaps hlin vals flux u w0 hw h hh hlast hgood hflux hm0
  have hn1 : n = 1 := by
    unfold numNodes at hn
    have hall : ∀ e ∈ c.els.map Prod.fst, e = (0, 1) := by
      intro e he
      obtain ⟨p, hp, rfl⟩ := List.mem_map.1 he
      exact hedge p hp
    cases hm : c.els.map Prod.fst with
    | nil => simp [hm] at hn
    | cons e es =>
      simp only [hm, Except.ok.injEq] at hn
      have hlex : ∀ (es : List Edge) e, e = (0, 1) → (∀ x ∈ es, x = (0, 1)) → lexMax e es = (0, 1) := by
        intro es
        induction es with
        | nil => intro e he _; exact he
        | cons x xs ih =>
          intro e he hx
          unfold lexMax
          split
          · exact ih x (hx x (by simp)) fun y hy => hx y (by simp [hy])
          · exact ih e he fun y hy => hx y (by simp [hy])
      rw [hlex es e (hall e (by rw [hm]; simp)) (fun x hx => hall x (by rw [hm]; simp [hx]))] at hn
      exact hn.symm
  subst hn1
  have hsum : ∀ f : ElemId → ℝ, ((placements c.els).map fun q => f q.2 • edgeMat 1 q.1).sum 0 0 =
      ((placements c.els).map fun q => f q.2).sum := by
    intro f
    have hpl : ∀ q ∈ placements c.els, q.1 = (0, 1) := by
      intro q hq
      unfold placements at hq
      simp only [List.mem_flatMap, List.mem_map] at hq
      obtain ⟨p, hp, i, -, rfl⟩ := hq
      exact hedge p hp
    generalize placements c.els = l at hpl
    induction l with
    | nil => rfl
    | cons q l ih =>
      simp only [List.map_cons, List.sum_cons, Matrix.add_apply, Matrix.smul_apply]
      rw [ih fun x hx => hpl x (List.mem_cons_of_mem _ hx), hpl q (List.mem_cons_self ..)]
      simp [edgeMat, incidence]
  obtain ⟨hk, hnn, -, v, hli, hv⟩ := hmodes
  have hv0 := congrFun (hv ⟨0, by omega⟩) 0
  have hvne : v ⟨0, by omega⟩ 0 ≠ 0 := by
    intro h0
    apply hli.ne_zero ⟨0, by omega⟩
    funext i
    rw [Subsingleton.elim i 0, h0]
    rfl
  simp only [mulVec, dotProduct, Fin.sum_univ_one, Pi.smul_apply, smul_eq_mul, nodeCap, nodeInvInd] at hv0
  rw [hsum, hsum] at hv0
  have hLinv : 0 < ((placements c.els).map fun q => placedInvInd (c.O.withVals w.vals) q.2).sum := by
    obtain ⟨q, hq, hkd⟩ := hind
    have hnn : ∀ x ∈ (placements c.els).map (fun q => placedInvInd (c.O.withVals w.vals) q.2), 0 ≤ x := by
      intro x hx
      obtain ⟨q, hq, rfl⟩ := List.mem_map.1 hx
      unfold placedInvInd
      split
      · rename_i hkk
        exact (one_div_pos.2 (hgood.inds q hq hkk)).le
      · exact le_rfl
    refine lt_of_lt_of_le ?_ (List.single_le_sum hnn _ (List.mem_map.2 ⟨q, hq, rfl⟩))
    have hkk : ((c.O.withVals w.vals).elem q.2).kind = .ind := hkd
    unfold placedInvInd
    rw [hkk]
    exact one_div_pos.2 (hgood.inds q hq hkk)
  have hCpos : 0 < C := by
    apply List.sum_pos
    · intro x hx
      obtain ⟨q, hq, rfl⟩ := List.mem_map.1 hx
      exact hgood.caps q hq
    · obtain ⟨q, hq, -⟩ := hind
      intro h0
      rw [List.map_eq_nil_iff] at h0
      rw [h0] at hq
      simp at hq
  have hω2 : ω ⟨0, by omega⟩ ^ 2 = 1 / (L * C) := by
    have h2 : ((placements c.els).map fun q => placedInvInd (c.O.withVals w.vals) q.2).sum = ω ⟨0, by omega⟩ ^ 2 * C := by
      apply mul_right_cancel₀ hvne
      rw [hv0]
      ring
    have : L = 1 / (ω ⟨0, by omega⟩ ^ 2 * C) := by rw [← h2]
    rw [this]
    have h3 := hLinv
    rw [h2] at h3
    have h4 : ω ⟨0, by omega⟩ ^ 2 ≠ 0 := fun h0 => by rw [h0, zero_mul] at h3; exact lt_irrefl _ h3
    field_simp
  have hLpos : 0 < L := one_div_pos.2 hLinv
  have hω : ω ⟨0, by omega⟩ = 1 / √(L * C) := by
    rw [← Real.sqrt_sq (hnn _), hω2, Real.sqrt_div zero_le_one, Real.sqrt_one]
  have hωpos : 0 < ω ⟨0, by omega⟩ := by rw [hω]; positivity
  have hprod : ∏ i : Fin k, (w.circ.m.getD i 0).toNat = (w.circ.m.getD 0 0).toNat := by
    subst hk
    rw [Fin.prod_univ_one]
    rfl
  obtain ⟨u', hdiag⟩ := hd num h1 (by rw [hprod]; exact hnum)
  refine ⟨u', ?_⟩
  rw [hdiag, lowest_single hk ω κ _ _ ⟨0, by omega⟩ hωpos num (by
    show num ≤ (w.circ.m.getD 0 0).toNat
    omega), List.map_map, hω]
  congr 2
  apply List.map_congr_left
  intro j _
  simp only [Function.comp_apply]
  have : 0 < √(L * C) := by positivity
  have hpi := Real.pi_pos
  by_cases hu : w.unitFreq = 0
  · show _ / (2 * Real.pi * w.unitFreq) = _
    rw [hu]; simp
  · show _ / (2 * Real.pi * w.unitFreq) = _
    field_simp

/-- C101: the numbering of the nodes, the direction in which edges are written and the order of the dictionary do not
change the frequencies: two circuits of capacitors and inductors, every node connected to ground through inductors, with
the same elements on edges that differ by a renumbering of the nodes, in reachable states with the same element values,
Hilbert space dimensions and unit and without external flux, have the same frequencies. -/
theorem C101_renumbering {c c' : CircSpec} {eigs eigs' : EigsFn} {as as' : List ℂ → List ℕ}
    (he : EigsLowest eigs) (ha : CArgsortSpec as) (he' : EigsLowest eigs') (ha' : CArgsortSpec as')
    (hO : c'.O = c.O) (hcaps : CapsOK c.O) (hlin : Linear c.O c.els)
    {n : ℕ} (hn : numNodes c.els = .ok n) (hn' : numNodes c'.els = .ok n) (hval : ValidElements n c.els)
    (σ : Equiv.Perm (Fin n)) (hren : Renumbered σ c.els c'.els) (hg : InductivelyGrounded n c.O c.els)
    (vals vals' : ElemId → ℝ) (flux flux' : LoopId → ℝ) (u u' : ℝ)
    (w0 : World (circPhys c eigs as)) (hw : construct (circPhys c eigs as) vals flux u = .ok w0)
    (w0' : World (circPhys c' eigs' as')) (hw' : construct (circPhys c' eigs' as') vals' flux' u' = .ok w0')
    (h h' : List Act) (hh : Orderly w0 h) (hh' : Orderly w0' h') :
    let w := run w0 h
    let w' := run w0' h'
    (∀ i, w.vals i = lastBuilt vals w0 h i) → (∀ i, w'.vals i = lastBuilt vals' w0' h' i) →
    GoodCircuit c w.vals → GoodCircuit c' w'.vals → (∀ l, w.flux l = 0) → (∀ l, w'.flux l = 0) →
    w.circ.m ≠ [] → w'.vals = w.vals → w'.circ.m = w.circ.m → w'.unitFreq = w.unitFreq →
    ∀ num : ℕ, 1 ≤ num → num + 1 < ∏ i : Fin n, (w.circ.m.getD i 0).toNat →
      ∃ F v v', (diag (some num) w).1 = .ok (F, v) ∧ (diag (some num) w').1 = .ok (F, v') := by
  intro w w' hlast hlast' hgood hgood' hflux hflux' hm0 hvv hmm huu num h1 hnum
  have hlin' : Linear c'.O c'.els := by
    obtain ⟨l, hp, hl⟩ := hren
    intro q hq
    rw [hO]
    have hq : q ∈ l := hp.mem_iff.1 hq
    obtain ⟨i, hi, rfl⟩ := List.getElem_of_mem hq
    obtain ⟨hlen, hget⟩ := List.forall₂_iff_get.1 hl
    have := (hget i (by omega) hi).1
    simp only [List.get_eq_getElem] at this
    rw [this]
    exact hlin _ (List.getElem_mem _)
  obtain ⟨n1, k, ω, κ, hn1, hmodes, -, hd⟩ := C100_linear he ha hcaps hlin vals flux u w0 hw h hh hlast hgood hflux hm0
  obtain ⟨n2, k', ω', κ', hn2, hmodes', -, hd'⟩ := C100_linear he' ha' (by rw [hO]; exact hcaps) hlin' vals' flux' u' w0' hw'
    h' hh' hlast' hgood' hflux' (by
      show w'.circ.m ≠ []
      rw [hmm]; exact hm0)
  obtain rfl : n1 = n := Except.ok.inj (hn1.symm.trans hn)
  obtain rfl : n2 = n1 := Except.ok.inj (hn2.symm.trans hn')
  obtain rfl : k = n2 := hmodes.number
  obtain rfl : k' = k := hmodes'.number
  have hOv : c'.O.withVals (run w0' h').vals = c.O.withVals (run w0 h).vals := by
    have : (run w0' h').vals = (run w0 h).vals := hvv
    rw [hO, this]
  rw [hOv] at hmodes'
  have hnode := node_rename hval hren (c.O.withVals (run w0 h).vals)
  have hren2 := normalModes_rename (σ := σ) (fun i j => (hnode i j).1) (fun i j => (hnode i j).2) hmodes
  have hCu : IsUnit (nodeCap k' (c.O.withVals (run w0 h).vals) c'.els).det := by
    have h1 : (nodeCap k' (c.O.withVals (run w0 h).vals) c'.els).submatrix σ σ =
        nodeCap k' (c.O.withVals (run w0 h).vals) c.els := by
      ext i j
      exact (hnode i j).1
    rw [← det_submatrix_equiv_self σ, h1]
    exact isUnit_iff_ne_zero.2 (nodeCap_posDef hval hgood.caps hgood.inds (hgood.ground _ hn)).det_pos.ne'
  have hωω := normalModes_unique hCu hren2 hmodes'
  have hωω := List.ofFn_injective hωω
  subst hωω
  have hω0 : ∀ i, ω i ≠ 0 := by
    have hLu := invInd_isUnit hval hgood.inds (O := c.O.withVals (run w0 h).vals) hg
    intro i h0
    obtain ⟨-, -, -, v, hli, hv⟩ := hmodes
    have h2 := hv i
    rw [h0] at h2
    simp only [ne_eq, OfNat.ofNat_ne_zero, not_false_eq_true, zero_pow, zero_smul] at h2
    apply hli.ne_zero i
    exact eq_zero_of_mulVec_eq_zero (isUnit_iff_ne_zero.1 hLu) h2
  obtain ⟨v, hv⟩ := hd num h1 hnum
  obtain ⟨v', hv'⟩ := hd' num h1 (by
    show num + 1 < ∏ i : Fin k', (w'.circ.m.getD i 0).toNat
    rw [hmm]; exact hnum)
  refine ⟨_, v, v', hv, ?_⟩
  refine hv'.trans ?_
  rw [lowest_ladder ω κ κ' _ _ hω0 num hmm]
  show _ = Except.ok (List.map (fun f => f / (2 * Real.pi * w.unitFreq)) _, v')
  rw [← huu]

end SQ
