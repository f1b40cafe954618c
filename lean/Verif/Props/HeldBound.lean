import Verif.Props.LoopSignsHeld
import Verif.Lemmas.Weyl
import Verif.Lemmas.Linear

/-!
# C137: junctions move the levels of a circuit held by inductors by at most the sum of their energies
-/

namespace SQ
open Matrix Spec Real

/-- the phase factor of a junction is unitary -/
theorem partialIso_phase {k : ℕ} (m : Fin k → ℕ) (g : Fin k → ℝ) :
    PartialIso (NormedSpace.exp (Complex.I • phaseOperator m g)) := by
  refine ⟨fun _ => true, ?_⟩
  have e : (fun _ : Idx m => if (true : Bool) = true then (1 : ℂ) else 0) = 1 := by funext; simp
  rw [e, show diagonal (1 : Idx m → ℂ) = 1 from diagonal_one]
  have hneg : (Complex.I • phaseOperator m g)ᴴ = -(Complex.I • phaseOperator m g) := by
    rw [conjTranspose_smul, phaseOperator_herm]
    simp
  rw [← Matrix.exp_conjTranspose, hneg, Matrix.exp_neg]
  exact nonsing_inv_mul _ ((isUnit_iff_isUnit_det _).1 (Matrix.isUnit_exp _))

/-- no expectation value of a cosine exceeds one -/
theorem cosPhase_le {k : ℕ} (m : Fin k → ℕ) (g : Fin k → ℝ) (x : ℝ) (v : Idx m → ℂ) :
    |(braket v (cosPhase m g x) v).re| ≤ nsq v := by
  unfold cosPhase
  simp only
  rw [braket_smulOp, braket_addOp, braket_conjOp, braket_smulOp, Complex.add_conj]
  rw [show (1 / 2 : ℂ) = ((1 / 2 : ℝ) : ℂ) by push_cast; rfl, ← Complex.ofReal_mul, Complex.ofReal_re]
  rw [show ∀ y : ℝ, 1 / 2 * (2 * y) = y by intro y; ring]
  refine (Complex.abs_re_le_norm _).trans ?_
  rw [norm_mul, show ‖Complex.exp (Complex.I * (x : ℝ))‖ = 1 from Complex.norm_exp_I_mul_ofReal x, one_mul]
  exact (partialIso_phase m g).braket_le v

/-- oscillators on their own -/
theorem oscillators_diagonal {k : ℕ} (m : Fin k → ℕ) (ω : Fin k → ℝ) :
    (∑ j, ((ω j : ℝ) : ℂ) • onMode m j (qCreate (m j) * qDestroy (m j)) : Op m) =
      diagonal fun x => ((∑ j, ω j * (x j : ℕ) : ℝ) : ℂ) := by
  have h1 : ∀ j, ((ω j : ℝ) : ℂ) • onMode m j (qCreate (m j) * qDestroy (m j)) =
      diagonal fun x : Idx m => ((ω j * (x j : ℕ) : ℝ) : ℂ) := by
    intro j
    rw [create_destroy, onMode_eq, qNum, single_diagonal, ← diagonal_smul]
    congr 1
    funext x
    simp
  rw [Finset.sum_congr rfl fun j _ => h1 j]
  ext x y
  rw [Matrix.sum_apply]
  by_cases h : x = y
  · subst h
    simp
  · simp [diagonal_apply_ne _ h]

/-- junctions change expectation values by at most the sum of their energies -/
theorem junctions_le {k : ℕ} (m : Fin k → ℕ) (l : List PlacedBranch) (g : PlacedBranch → Fin k → ℝ) (v : Idx m → ℂ) :
    |(braket v (l.map fun q => (q.value : ℂ) • cosPhase m (g q) q.ext).sum v).re| ≤ (l.map fun q => |q.value|).sum * nsq v := by
  rw [braket_listSum]
  induction l with
  | nil => simp
  | cons q l ih =>
    rw [List.map_cons, List.sum_cons, List.map_cons, List.sum_cons, add_mul]
    refine (abs_add_le _ _).trans (add_le_add ?_ ih)
    rw [braket_smulOp, Complex.re_ofReal_mul, abs_mul]
    exact mul_le_mul_of_nonneg_left (cosPhase_le m _ _ v) (abs_nonneg _)

/-- no external flux at the inductors -/
theorem normalMode_unbiased {n k : ℕ} (m : Fin k → ℕ) (ω : Fin k → ℝ) (v : Fin k → Fin n → ℝ) (inds juns : List PlacedBranch)
    (h : ∀ q ∈ inds, q.ext = 0) :
    normalModeHamiltonian m ω v inds juns = (diagonal fun x => ((∑ j, ω j * (x j : ℕ) : ℝ) : ℂ)) -
      (juns.map fun q => (q.value : ℂ) • cosPhase m (fun j => neglect (phaseZp (ω j) (v j) q.edge)) q.ext).sum := by
  unfold normalModeHamiltonian
  have h0 : (inds.map fun q => (((Phi0 / (2 * π)) ^ 2 / (hbar * q.value) * q.ext : ℝ) : ℂ) •
      phaseOperator m fun j => phaseZp (ω j) (v j) q.edge).sum = 0 := by
    refine List.sum_eq_zero fun A hA => ?_
    obtain ⟨q, hq, rfl⟩ := List.mem_map.1 hA
    rw [h q hq, mul_zero, Complex.ofReal_zero, zero_smul]
  rw [h0, add_zero, oscillators_diagonal]

/-- levels of oscillators and junctions -/
theorem normalMode_levels {n k : ℕ} (m : Fin k → ℕ) (ω : Fin k → ℝ) (v : Fin k → Fin n → ℝ) (inds juns : List PlacedBranch)
    (h : ∀ q ∈ inds, q.ext = 0) {vs : List (Idx m → ℂ)} {ws : List ℝ}
    (hl : Levels (normalModeHamiltonian m ω v inds juns) vs ws) (num i : ℕ) (hi : i < num) (hc : num ≤ Fintype.card (Idx m)) :
    |ws.getD i 0 - (lowest (fun x : ∀ j, Fin (m j) => ∑ j, ω j * (x j : ℕ)) num).getD i 0| ≤ (juns.map fun q => |q.value|).sum := by
  obtain ⟨vs', hl'⟩ := levels_diagonal (fun x : Idx m => ∑ j, ω j * (x j : ℕ))
  rw [normalMode_unbiased m ω v inds juns h] at hl
  set J := (juns.map fun q => (q.value : ℂ) • cosPhase m (fun j => neglect (phaseZp (ω j) (v j) q.edge)) q.ext).sum with hJ
  set D : Op m := diagonal fun x => ((∑ j, ω j * (x j : ℕ) : ℝ) : ℂ) with hD
  set K := (juns.map fun q => |q.value|).sum with hK
  have hb : ∀ u, |(braket u J u).re| ≤ K * nsq u := fun u => junctions_le m juns _ u
  have hs : ∀ u, (braket u (D - J) u).re = (braket u D u).re - (braket u J u).re := by
    intro u
    have : D = (D - J) + J := (sub_add_cancel D J).symm
    have h1 := congrArg Complex.re (congrArg (fun A => braket u A u) this)
    simp only [braket_addOp, Complex.add_re] at h1
    linarith
  have h1 := levels_weyl (H := D - J) (H' := D) (K := K) (fun u => by
    have := abs_le.1 (hb u); rw [hs]; linarith) hl hl' (lt_of_lt_of_le hi hc)
  have h2 := levels_weyl (H := D) (H' := D - J) (K := K) (fun u => by
    have := abs_le.1 (hb u); rw [hs]; linarith) hl' hl (lt_of_lt_of_le hi hc)
  have e : (lowest (fun x : ∀ j, Fin (m j) => ∑ j, ω j * (x j : ℕ)) num).getD i 0 =
      ((Finset.univ.val.map fun x : Idx m => ∑ j, ω j * (x j : ℕ)).sort (· ≤ ·)).getD i 0 := by
    unfold lowest
    rw [List.getD_eq_getElem?_getD, List.getD_eq_getElem?_getD, List.getElem?_take_of_lt hi]
  rw [e, abs_le]
  constructor <;> linarith

/-- the energies of the junctions do not depend on the fluxes -/
theorem fluxed_abs (O : Objs) (els : Elements) (val : ElemId → ℝ) (x : ℕ → ℝ) :
    ((fluxedBranches .jj O els val x).map fun q => |q.value|) =
      ((placements els).filter fun q => decide ((O.elem q.2).kind = .jj)).map fun q => |val q.2| := by
  refine Eq.trans ?_ (branches_sum .jj (by decide) O els val (fun _ y => |y|) (fun _ => 0) fun _ => rfl)
  unfold fluxedBranches
  rw [List.map_map, List.map_map]
  rfl

/-- C137: In every reachable state of a circuit whose nodes are all held by inductors and whose inductors see no external
flux, with any junctions and any flux at them, the i-th reported frequency is within the sum of the Josephson energies of the
i-th level of its normal modes, counted as independent oscillators with the truncation numbers set. -/
theorem C137_levels {c : CircSpec} {eigs : EigsFn} {as : List ℂ → List ℕ} (he : EigsLowest eigs) (ha : CArgsortSpec as)
    (hcaps : CapsOK c.O) {n : ℕ} (vals : ElemId → ℝ) (flux : LoopId → ℝ) (u : ℝ)
    (w0 : World (circPhys c eigs as)) (hw : construct (circPhys c eigs as) vals flux u = .ok w0)
    (h : List Act) (hh : Orderly w0 h) (h0 : ∃ ω v, HeldCircuit c n vals ω v)
    (hup : ∀ h1 h2, h = h1 ++ .update :: h2 → ∃ ω v, HeldCircuit c n (run w0 h1).vals ω v) :
    let w := run w0 h
    (∀ i, (c.O.elem i).kind ≠ .jj → w.vals i = lastBuilt vals w0 h i) → w.circ.m ≠ [] →
    (∀ b, buildCirc c w.vals = .ok b → ∀ q ∈ numbered c.O c.els, (c.O.elem q.1.2).kind = .ind → branchPhase b w.flux q.2 = 0) →
    ∀ ω v, HeldCircuit c n w.vals ω v →
    ∀ num : ℕ, 1 ≤ num → num + 1 < ∏ i : Fin n, (w.circ.m.getD i 0).toNat →
    ∃ (ws : List ℝ) (ev : _), (diag (some num) w).1 = .ok (ws.map (fun f => f / (2 * π * w.unitFreq)), ev) ∧ ws.length = num ∧
      ∀ i < num, |ws.getD i 0 - (lowest (fun x : ∀ j : Fin n, Fin (w.circ.m.getD j 0).toNat => ∑ j, ω j * (x j : ℕ)) num).getD i 0| ≤
        (((placements c.els).filter fun q => decide ((c.O.elem q.2).kind = .jj)).map fun q => |w.vals q.2|).sum := by
  intro w hlast hm0 hflux ω v hheld num h1 hnum
  obtain ⟨b, hb, vs, ws, hlev, hd⟩ := C132_levels he ha hcaps vals flux u w0 hw h hh h0 hup hlast hm0 ω v hheld
  obtain ⟨ev, hev⟩ := hd num h1 hnum
  have hcard : Fintype.card (Idx fun j : Fin n => (w.circ.m.getD j 0).toNat) = ∏ i : Fin n, (w.circ.m.getD i 0).toNat := by
    simp [Idx]
  refine ⟨ws.take num, ev, hev, ?_, fun i hi => ?_⟩
  · rw [List.length_take, hlev.len.trans hlev.card, hcard]
    omega
  · have hk := normalMode_levels _ ω v _ _ (fun q hq => ?_) hlev num i hi (by rw [hcard]; omega)
    · rw [show (ws.take num).getD i 0 = ws.getD i 0 by
        rw [List.getD_eq_getElem?_getD, List.getD_eq_getElem?_getD, List.getElem?_take_of_lt hi]]
      refine hk.trans (le_of_eq ?_)
      rw [fluxed_abs]
    · unfold fluxedBranches at hq
      simp only [List.mem_map, List.mem_filter, decide_eq_true_eq] at hq
      obtain ⟨q', ⟨hq1, hq2⟩, rfl⟩ := hq
      exact hflux b hb q' hq1 hq2

/-- C137 without external flux: nothing has to be known of how the fluxes are shared between the branches. -/
theorem C137_zero_flux {c : CircSpec} {eigs : EigsFn} {as : List ℂ → List ℕ} (he : EigsLowest eigs) (ha : CArgsortSpec as)
    (hcaps : CapsOK c.O) {n : ℕ} (vals : ElemId → ℝ) (flux : LoopId → ℝ) (u : ℝ)
    (w0 : World (circPhys c eigs as)) (hw : construct (circPhys c eigs as) vals flux u = .ok w0)
    (h : List Act) (hh : Orderly w0 h) (h0 : ∃ ω v, HeldCircuit c n vals ω v)
    (hup : ∀ h1 h2, h = h1 ++ .update :: h2 → ∃ ω v, HeldCircuit c n (run w0 h1).vals ω v) :
    let w := run w0 h
    (∀ i, (c.O.elem i).kind ≠ .jj → w.vals i = lastBuilt vals w0 h i) → w.circ.m ≠ [] → (∀ l, w.flux l = 0) →
    ∀ ω v, HeldCircuit c n w.vals ω v →
    ∀ num : ℕ, 1 ≤ num → num + 1 < ∏ i : Fin n, (w.circ.m.getD i 0).toNat →
    ∃ (ws : List ℝ) (ev : _), (diag (some num) w).1 = .ok (ws.map (fun f => f / (2 * π * w.unitFreq)), ev) ∧ ws.length = num ∧
      ∀ i < num, |ws.getD i 0 - (lowest (fun x : ∀ j : Fin n, Fin (w.circ.m.getD j 0).toNat => ∑ j, ω j * (x j : ℕ)) num).getD i 0| ≤
        (((placements c.els).filter fun q => decide ((c.O.elem q.2).kind = .jj)).map fun q => |w.vals q.2|).sum :=
  fun hlast hm0 hflux => C137_levels he ha hcaps vals flux u w0 hw h hh h0 hup hlast hm0
    fun b _ q _ _ => branchPhase_zero b hflux q.2

end SQ
