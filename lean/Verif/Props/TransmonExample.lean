import Verif.Props.Transmon
import Verif.Props.DephasingExample

/-!
# A transmon with an offset charge and non-degenerate levels (C88, C92)
-/

namespace SQ
open Matrix Complex SQ.Spec Filter Topology

/-- junction 0 with capacitor 1 -/
def transmonObjs : Objs where
  elem := fun i => if i = 0 then ⟨.jj, 1, 1, [], true, true⟩ else ⟨.cap, 1, 1, [], false, true⟩
  loopValue := fun _ => 0
  loopReqGrad := fun _ => false
  loopIsLeaf := fun _ => true

theorem transmon_values (x : ℝ) : ParallelValues transmonObjs [0] (fun i => if i = 0 then x else 1) := by
  constructor
  · intro i hi
    simp at hi
    subst hi
    simp [placedCap, transmonObjs, Objs.withVals]
  · simp [totalCap, placedCap, transmonObjs, Objs.withVals]
    norm_num

theorem charging_diag {k : ℕ} (m : Fin k → ℕ) (i : Fin k) (C ng : ℝ) :
    charging m i C ng = diagonal fun x => (((2 * eCharge) ^ 2 / (2 * C) / hbar *
      (((x i : ℕ) : ℝ) - ((m i : ℝ) - 1) / 2 - ng) ^ 2 : ℝ) : ℂ) := by
  have hd : onMode m i (qCharge (m i)) = diagonal fun x => (((x i : ℕ) : ℂ) - ((m i : ℂ) - 1) / 2) := by
    ext x y
    unfold onMode qCharge
    unfold tens
    rw [of_apply, diagonal_apply]
    by_cases hxy : x = y
    · subst hxy
      rw [if_pos rfl]
      rw [Finset.prod_eq_single i]
      · simp
      · intro j _ hji
        simp [Function.update_of_ne hji]
      · simp
    · rw [if_neg hxy]
      obtain ⟨j, hj⟩ := Function.ne_iff.1 hxy
      apply Finset.prod_eq_zero (Finset.mem_univ j)
      by_cases hji : j = i
      · subst hji
        simp [hj]
      · simp [Function.update_of_ne hji, hj]
  unfold charging
  rw [hd, ← diagonal_one, ← diagonal_smul, diagonal_sub, diagonal_mul_diagonal, ← diagonal_smul]
  congr 1
  funext x
  simp only [Pi.smul_apply, smul_eq_mul, mul_one]
  push_cast
  ring

/-- A transmon with five charge states, offset charge 1/4 and a small Josephson energy meets the hypotheses of
`C88_charge`. -/
theorem C88_charge_example : ∃ (c : CircSpec) (v0 : ElemId → ℝ) (bd : Build) (val : ElemId → ℝ)
    (H : Op (fun _ : Fin bd.M.keep.length => 5)) (ev : List (Idx (fun _ : Fin bd.M.keep.length => 5) → ℂ))
    (psi psi' : Idx (fun _ : Fin bd.M.keep.length => 5) → ℂ),
    GoodCircuit c v0 ∧ buildCirc c v0 = .ok bd ∧ 0 < val 0 ∧ (bd.juns.map (·.el)) = [0] ∧
    bd.M.keep.length = 1 ∧ (∀ i, bd.M.omega i = 0) ∧
    fullHamiltonian bd.C bd.M _ (fun _ => 1 / 4) val (extFlux bd.B fun _ => 0) bd.inds bd.juns = .ok H ∧
    ev[0]? = some psi ∧ ev[1]? = some psi' ∧ IsLevel H 0 psi ∧ IsLevel H 1 psi' := by
  choose lib hlib using exists_lib
  choose argmax hm using exists_argmax
  obtain ⟨argsort, ha⟩ := exists_argsort
  set v0 : ElemId → ℝ := fun i => if i = 0 then 0 else 1 with hv0
  have h00 : v0 0 = 0 := by norm_num [hv0]
  have hj : OnlyJunctions transmonObjs [0] := ⟨by intro i hi; simp at hi; subst hi; simp [transmonObjs], 0, by simp, rfl⟩
  have hv : ParallelValues transmonObjs [0] v0 := transmon_values 0
  obtain ⟨b, hb, hk, -, hH⟩ := C92_transmon false .junctions transmonObjs [0] hj
    (by intro i hi; simp at hi; subst hi; rfl) (fun _ => LoopObj.init 0 0) lib hlib exSv exSv_spec argsort ha
    argmax hm (fun _ _ => 0) v0 hv
  have hgood := oe_good (torch := false) (fd := .junctions) (h := fun _ => LoopObj.init 0 0) (sv := exSv)
    (argsort := argsort) (draws := fun _ _ => 0) hj hlib hm hv
  have hfacts := oe_facts hj hlib exSv_spec ha hm hv hb
  obtain ⟨hin, hju⟩ := oe_juns hj hgood.noSelf hb
  have hju' : b.juns.map (·.el) = [0] := hju.trans (by decide)
  obtain ⟨hb1, hb2⟩ := build_valid hgood.noSelf hb
  obtain ⟨G, hG, hd⟩ := C57_junction b.C b.M hb1 (buildMem b.M.data (fun _ => 5) (fun _ => 1 / 4))
    (lcHamil b.M.data (buildMem b.M.data (fun _ => 5) (fun _ => 1 / 4))) v0 b.B
    (fun _ => 0) (fun _ => 0) b.inds b.juns hb2 0 (fun k hk => by rw [hin] at hk; simp at hk)
  have hGh : ∀ t, (G t).IsHermitian := by
    intro t
    obtain ⟨X, hX, hXh⟩ := C40_hermitian b.C b.M hb1 (fun _ => 5) (fun _ => 1 / 4) (Function.update v0 0 t)
      (extFlux b.B fun _ => 0) b.inds b.juns hb2
    rw [← Except.ok.inj (hX.symm.trans (hG t))]; exact hXh
  have i : Fin b.M.keep.length := ⟨0, by omega⟩
  have hC := totalCap_pos hj hv
  set C := totalCap (transmonObjs.withVals v0) [0] with hCdef
  have hG0 : G 0 = charging (fun _ => 5) i C (1 / 4) := by
    have h0 := hH (fun _ => 0) (fun _ => 5) (fun _ => 1 / 4) i
    have h2 := hG 0
    rw [show Function.update v0 0 0 = v0 by rw [← h00, Function.update_eq_self]] at h2
    have h4 := Except.ok.inj (h2.symm.trans h0)
    rw [h4]
    have : ((List.filter (fun i => decide ((transmonObjs.elem i).kind = Kind.jj)) [0]).map v0).sum = 0 := by
      have e : List.filter (fun i => decide ((transmonObjs.elem i).kind = Kind.jj)) [0] = [0] := by decide
      rw [e]
      simp [h00]
    rw [this]
    simp
  choose vs ws hl using fun t => levels_exists (hGh t)
  have hn0 : (ws 0).Nodup := by
    have := hl 0
    rw [hG0, charging_diag] at this
    refine diagonal_nodup ?_ this
    intro x y hxy
    have hh := hbar_pos
    have he : 0 < (2 * eCharge) ^ 2 / (2 * C) / hbar := by
      unfold eCharge
      positivity
    have h2 := mul_left_cancel₀ he.ne' hxy
    have hxi : x i = y i := by
      have hx := (x i).2
      have hy := (y i).2
      generalize x i = p at *
      generalize y i = q at *
      push_cast at h2
      have h3 : ((p : ℕ) : ℝ) - (q : ℕ) = 0 ∨ ((p : ℕ) : ℝ) + (q : ℕ) = 4 + 1 / 2 := by
        have : (((p : ℕ) : ℝ) - (q : ℕ)) * (((p : ℕ) : ℝ) + (q : ℕ) - (4 + 1 / 2)) = 0 := by linarith [h2]
        rcases mul_eq_zero.1 this with h | h
        · exact .inl h
        · exact .inr (by linarith)
      rcases h3 with h3 | h3
      · apply Fin.ext
        have : ((p : ℕ) : ℝ) = (q : ℕ) := by linarith
        exact_mod_cast this
      · exfalso
        have h4 : (2 * ((p : ℕ) + (q : ℕ) : ℕ) : ℝ) = ((9 : ℕ) : ℝ) := by push_cast; linarith
        have h5 : 2 * ((p : ℕ) + (q : ℕ)) = 9 := by exact_mod_cast h4
        omega
    funext j
    have : j = i := Fin.ext (by omega)
    rw [this, hxi]
  rw [h00] at hd
  have hev := nodup_near hGh hd vs ws hl hn0
  obtain ⟨t, ht, htn⟩ := (((hev.filter_mono nhdsWithin_le_nhds).and self_mem_nhdsWithin :
    ∀ᶠ t in 𝓝[>] (0 : ℝ), _)).exists
  have hlen : (vs t).length = 5 := by
    have : ∀ k, k = 1 → Fintype.card (Idx (fun _ : Fin k => 5)) = 5 := by rintro _ rfl; rfl
    rw [(hl t).card]
    exact this _ hk
  have hlt0 : 0 < (vs t).length := by omega
  have hlt1 : 1 < (vs t).length := by omega
  refine ⟨_, v0, b, Function.update v0 0 t, G t, vs t, (vs t)[0], (vs t)[1], hgood, hb, ?_, hju', hk, hfacts.2.2.2.1, hG t,
    List.getElem?_eq_getElem hlt0, List.getElem?_eq_getElem hlt1,
    isLevel_of_nodup (hl t) ht (List.getElem?_eq_getElem hlt0), isLevel_of_nodup (hl t) ht (List.getElem?_eq_getElem hlt1)⟩
  rw [Function.update_self]; exact htn

end SQ
