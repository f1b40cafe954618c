import Verif.Props.SimpleSpectrum
import Verif.Props.TransmonExample
import Verif.Lemmas.DecRateGrad

/-! # An island with three charge states, solved exactly -/

namespace SQ
open Matrix Complex SQ.Spec Filter Topology

/-- the energies of three charge states -1, 0, 1 with charging energy `e` and coupling `z` -/
noncomputable def threeLevels (e : ℝ) (z : ℂ) : List ℝ :=
  [e / 2 - √(e ^ 2 / 4 + 2 * ‖z‖ ^ 2), e, e / 2 + √(e ^ 2 / 4 + 2 * ‖z‖ ^ 2)]

theorem three_root {e w : ℝ} {z v0 v1 v2 : ℂ} (h0 : e * v0 - (starRingEnd ℂ) z * v1 = w * v0)
    (h1 : -(z * v0) - (starRingEnd ℂ) z * v2 = w * v1) (h2 : e * v2 - z * v1 = w * v2)
    (hne : ¬ (v0 = 0 ∧ v1 = 0 ∧ v2 = 0)) : w = e ∨ w * (w - e) = 2 * ‖z‖ ^ 2 := by
  by_cases hw : w = e
  · exact .inl hw
  right
  have hwe : ((w - e : ℝ) : ℂ) ≠ 0 := by
    rw [Complex.ofReal_ne_zero, sub_ne_zero]; exact hw
  push_cast at hwe
  have hv1 : v1 ≠ 0 := by
    intro h
    apply hne
    rw [h] at h0 h2
    refine ⟨?_, h, ?_⟩
    · refine (mul_eq_zero.1 (?_ : ((w : ℂ) - e) * v0 = 0)).resolve_left hwe
      linear_combination -h0
    · refine (mul_eq_zero.1 (?_ : ((w : ℂ) - e) * v2 = 0)).resolve_left hwe
      linear_combination -h2
  have hz : (starRingEnd ℂ) z * z = ((‖z‖ ^ 2 : ℝ) : ℂ) := by
    rw [mul_comm, mul_conj, normSq_eq_norm_sq]
  have key : ((w * (w - e) : ℝ) : ℂ) = ((2 * ‖z‖ ^ 2 : ℝ) : ℂ) := by
    refine mul_right_cancel₀ hv1 ?_
    push_cast at hz ⊢
    linear_combination (-(w - e) : ℂ) * h1 + z * h0 + (starRingEnd ℂ) z * h2 + 2 * v1 * hz
  exact_mod_cast key

/-- the levels of an island with three charge states at offset zero -/
theorem three_levels : ∀ {k : ℕ} (_ : k = 1) (i : Fin k) (C : ℝ) (z : ℂ), 0 < C → z ≠ 0 →
    ∀ {vs : List (Idx (fun _ : Fin k => 3) → ℂ)} {ws : List ℝ},
    Levels (charging (fun _ => 3) i C 0 - (z • onMode (fun _ => 3) i (chargeRaise 3) +
      (z • onMode (fun _ => 3) i (chargeRaise 3))ᴴ)) vs ws →
    ws = threeLevels ((2 * eCharge) ^ 2 / (2 * C) / hbar) z := by
  rintro k rfl i C z hC hz vs ws hl
  obtain rfl : i = 0 := Subsingleton.elim _ _
  have hn := charge_nodup rfl (fun _ => 3) 0 C 0 z hz hl
  set e := (2 * eCharge) ^ 2 / (2 * C) / hbar with he
  have hep : 0 < e := by
    have := hbar_pos
    have := eCharge_pos
    positivity
  have hzp : 0 < ‖z‖ ^ 2 := by have := norm_pos_iff.2 hz; positivity
  set s := √(e ^ 2 / 4 + 2 * ‖z‖ ^ 2) with hs
  have hs2 : s ^ 2 = e ^ 2 / 4 + 2 * ‖z‖ ^ 2 := Real.sq_sqrt (by positivity)
  have hs0 : 0 ≤ s := Real.sqrt_nonneg _
  have hse : e / 2 < s := by nlinarith
  have hraise : ∀ x y : Idx (fun _ : Fin 1 => 3), onMode (fun _ => 3) 0 (chargeRaise 3) x y =
      if ((x 0 : Fin 3) : ℕ) = (y 0 : Fin 3) + 1 then 1 else 0 := by
    intro x y
    unfold onMode tens
    simp [Matrix.of_apply, chargeRaise]
  have hcard : Fintype.card (Idx (fun _ : Fin 1 => 3)) = 3 := rfl
  have hroot : ∀ a (ha : a < ws.length), ws[a] = e ∨ ws[a] = e / 2 - s ∨ ws[a] = e / 2 + s := by
    intro a ha
    have hav : a < vs.length := hl.len ▸ ha
    have heig := hl.eigen a hav
    have hnorm := hl.orth ⟨a, hav⟩ ⟨a, hav⟩
    rw [if_pos rfl] at hnorm
    simp only [List.get_eq_getElem] at hnorm
    generalize ws[a] = w at *
    generalize vs[a] = v at *
    have hsum : ∀ f : Idx (fun _ : Fin 1 => 3) → ℂ, ∑ x, f x = f (fun _ => 0) + f (fun _ => 1) + f (fun _ => 2) := by
      intro f
      rw [Fintype.sum_equiv (Equiv.funUnique (Fin 1) (Fin 3)) f (fun j => f fun _ => j) (fun x => by
        congr 1; funext j; rw [Subsingleton.elim j default]; rfl), Fin.sum_univ_three]
    have row : ∀ j : Fin 3, _ := fun j => congrFun heig (fun _ => j)
    simp only [mulVec, dotProduct] at row
    have r0 := row 0
    have r1 := row 1
    have r2 := row 2
    rw [hsum] at r0 r1 r2
    rw [charging_diag] at r0 r1 r2
    have n01 : (fun _ : Fin 1 => (0 : Fin 3)) ≠ fun _ => 1 := fun h => by have := congrFun h 0; simp at this
    have n02 : (fun _ : Fin 1 => (0 : Fin 3)) ≠ fun _ => 2 := fun h => by have := congrFun h 0; simp at this
    have n12 : (fun _ : Fin 1 => (1 : Fin 3)) ≠ fun _ => 2 := fun h => by have := congrFun h 0; simp at this
    simp only [Matrix.sub_apply, Matrix.add_apply, conjTranspose_apply, Matrix.smul_apply, hraise, diagonal_apply,
      Pi.smul_apply, smul_eq_mul] at r0 r1 r2
    simp [n01, n02, n12, n01.symm, n02.symm, n12.symm] at r0 r1 r2
    have hec : (e : ℂ) = (2 * (eCharge : ℂ)) ^ 2 / (2 * (C : ℂ)) / (hbar : ℂ) := by rw [he]; push_cast; rfl
    rw [← hec] at r0 r1 r2
    have := three_root (e := e) (w := w) (z := z) (v0 := v fun _ => 0) (v1 := v fun _ => 1) (v2 := v fun _ => 2)
      (by linear_combination r0) (by linear_combination r1) (by linear_combination r2) (by
        rintro ⟨h0, h1, h2⟩
        rw [hsum, h0, h1, h2] at hnorm
        simp at hnorm)
    rcases this with h | h
    · exact .inl h
    · right
      have h2 : (w - e / 2 + s) * (w - e / 2 - s) = 0 := by nlinarith
      rcases mul_eq_zero.1 h2 with h3 | h3
      · exact .inl (by linarith)
      · exact .inr (by linarith)
  have hlen : ws.length = 3 := hl.len.trans (hl.card.trans hcard)
  have hstrict : ws.Pairwise (· < ·) := by
    have h1 := hl.sorted
    rw [List.nodup_iff_pairwise_ne] at hn
    exact (h1.and hn).imp fun h => lt_of_le_of_ne h.1 h.2
  unfold threeLevels
  rw [← hs]
  match ws, hlen, hstrict, hroot with
  | [a, b, c], _, hst, hr =>
    have ha := hr 0 (by simp)
    have hb := hr 1 (by simp)
    have hc := hr 2 (by simp)
    simp only [List.getElem_cons_zero, List.getElem_cons_succ] at ha hb hc
    simp only [List.pairwise_cons, List.mem_cons, List.not_mem_nil, or_false, forall_eq_or_imp, forall_eq] at hst
    obtain ⟨⟨h1, h2⟩, h3, -⟩ := hst
    have hA : e / 2 - s < e := by linarith
    have hB : e < e / 2 + s := by linarith
    rcases ha with ha | ha | ha <;> rcases hb with hb | hb | hb <;> rcases hc with hc | hc | hc <;>
      first
      | (exfalso; linarith)
      | (rw [ha, hb, hc])

theorem three_cubic {d0 d1 d2 w : ℝ} {z v0 v1 v2 : ℂ} (hz : z ≠ 0)
    (h0 : d0 * v0 - (starRingEnd ℂ) z * v1 = w * v0)
    (h1 : -(z * v0) + d1 * v1 - (starRingEnd ℂ) z * v2 = w * v1) (h2 : d2 * v2 - z * v1 = w * v2)
    (hne : ¬ (v0 = 0 ∧ v1 = 0 ∧ v2 = 0)) :
    (w - d0) * (w - d1) * (w - d2) = ‖z‖ ^ 2 * ((w - d0) + (w - d2)) := by
  have hzz : (starRingEnd ℂ) z * z = ((‖z‖ ^ 2 : ℝ) : ℂ) := by
    rw [mul_comm, mul_conj, normSq_eq_norm_sq]
  by_cases hv1 : v1 = 0
  · rw [hv1] at h0 h1 h2
    have hz' : (starRingEnd ℂ) z ≠ 0 := by simpa using hz
    have hv0 : v0 ≠ 0 := by
      intro h
      rw [h] at h1
      have h3 : (starRingEnd ℂ) z * v2 = 0 := by linear_combination -h1
      exact hne ⟨h, hv1, (mul_eq_zero.1 h3).resolve_left hz'⟩
    have hv2 : v2 ≠ 0 := by
      intro h
      rw [h] at h1
      have h3 : z * v0 = 0 := by linear_combination -h1
      exact hv0 ((mul_eq_zero.1 h3).resolve_left hz)
    have e0 : ((w : ℂ) - d0) * v0 = 0 := by linear_combination -h0
    have e2 : ((w : ℂ) - d2) * v2 = 0 := by linear_combination -h2
    have f0 : w - d0 = 0 := by exact_mod_cast (mul_eq_zero.1 e0).resolve_right hv0
    have f2 : w - d2 = 0 := by exact_mod_cast (mul_eq_zero.1 e2).resolve_right hv2
    rw [f0, f2]; ring
  · have key : (((w - d0) * (w - d1) * (w - d2) : ℝ) : ℂ) = ((‖z‖ ^ 2 * ((w - d0) + (w - d2)) : ℝ) : ℂ) := by
      refine mul_right_cancel₀ hv1 ?_
      push_cast at hzz ⊢
      linear_combination (-(w - d0) * (w - d2) : ℂ) * h1 + z * ((w : ℂ) - d2) * h0 +
        (starRingEnd ℂ) z * ((w : ℂ) - d0) * h2 + ((w - d0) + (w - d2) : ℂ) * v1 * hzz
    exact_mod_cast key

/-- three different roots of a cubic -/
theorem cubic_roots {a b c s1 s2 s3 : ℝ} (hab : a ≠ b) (hac : a ≠ c) (hbc : b ≠ c)
    (ha : a ^ 3 - s1 * a ^ 2 + s2 * a - s3 = 0) (hb : b ^ 3 - s1 * b ^ 2 + s2 * b - s3 = 0)
    (hc : c ^ 3 - s1 * c ^ 2 + s2 * c - s3 = 0) :
    (a - b) ^ 2 + (a - c) ^ 2 + (b - c) ^ 2 = 2 * s1 ^ 2 - 6 * s2 := by
  have h1 : a ^ 2 + a * b + b ^ 2 - s1 * (a + b) + s2 = 0 := by
    refine (mul_eq_zero.1 (?_ : (a - b) * _ = 0)).resolve_left (sub_ne_zero.2 hab)
    linear_combination ha - hb
  have h2 : a ^ 2 + a * c + c ^ 2 - s1 * (a + c) + s2 = 0 := by
    refine (mul_eq_zero.1 (?_ : (a - c) * _ = 0)).resolve_left (sub_ne_zero.2 hac)
    linear_combination ha - hc
  have h3 : a + b + c - s1 = 0 := by
    refine (mul_eq_zero.1 (?_ : (b - c) * _ = 0)).resolve_left (sub_ne_zero.2 hbc)
    linear_combination h1 - h2
  have e1 : s1 = a + b + c := by linarith
  subst e1
  linear_combination 6 * h1

/-- the distances of the levels of an island with three charge states -/
theorem three_distances : ∀ {k : ℕ} (_ : k = 1) (i : Fin k) (C ng : ℝ) (z : ℂ), z ≠ 0 →
    ∀ {vs : List (Idx (fun _ : Fin k => 3) → ℂ)} {ws : List ℝ},
    Levels (charging (fun _ => 3) i C ng - (z • onMode (fun _ => 3) i (chargeRaise 3) +
      (z • onMode (fun _ => 3) i (chargeRaise 3))ᴴ)) vs ws →
    (ws.getD 0 0 - ws.getD 1 0) ^ 2 + (ws.getD 0 0 - ws.getD 2 0) ^ 2 + (ws.getD 1 0 - ws.getD 2 0) ^ 2 =
      ((2 * eCharge) ^ 2 / (2 * C) / hbar) ^ 2 * (24 * ng ^ 2 + 2) + 12 * ‖z‖ ^ 2 := by
  rintro k rfl i C ng z hz vs ws hl
  obtain rfl : i = 0 := Subsingleton.elim _ _
  have hn := charge_nodup rfl (fun _ => 3) 0 C ng z hz hl
  set e := (2 * eCharge) ^ 2 / (2 * C) / hbar with he
  have hraise : ∀ x y : Idx (fun _ : Fin 1 => 3), onMode (fun _ => 3) 0 (chargeRaise 3) x y =
      if ((x 0 : Fin 3) : ℕ) = (y 0 : Fin 3) + 1 then 1 else 0 := by
    intro x y
    unfold onMode tens
    simp [Matrix.of_apply, chargeRaise]
  have hcard : Fintype.card (Idx (fun _ : Fin 1 => 3)) = 3 := rfl
  have hroot : ∀ a (ha : a < ws.length), (ws[a] - e * (1 + ng) ^ 2) * (ws[a] - e * ng ^ 2) * (ws[a] - e * (1 - ng) ^ 2) =
      ‖z‖ ^ 2 * ((ws[a] - e * (1 + ng) ^ 2) + (ws[a] - e * (1 - ng) ^ 2)) := by
    intro a ha
    have hav : a < vs.length := hl.len ▸ ha
    have heig := hl.eigen a hav
    have hnorm := hl.orth ⟨a, hav⟩ ⟨a, hav⟩
    rw [if_pos rfl] at hnorm
    simp only [List.get_eq_getElem] at hnorm
    generalize ws[a] = w at *
    generalize vs[a] = v at *
    have hsum : ∀ f : Idx (fun _ : Fin 1 => 3) → ℂ, ∑ x, f x = f (fun _ => 0) + f (fun _ => 1) + f (fun _ => 2) := by
      intro f
      rw [Fintype.sum_equiv (Equiv.funUnique (Fin 1) (Fin 3)) f (fun j => f fun _ => j) (fun x => by
        congr 1; funext j; rw [Subsingleton.elim j default]; rfl), Fin.sum_univ_three]
    have row : ∀ j : Fin 3, _ := fun j => congrFun heig (fun _ => j)
    simp only [mulVec, dotProduct] at row
    have r0 := row 0
    have r1 := row 1
    have r2 := row 2
    rw [hsum] at r0 r1 r2
    rw [charging_diag] at r0 r1 r2
    have n01 : (fun _ : Fin 1 => (0 : Fin 3)) ≠ fun _ => 1 := fun h => by have := congrFun h 0; simp at this
    have n02 : (fun _ : Fin 1 => (0 : Fin 3)) ≠ fun _ => 2 := fun h => by have := congrFun h 0; simp at this
    have n12 : (fun _ : Fin 1 => (1 : Fin 3)) ≠ fun _ => 2 := fun h => by have := congrFun h 0; simp at this
    simp only [Matrix.sub_apply, Matrix.add_apply, conjTranspose_apply, Matrix.smul_apply, hraise, diagonal_apply,
      Pi.smul_apply, smul_eq_mul] at r0 r1 r2
    simp [n01, n02, n12, n01.symm, n02.symm, n12.symm] at r0 r1 r2
    have hec : (e : ℂ) = (2 * (eCharge : ℂ)) ^ 2 / (2 * (C : ℂ)) / (hbar : ℂ) := by rw [he]; push_cast; rfl
    rw [← hec] at r0 r1 r2
    refine three_cubic (w := w) (z := z) (v0 := v fun _ => 0) (v1 := v fun _ => 1) (v2 := v fun _ => 2) hz
      (by push_cast; linear_combination r0) (by push_cast; linear_combination r1) (by push_cast; linear_combination r2) (by
        rintro ⟨h0, h1, h2⟩
        rw [hsum, h0, h1, h2] at hnorm
        simp at hnorm)
  have hlen : ws.length = 3 := hl.len.trans (hl.card.trans hcard)
  match ws, hlen, hn, hroot with
  | [a, b, c], _, hn, hr =>
    have ha := hr 0 (by simp)
    have hb := hr 1 (by simp)
    have hc := hr 2 (by simp)
    simp only [List.getElem_cons_zero, List.getElem_cons_succ] at ha hb hc
    simp only [List.nodup_cons, List.mem_cons, List.not_mem_nil, or_false, not_or] at hn
    simp only [List.getD_cons_zero, List.getD_cons_succ]
    rw [cubic_roots (s1 := e * (3 * ng ^ 2 + 2))
      (s2 := e ^ 2 * ((1 + ng) ^ 2 * ng ^ 2 + (1 + ng) ^ 2 * (1 - ng) ^ 2 + ng ^ 2 * (1 - ng) ^ 2) - 2 * ‖z‖ ^ 2)
      (s3 := e ^ 3 * ((1 + ng) ^ 2 * ng ^ 2 * (1 - ng) ^ 2) - ‖z‖ ^ 2 * (e * (1 + ng) ^ 2 + e * (1 - ng) ^ 2))
      hn.1.1 hn.1.2 hn.2.1 (by linear_combination ha) (by linear_combination hb) (by linear_combination hc)]
    ring

end SQ
