import Verif.Spec.Listing
import Verif.Props.Flux
import Verif.Props.Symbolic

/-! # Lemmas for C118: rounding, and the lists of values -/

namespace SQ
open Real Spec

theorem npRound_close (d : ℕ) (x : ℝ) : |npRound d x - x| ≤ 1 / 2 / 10 ^ d := by
  have hp : (0 : ℝ) < 10 ^ d := by positivity
  have h := rint_close (x * 10 ^ d)
  have e : npRound d x - x = ((rint (x * 10 ^ d) : ℝ) - x * 10 ^ d) / 10 ^ d := by
    unfold npRound
    field_simp
  rw [e, abs_div, abs_of_pos hp]
  gcongr

theorem sciRound_close (d : ℕ) (x : ℝ) : |sciRound d x - x| ≤ 1 / 2 / 10 ^ d * |x| := by
  unfold sciRound
  by_cases hx : x = 0
  · rw [if_pos hx, hx]; simp
  rw [if_neg hx]
  set e : ℤ := ⌊logb 10 |x|⌋ with he
  have hpos : (0 : ℝ) < (10 : ℝ) ^ (e - (d : ℤ)) := by positivity
  have hinv : (10 : ℝ) ^ ((d : ℤ) - e) * (10 : ℝ) ^ (e - (d : ℤ)) = 1 := by
    rw [← zpow_add₀ (by norm_num)]; simp
  have h := rint_close (x * (10 : ℝ) ^ ((d : ℤ) - e))
  have e1 : (rint (x * (10 : ℝ) ^ ((d : ℤ) - e)) : ℝ) * (10 : ℝ) ^ (e - (d : ℤ)) - x =
      ((rint (x * (10 : ℝ) ^ ((d : ℤ) - e)) : ℝ) - x * (10 : ℝ) ^ ((d : ℤ) - e)) * (10 : ℝ) ^ (e - (d : ℤ)) := by
    rw [sub_mul, mul_assoc, hinv, mul_one]
  rw [e1, abs_mul, abs_of_pos hpos]
  have hle : (10 : ℝ) ^ e ≤ |x| := by
    have hl : (e : ℝ) ≤ logb 10 |x| := Int.floor_le _
    have := (Real.le_logb_iff_rpow_le (by norm_num : (1 : ℝ) < 10) (abs_pos.2 hx)).1 hl
    rwa [Real.rpow_intCast] at this
  have e2 : (10 : ℝ) ^ (e - (d : ℤ)) = (10 : ℝ) ^ e / 10 ^ d := by
    rw [zpow_sub₀ (by norm_num), zpow_natCast]
  rw [e2]
  calc _ ≤ 1 / 2 * ((10 : ℝ) ^ e / 10 ^ d) := by gcongr
    _ ≤ 1 / 2 * (|x| / 10 ^ d) := by gcongr
    _ = _ := by ring

theorem mapM_id_ok {α : Type} : ∀ (l : List α), (l.map Except.ok : List (Except PyErr α)).mapM id = .ok l := by
  intro l
  induction l with
  | nil => rfl
  | cons x l ih =>
    rw [List.map_cons, List.mapM_cons, ih]
    rfl

theorem mapM_fun_ok {α β : Type} (f : α → Except PyErr β) (g : α → β) : ∀ (l : List α), (∀ x ∈ l, f x = .ok (g x)) →
    l.mapM f = .ok (l.map g) := by
  intro l
  induction l with
  | nil => intro _; rfl
  | cons x l ih =>
    intro h
    rw [List.mapM_cons, h x (by simp), ih (fun y hy => h y (by simp [hy]))]
    rfl

/-- listed Josephson energies -/
theorem ej_listed (uf : ℝ) (v : ℝ) :
    (match jjGetValue "Hz" ⟨v, 0⟩ with
      | .error e => Except.error e
      | .ok x => .ok (x / (2 * π * uf))) = (.ok (v / (2 * π) / uf) : Except PyErr ℝ) := by
  rw [jjHz]
  change Except.ok (v / (2 * π * uf)) = _
  rw [div_div]

theorem el_listed (uf : ℝ) (v : ℝ) (hv : v ≠ 0) :
    (match indGetValue "Hz" ⟨v, 0⟩ with
      | .error e => Except.error e
      | .ok x => .ok (x / uf)) = (.ok ((Phi0 / (2 * π)) ^ 2 / v / (2 * π * hbar) / uf) : Except PyErr ℝ) := by
  rw [indHz hv]
  change Except.ok _ = _
  rw [div_div Phi0 2 π]

theorem description_eq (b : Build) (uf : ℝ) (vals : ElemId → ℝ) (flux : LoopId → ℝ) (islands : ℕ → Option ChargeObj)
    (hL : ∀ key ∈ b.inds, vals key.el ≠ 0)
    (hisl : ∀ i, (b.descrip uf vals flux (fun _ => 0)).harDim ≤ i → i < b.M.keep.length → islands i ≠ none) :
    b.description uf vals flux islands = .ok
      { ham := constructHamiltonian (dictOf b uf vals flux islands) b.inds b.juns
        modes := modeTxt (dictOf b uf vals flux islands)
          (((List.range b.M.keep.length).drop (dictOf b uf vals flux islands).harDim).map
            fun i => ((islands i).map ChargeObj.chValue).getD 0)
        params := paramTxt (dictOf b uf vals flux islands)
          (b.inds.map fun key => (Phi0 / (2 * π)) ^ 2 / vals key.el / (2 * π * hbar) / uf)
          (b.juns.map fun key => vals key.el / (2 * π) / uf) ((dictOf b uf vals flux islands).hasFlux b.inds)
        loops := loopTxt (dictOf b uf vals flux islands) } := by
  have hEJ : (dictOf b uf vals flux islands).EJ.mapM id = .ok (b.juns.map fun key => vals key.el / (2 * π) / uf) := by
    rw [← mapM_id_ok]
    congr 1
    rw [List.map_map]
    apply List.map_congr_left
    intro key _
    exact ej_listed uf (vals key.el)
  have hEL : (dictOf b uf vals flux islands).EL.mapM id = .ok (b.inds.map fun key =>
      (Phi0 / (2 * π)) ^ 2 / vals key.el / (2 * π * hbar) / uf) := by
    rw [← mapM_id_ok]
    congr 1
    rw [List.map_map]
    apply List.map_congr_left
    intro key hk
    exact el_listed uf (vals key.el) (hL key hk)
  have hng : islandValues islands (dictOf b uf vals flux islands).harDim b.M.keep.length = .ok
      (((List.range b.M.keep.length).drop (dictOf b uf vals flux islands).harDim).map
        fun i => ((islands i).map ChargeObj.chValue).getD 0) := by
    apply mapM_fun_ok
    intro i hi
    rw [List.range_eq_range', List.drop_range', List.mem_range'_1] at hi
    have h1 := hisl i (by have := hi.1; simp at this; exact this) (by have := hi.2; have := hi.1; omega)
    cases h : islands i with
    | none => exact absurd h h1
    | some o => simp [ChargeObj.getValue]
  unfold Build.description
  rw [hEJ, hEL, hng]
  rfl

end SQ
