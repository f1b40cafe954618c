import Verif.Lemmas.Merge
import Verif.Lemmas.Linear

/-!
# Levels of independent parts (C128)
-/

namespace SQ
open Matrix Spec

/-- the levels of independent parts are the sums of the levels of the parts, one of each -/
theorem levels_parts {N : ℕ} {k : Fin N → ℕ} {d : ∀ s, Fin (k s) → ℕ} {H : ∀ s, Op (d s)} {vs : ∀ s, List (Idx (d s) → ℂ)}
    {ws : Fin N → List ℝ} (hl : ∀ s, Levels (H s) (vs s) (ws s)) {vM : List ((∀ s, Idx (d s)) → ℂ)} {wM : List ℝ}
    (hM : Levels (∑ s, onSub (ι := fun s => Idx (d s)) s (H s)) vM wM) :
    (wM : Multiset ℝ) = (Finset.univ : Finset (∀ s, Fin (ws s).length)).val.map fun x => ∑ s, (ws s).get (x s) := by
  let V : Matrix (∀ s, Idx (d s)) (∀ s, Fin (ws s).length) ℂ :=
    ptens (ι := fun s => Idx (d s)) (κ := fun s => Fin (ws s).length) fun s => eigMat (vs s) _
  have hiso := fun s => eigMat_iso (hl s) (k := (ws s).length) rfl
  have hiso' := fun s => eigMat_iso' (hl s) (k := (ws s).length) rfl
  have hVV : Vᴴ * V = 1 := ptens_iso _ hiso
  have hVV' : V * Vᴴ = 1 := ptens_iso' _ hiso'
  have hc := levels_conj hVV hVV' hM
  have hd : Vᴴ * (∑ s, onSub (ι := fun s => Idx (d s)) s (H s)) * V =
      diagonal fun x : ∀ s, Fin (ws s).length => ((∑ s, (ws s).get (x s) : ℝ) : ℂ) := by
    rw [Matrix.mul_sum, Matrix.sum_mul]
    ext x y
    rw [Matrix.sum_apply]
    have h1 : ∀ s, (Vᴴ * onSub (ι := fun s => Idx (d s)) s (H s) * V) x y =
        if x = y then (((ws s).get (x s) : ℝ) : ℂ) else 0 := by
      intro s
      have e := ptens_conj (ι := fun s => Idx (d s)) (κ := fun s => Fin (ws s).length) (fun s => eigMat (vs s) _) hiso s (H s)
      rw [eigMat_diag (hl s) rfl] at e
      refine (congrFun (congrFun e x) y).trans ?_
      simp only [onSub, Matrix.of_apply]
      by_cases hxy : x = y
      · subst hxy
        rw [if_pos (fun _ _ => rfl), if_pos rfl, diagonal_apply_eq]
        simp
      · rw [if_neg hxy]
        split_ifs with h
        · rw [diagonal_apply_ne]
          intro e
          apply hxy
          funext t
          by_cases ht : t = s
          · subst ht; exact e
          · exact h t ht
        · rfl
    simp only [h1]
    by_cases hxy : x = y
    · subst hxy
      simp
    · simp [hxy]
  rw [hd] at hc
  obtain ⟨v2, h2⟩ := levels_diagonal fun x : ∀ s, Fin (ws s).length => ∑ s, (ws s).get (x s)
  rw [levels_unique hc h2, Multiset.sort_eq]

end SQ
