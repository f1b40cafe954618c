import Verif.Lemmas.Reversal
import Verif.Props.Levels

/-!
# Parity: operators that are odd under the two reversals

Reversing the fluxes and reversing the charges are both symmetries of a circuit at zero bias. An operator that
changes sign under exactly one of them connects only levels of opposite parity.
-/

namespace SQ
open Matrix Complex SQ.Spec

section
variable {ι : Type*} [Fintype ι] [DecidableEq ι]

theorem anti_braket (e : ι ≃ ι) (s : ι → ℝ) (hs : ∀ x, s x * s x = 1) (A : Matrix ι ι ℂ) (u v : ι → ℂ) :
    braket (antiVec e s u) (antiHom e s hs A) (antiVec e s v) = (starRingEnd ℂ) (braket u A v) := by
  rw [braket_right, antiHom_mulVec, braket_right]
  exact antiVec_overlap e s hs u _

/-- a symmetry that conjugates maps a non-degenerate level to itself, up to a phase -/
theorem anti_phase (e : ι ≃ ι) (s : ι → ℝ) (hs : ∀ x, s x * s x = 1) {H : Matrix ι ι ℂ} (hH : H.IsHermitian)
    (hsym : antiHom e s hs H = H) {p : ℕ} {psi : ι → ℂ} (hl : IsLevel H p psi) :
    ∃ z : ℂ, ‖z‖ = 1 ∧ antiVec e s psi = z • psi := by
  obtain ⟨hn, vs, ws, hlev, hsim, he⟩ := hl
  obtain ⟨z, hz, hpsi⟩ := simple_phase hH hlev hsim hn he
  have hn' : overlap (antiVec e s psi) (antiVec e s psi) = 1 := by
    have := antiVec_overlap e s hs psi psi
    unfold overlap at hn ⊢
    rw [this, hn, map_one]
  have he' : H *ᵥ antiVec e s psi = ((ws.getD p 0 : ℝ) : ℂ) • antiVec e s psi := by
    conv_lhs => rw [← hsym]
    rw [antiHom_mulVec, he]
    funext x
    simp [antiVec]
    ring
  obtain ⟨z', hz', hpsi'⟩ := simple_phase hH hlev hsim hn' he'
  have hz0 : z ≠ 0 := by
    intro h; rw [h] at hz; simp at hz
  refine ⟨z' / z, by rw [norm_div, hz, hz', div_one], ?_⟩
  rw [hpsi', hpsi, smul_smul, div_mul_cancel₀ _ hz0]

theorem overlap_levels {H : Matrix ι ι ℂ} (hH : H.IsHermitian) {p q : ℕ} {u v : ι → ℂ} (hu : IsLevel H p u)
    (hv : IsLevel H q v) (hpq : p ≠ q) : overlap u v = 0 := by
  obtain ⟨-, vs, ws, hl, hs, he⟩ := hu
  obtain ⟨-, vs', ws', hl', hs', he'⟩ := hv
  rw [levels_unique hl' hl] at hs' he'
  have h1 := braket_eigen_left hH he v
  have h2 := braket_eigen_right he' u
  have h3 : ((ws.getD p 0 - ws.getD q 0 : ℝ) : ℂ) * overlap u v = 0 := by
    push_cast
    rw [sub_mul, ← h1, ← h2, sub_self]
  rcases mul_eq_zero.1 h3 with h | h
  · have hd : ws.getD p 0 = ws.getD q 0 := sub_eq_zero.1 (by exact_mod_cast h)
    obtain ⟨hq, hsim⟩ := simple_fin hl hs'
    obtain ⟨hp, -⟩ := simple_fin hl hs
    exact absurd hd (hsim ⟨p, hp⟩ (fun h => hpq (Fin.ext_iff.1 h)))
  · exact h

/-- one of two opposite complex numbers -/
noncomputable def upper (g : ℂ) : Bool := open Classical in decide (0 < g.im ∨ (g.im = 0 ∧ 0 < g.re))

theorem upper_neg {g : ℂ} (h : g ≠ 0) : upper (-g) ≠ upper g := by
  unfold upper
  simp only [neg_im, neg_re]
  intro he
  have he' := decide_eq_decide.1 he
  rcases lt_trichotomy g.im 0 with h1 | h1 | h1
  · have := he'.1 (Or.inl (by linarith))
    rcases this with h2 | h2
    · linarith
    · linarith [h2.1]
  · rcases lt_trichotomy g.re 0 with h2 | h2 | h2
    · have := he'.1 (Or.inr ⟨by linarith, by linarith⟩)
      rcases this with h3 | h3
      · linarith
      · linarith [h3.2]
    · exact h (Complex.ext h2 h1)
    · have := he'.2 (Or.inr ⟨h1, h2⟩)
      rcases this with h3 | h3
      · linarith
      · linarith [h3.2]
  · have := he'.2 (Or.inl h1)
    rcases this with h2 | h2
    · linarith
    · linarith [h2.1]

/-- relative phase of the images of a state under two symmetries -/
noncomputable def relPhase (e e' : ι ≃ ι) (s s' : ι → ℝ) (u : ι → ℂ) : ℂ :=
  overlap u (antiVec e s u) * (starRingEnd ℂ) (overlap u (antiVec e' s' u))

/-- an operator of opposite signs under two conjugating symmetries connects only levels whose relative phases are
opposite -/
theorem odd_braket {e e' : ι ≃ ι} {s s' : ι → ℝ} {hs : ∀ x, s x * s x = 1} {hs' : ∀ x, s' x * s' x = 1}
    {H V : Matrix ι ι ℂ} (hH : H.IsHermitian) (h1 : antiHom e s hs H = H) (h2 : antiHom e' s' hs' H = H)
    {ε a : ℂ} (hε : ε ≠ 0) (hV : antiHom e s hs V = ε • V + a • 1) (hV' : antiHom e' s' hs' V = -(ε • V))
    {p q : ℕ} {u v : ι → ℂ} (hu : IsLevel H p u) (hv : IsLevel H q v) (hpq : p ≠ q ∨ a = 0)
    (hpar : upper (relPhase e e' s s' u) = upper (relPhase e e' s s' v)) : braket u V v = 0 := by
  obtain ⟨c, hc, hcu⟩ := anti_phase e s hs hH h1 hu
  obtain ⟨c', hc', hcv⟩ := anti_phase e s hs hH h1 hv
  obtain ⟨d, hd, hdu⟩ := anti_phase e' s' hs' hH h2 hu
  obtain ⟨d', hd', hdv⟩ := anti_phase e' s' hs' hH h2 hv
  have unit : ∀ z : ℂ, ‖z‖ = 1 → z * (starRingEnd ℂ) z = 1 := fun z hz => by
    rw [mul_conj, normSq_eq_norm_sq, hz]; simp
  have ru : relPhase e e' s s' u = c * (starRingEnd ℂ) d := by
    unfold relPhase
    rw [hcu, hdu, overlap_smul, overlap_smul, hu.1]; simp
  have rv : relPhase e e' s s' v = c' * (starRingEnd ℂ) d' := by
    unfold relPhase
    rw [hcv, hdv, overlap_smul, overlap_smul, hv.1]; simp
  by_contra hz
  have b1 := anti_braket e s hs V u v
  have b2 := anti_braket e' s' hs' V u v
  have ha : a * overlap u v = 0 := by
    rcases hpq with h | h
    · rw [overlap_levels hH hu hv h, mul_zero]
    · rw [h, zero_mul]
  have hb : ∀ (x y : ℂ) (A : Matrix ι ι ℂ), braket (x • u) A (y • v) = (starRingEnd ℂ) x * y * braket u A v := by
    intro x y A
    rw [braket_right, mulVec_smul, overlap_smul, overlap_smul_left, braket_right]
    ring
  rw [hcu, hcv, hV, hb] at b1
  rw [hdu, hdv, hV', hb] at b2
  have e1 : braket u (ε • V + a • 1) v = ε * braket u V v := by
    rw [braket_right, add_mulVec, smul_mulVec, smul_mulVec, one_mulVec, overlap_add, overlap_smul, overlap_smul, ha,
      add_zero, braket_right]
  have e2 : braket u (-(ε • V)) v = -(ε * braket u V v) := by
    rw [← neg_smul, braket_right, smul_mulVec, overlap_smul, braket_right, neg_mul]
  rw [e1] at b1
  rw [e2] at b2
  have hne : ε * braket u V v ≠ 0 := mul_ne_zero hε hz
  have key : (starRingEnd ℂ) c * c' = -((starRingEnd ℂ) d * d') := by
    refine mul_right_cancel₀ hne ?_
    rw [b1, ← b2]; ring
  have key2 : c' * (starRingEnd ℂ) d' = -(c * (starRingEnd ℂ) d) := by
    have h3 := unit c hc
    have h4 := unit d' hd'
    linear_combination (c * (starRingEnd ℂ) d') * key - (c' * (starRingEnd ℂ) d') * h3 -
      (c * (starRingEnd ℂ) d) * h4
  rw [ru, rv, key2] at hpar
  refine upper_neg (g := c * (starRingEnd ℂ) d) ?_ hpar.symm
  intro h0
  have := unit c hc
  have h5 := unit d hd
  rcases mul_eq_zero.1 h0 with h | h
  · rw [h] at this; simp at this
  · rw [h] at h5; simp at h5

end

section
variable {k nJ : ℕ}

theorem alpha_half_conj (D : ModeData nJ k) (i : Fin nJ) (j : Fin k) :
    (starRingEnd ℂ) (D.alpha i j / 2) = -(D.alpha i j / 2) := by
  rw [map_div₀, alpha_conj, Complex.conj_ofNat, neg_div]

theorem rev_root (D : ModeData nJ k) (m : Fin k → ℕ) (i : Fin nJ) (j : Fin k) :
    revMode D m j (rootExpFactor D m i j) = rootExpFactor D m i j := by
  unfold rootExpFactor
  split
  · exact map_one _
  · rename_i h
    split
    · exact map_one _
    · unfold qDisplace
      rw [antiHom_exp, map_sub, antiHom_smul, antiHom_smul, alpha_half_conj, map_neg, alpha_half_conj, neg_neg]
      rw [rev_destroy h, rev_create h, neg_smul_neg, smul_neg, neg_smul, sub_neg_eq_add]

theorem flip_root (D : ModeData nJ k) (m : Fin k → ℕ) (i : Fin nJ) (j : Fin k) :
    flipMode D m j (rootExpFactor D m i j) = (rootExpFactor D m i j)ᴴ := by
  unfold rootExpFactor flipMode chargeFlip
  by_cases h : D.omega j = 0
  · simp only [h, if_true]; rw [map_one, conjTranspose_one]
  · simp only [h, if_false]
    split
    · rw [map_one, conjTranspose_one]
    · rw [qDisplace_conjTranspose]
      unfold qDisplace
      rw [antiHom_exp, map_sub, antiHom_smul, antiHom_smul, alpha_half_conj, map_neg, conj_destroy, conj_create]

theorem fluxRev_sinHalf (D : ModeData nJ k) (m : Fin k → ℕ) (ng : Fin k → ℝ) (i : Fin nJ) :
    fluxRev D m (sinHalfOp (buildMem D m ng) i 0) = -sinHalfOp (buildMem D m ng) i 0 := by
  have e : fluxRev D m ((buildMem D m ng).rootExp i) = (buildMem D m ng).rootExp i := by
    show fluxRev D m (tens (rootExpFactor D m i)) = tens (rootExpFactor D m i)
    rw [antiTens_tens]
    exact congrArg tens (funext fun j => rev_root D m i j)
  have hp : phase (0 / 2) = 1 := by unfold phase; simp
  unfold sinHalfOp
  rw [hp, one_smul]
  unfold fluxRev antiTens at e ⊢
  rw [antiHom_smul, map_sub, antiHom_conjTranspose, e, ← neg_smul]
  congr 1
  rw [map_div₀, map_one, map_mul, Complex.conj_I, Complex.conj_ofNat]
  rw [mul_neg, div_neg]

theorem chargeRev_sinHalf (D : ModeData nJ k) (m : Fin k → ℕ) (ng : Fin k → ℝ) (i : Fin nJ) :
    chargeRev D m (sinHalfOp (buildMem D m ng) i 0) = sinHalfOp (buildMem D m ng) i 0 := by
  have e : chargeRev D m ((buildMem D m ng).rootExp i) = ((buildMem D m ng).rootExp i)ᴴ := by
    show chargeRev D m (tens (rootExpFactor D m i)) = (tens (rootExpFactor D m i))ᴴ
    rw [antiTens_tens, tens_conjTranspose]
    exact congrArg tens (funext fun j => flip_root D m i j)
  have hp : phase (0 / 2) = 1 := by unfold phase; simp
  unfold sinHalfOp
  rw [hp, one_smul]
  unfold chargeRev antiTens at e ⊢
  rw [antiHom_smul, map_sub, antiHom_conjTranspose, e, conjTranspose_conjTranspose]
  rw [map_div₀, map_one, map_mul, Complex.conj_I, Complex.conj_ofNat, mul_neg, div_neg, neg_smul, ← smul_neg,
    neg_sub]

end

end SQ
