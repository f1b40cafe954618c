import Verif.Props.Phase

/-!
# Property C77: charge and flux operators act on the phase-coordinate wave functions as -iħ d/dΦ and Φ
-/

namespace SQ
open MeasureTheory Polynomial Spec Complex

variable {nJ k : ℕ}

/-! ### ladder relations of the oscillator states -/

theorem osc_form {x0 : ℝ} (hx : 0 < x0) (n : ℕ) (Phi : ℝ) :
    oscState x0 n Phi = 1 / √(√Real.pi * x0) * (1 / √(n.factorial : ℝ)) * He n (√2 / x0 * Phi)
      * Real.exp (-(Phi / x0) ^ 2 / 2) := by
  unfold oscState
  have h : √(√Real.pi * n.factorial * x0) = √(√Real.pi * x0) * √(n.factorial : ℝ) := by
    rw [← Real.sqrt_mul (by positivity)]
    congr 1; ring
  rw [h, show √2 * Phi / x0 = √2 / x0 * Phi by ring, one_div_mul_one_div]

theorem sqrt_fact_succ (n : ℕ) :
    √((n + 1 : ℕ) : ℝ) * (1 / √((n + 1).factorial : ℝ)) = 1 / √(n.factorial : ℝ) := by
  rw [Nat.factorial_succ, Nat.cast_mul, Real.sqrt_mul (by positivity)]
  have h1 : (0 : ℝ) < √((n + 1 : ℕ) : ℝ) := Real.sqrt_pos.2 (by positivity)
  have h2 : (0 : ℝ) < √(n.factorial : ℝ) := Real.sqrt_pos.2 (by positivity)
  field_simp

theorem osc_up {x0 : ℝ} (hx : 0 < x0) (n : ℕ) (Phi : ℝ) :
    √((n + 1 : ℕ) : ℝ) * oscState x0 (n + 1) Phi = 1 / √(√Real.pi * x0) * (1 / √(n.factorial : ℝ))
      * He (n + 1) (√2 / x0 * Phi) * Real.exp (-(Phi / x0) ^ 2 / 2) := by
  rw [osc_form hx, ← sqrt_fact_succ n]
  ring

theorem osc_down {x0 : ℝ} (hx : 0 < x0) (n : ℕ) (Phi : ℝ) :
    √(n : ℝ) * oscState x0 (n - 1) Phi = 1 / √(√Real.pi * x0) * (1 / √(n.factorial : ℝ))
      * (n * He (n - 1) (√2 / x0 * Phi)) * Real.exp (-(Phi / x0) ^ 2 / 2) := by
  cases n with
  | zero => simp
  | succ n =>
    rw [osc_form hx, Nat.add_sub_cancel, ← sqrt_fact_succ]
    have : √((n + 1 : ℕ) : ℝ) * √((n + 1 : ℕ) : ℝ) = ((n + 1 : ℕ) : ℝ) := Real.mul_self_sqrt (by positivity)
    calc _ = 1 / √(√Real.pi * x0) * ((√((n + 1 : ℕ) : ℝ) * √((n + 1 : ℕ) : ℝ)) * (1 / √((n + 1).factorial : ℝ)))
          * He n (√2 / x0 * Phi) * Real.exp (-(Phi / x0) ^ 2 / 2) := by ring
      _ = _ := by rw [this]; ring

/-- Φ ψ_n = x0/√2 (√(n+1) ψ_{n+1} + √n ψ_{n-1}) -/
theorem osc_flux {x0 : ℝ} (hx : 0 < x0) (n : ℕ) (Phi : ℝ) :
    Phi * oscState x0 n Phi
      = x0 / √2 * (√(n : ℝ) * oscState x0 (n - 1) Phi + √((n + 1 : ℕ) : ℝ) * oscState x0 (n + 1) Phi) := by
  rw [osc_up hx, osc_down hx, osc_form hx]
  have h := He_rec n (√2 / x0 * Phi)
  have h2 : (0 : ℝ) < √2 := by positivity
  have e : Phi = x0 / √2 * (√2 / x0 * Phi) := by field_simp
  calc _ = x0 / √2 * (1 / √(√Real.pi * x0) * (1 / √(n.factorial : ℝ)) * ((√2 / x0 * Phi) * He n (√2 / x0 * Phi))
        * Real.exp (-(Phi / x0) ^ 2 / 2)) := by
        nth_rewrite 1 [e]; ring
    _ = _ := by rw [h]; ring

/-- ψ_n' = (√n ψ_{n-1} - √(n+1) ψ_{n+1}) / (√2 x0) -/
theorem osc_deriv {x0 : ℝ} (hx : 0 < x0) (n : ℕ) (Phi : ℝ) :
    HasDerivAt (oscState x0 n)
      (1 / (√2 * x0) * (√(n : ℝ) * oscState x0 (n - 1) Phi - √((n + 1 : ℕ) : ℝ) * oscState x0 (n + 1) Phi)) Phi := by
  have hf : oscState x0 n = fun P => 1 / √(√Real.pi * x0) * (1 / √(n.factorial : ℝ)) *
      (He n (√2 / x0 * P) * Real.exp (-(P / x0) ^ 2 / 2)) := by
    funext P
    rw [osc_form hx]; ring
  have h1 : HasDerivAt (fun P : ℝ => √2 / x0 * P) (√2 / x0) Phi := by
    simpa using (hasDerivAt_id' Phi).const_mul (√2 / x0)
  have h2 := (He_hasDerivAt n (√2 / x0 * Phi)).comp Phi h1
  have h3 : HasDerivAt (fun P : ℝ => Real.exp (-(P / x0) ^ 2 / 2))
      (Real.exp (-(Phi / x0) ^ 2 / 2) * (-(Phi / x0) / x0)) Phi := by
    have ha : HasDerivAt (fun P : ℝ => P / x0) (1 / x0) Phi := (hasDerivAt_id' Phi).div_const x0
    have hb := (((ha.pow 2).neg).div_const 2).exp
    have e : Real.exp (-(Phi / x0) ^ 2 / 2) * (-(Phi / x0) / x0)
        = Real.exp (-(Phi / x0) ^ 2 / 2) * (-(((2 : ℕ) : ℝ) * (Phi / x0) ^ (2 - 1) * (1 / x0)) / 2) := by
      congr 1
      simp
      ring
    rw [e]
    exact hb
  have h4 := (h2.mul h3).const_mul (1 / √(√Real.pi * x0) * (1 / √(n.factorial : ℝ)))
  rw [hf]
  have hder : aeval (√2 / x0 * Phi) (derivative (hermite n)) = √2 / x0 * Phi * He n (√2 / x0 * Phi) - He (n + 1) (√2 / x0 * Phi) := by
    rw [He_succ]; ring
  have hrec := He_rec n (√2 / x0 * Phi)
  have key : 1 / (√2 * x0) * (√(n : ℝ) * oscState x0 (n - 1) Phi - √((n + 1 : ℕ) : ℝ) * oscState x0 (n + 1) Phi)
      = 1 / √(√Real.pi * x0) * (1 / √(n.factorial : ℝ)) *
        (aeval (√2 / x0 * Phi) (derivative (hermite n)) * (√2 / x0) * Real.exp (-(Phi / x0) ^ 2 / 2)
          + He n (√2 / x0 * Phi) * (Real.exp (-(Phi / x0) ^ 2 / 2) * (-(Phi / x0) / x0))) := by
    rw [osc_up hx, osc_down hx, hder]
    have hn : (n : ℝ) * He (n - 1) (√2 / x0 * Phi)
        = √2 / x0 * Phi * He n (√2 / x0 * Phi) - He (n + 1) (√2 / x0 * Phi) := by linarith
    rw [hn]
    have h22 : √2 * √2 = 2 := Real.mul_self_sqrt (by norm_num)
    have h2p : (0 : ℝ) < √2 := by positivity
    have e1 : 1 / (√2 * x0) = √2 / x0 / 2 := by
      field_simp
      linarith
    have e2 : -(Phi / x0) / x0 = -(√2 / x0 / 2) * (√2 / x0 * Phi) := by
      have : -(√2 / x0 / 2) * (√2 / x0 * Phi) = -(√2 * √2) / 2 * (Phi / x0) / x0 := by ring
      rw [this, h22]; ring
    rw [e1, e2]
    ring
  rw [key]
  exact h4

/-! ### matrix elements -/

theorem ladder_sum {N : ℕ} (b : Fin N) (hb : (b : ℕ) + 1 < N) (f : ℕ → ℂ) :
    (∑ a, qDestroy N a b * f a = ((√((b : ℕ) : ℝ) : ℝ) : ℂ) * f (b - 1)) ∧
    (∑ a, qCreate N a b * f a = ((√(((b : ℕ) + 1 : ℕ) : ℝ) : ℝ) : ℂ) * f (b + 1)) := by
  constructor
  · simp only [qDestroy, Matrix.of_apply]
    by_cases h0 : (b : ℕ) = 0
    · rw [Finset.sum_eq_zero, h0]
      · simp
      · intro a _
        rw [if_neg (by omega), zero_mul]
    · rw [Finset.sum_eq_single ⟨(b : ℕ) - 1, by omega⟩]
      · simp [show (b : ℕ) - 1 + 1 = b by omega]
      · intro a _ ha
        rw [if_neg, zero_mul]
        intro h
        exact ha (Fin.ext (by simp; omega))
      · intro h; exact absurd (Finset.mem_univ _) h
  · simp only [qCreate, qDestroy, Matrix.conjTranspose_apply, Matrix.of_apply]
    rw [Finset.sum_eq_single ⟨(b : ℕ) + 1, hb⟩]
    · simp
    · intro a _ ha
      rw [if_neg, star_zero, zero_mul]
      intro h
      exact ha (Fin.ext (by simp; omega))
    · intro h; exact absurd (Finset.mem_univ _) h

theorem x0_impedance (D : ModeData nJ k) (i : Fin k) : D.x0 i / √2 = √hbar * √(0.5 * D.impedance i) := by
  have hh : 0 < hbar := by unfold hbar; norm_num
  have hZ : 0 ≤ D.impedance i := Real.sqrt_nonneg _
  unfold ModeData.x0
  change √(hbar * D.impedance i) / √2 = _
  rw [← Real.sqrt_div (by positivity), ← Real.sqrt_mul hh.le]
  congr 1
  ring

theorem x0_admittance {D : ModeData nJ k} {i : Fin k} (h : Harmonic D i) :
    hbar * (1 / (√2 * D.x0 i)) = √hbar * √(0.5 / D.impedance i) := by
  have hh : 0 < hbar := by unfold hbar; norm_num
  have hZ : 0 < D.impedance i := by
    obtain ⟨h1, h2, _⟩ := h
    unfold ModeData.impedance
    positivity
  unfold ModeData.x0
  change hbar * (1 / (√2 * √(hbar * D.impedance i))) = _
  rw [← Real.sqrt_mul (by norm_num), ← Real.sqrt_mul hh.le]
  rw [mul_one_div, eq_comm, eq_div_iff (by positivity), ← Real.sqrt_mul (by positivity)]
  rw [show hbar * (0.5 / D.impedance i) * (2 * (hbar * D.impedance i)) = hbar * hbar by field_simp; ring]
  exact Real.sqrt_mul_self hh.le

/-- C77: for a harmonic mode below its top level, multiplying the wave function by the flux Φ₀φ is the
action of the flux operator (the code's operators are in units of √ħ). -/
theorem C77_flux (hyperu : ℝ → ℝ → ℝ → ℝ) {D : ModeData nJ k} {m : Fin k → ℕ} {i : Fin k} (hi : Harmonic D i)
    (hm : m i ≤ 250) (b : Fin (m i)) (hb : (b : ℕ) + 1 < m i) (phi : ℝ) :
    ((Phi0 * phi : ℝ) : ℂ) * modeWave hyperu D i b phi
      = ∑ a, ((√hbar : ℝ) : ℂ) * fluxOpIso D m i a b * modeWave hyperu D i a phi := by
  have hw : D.omega i ≠ 0 := by
    obtain ⟨h1, h2, h3⟩ := hi
    rw [h3]; positivity
  have hx := x0_pos hi
  have hwave : ∀ a : ℕ, a < 250 → modeWave hyperu D i a phi = ((√Phi0 * oscState (D.x0 i) a (Phi0 * phi) : ℝ) : ℂ) := by
    intro a ha
    unfold modeWave
    rw [if_neg hw, oscWave_eq hyperu hx ha]
  have hsum : ∑ a, ((√hbar : ℝ) : ℂ) * fluxOpIso D m i a b * modeWave hyperu D i a phi
      = ((√hbar * √(0.5 * D.impedance i) : ℝ) : ℂ) *
        (∑ a, qDestroy (m i) a b * ((√Phi0 * oscState (D.x0 i) a (Phi0 * phi) : ℝ) : ℂ)
          + ∑ a, qCreate (m i) a b * ((√Phi0 * oscState (D.x0 i) a (Phi0 * phi) : ℝ) : ℂ)) := by
    rw [← Finset.sum_add_distrib, Finset.mul_sum]
    refine Finset.sum_congr rfl fun a _ => ?_
    rw [hwave a (by have := a.2; omega)]
    unfold fluxOpIso
    rw [if_neg hw, if_neg (by omega), Matrix.smul_apply, Matrix.add_apply, smul_eq_mul]
    push_cast
    ring
  rw [hsum, (ladder_sum b hb (fun a => ((√Phi0 * oscState (D.x0 i) a (Phi0 * phi) : ℝ) : ℂ))).1,
    (ladder_sum b hb (fun a => ((√Phi0 * oscState (D.x0 i) a (Phi0 * phi) : ℝ) : ℂ))).2,
    hwave b (by omega), ← x0_impedance]
  have := osc_flux hx b (Phi0 * phi)
  have h2 : Phi0 * phi * (√Phi0 * oscState (D.x0 i) b (Phi0 * phi))
      = D.x0 i / √2 * (√((b : ℕ) : ℝ) * (√Phi0 * oscState (D.x0 i) (b - 1) (Phi0 * phi))
        + √(((b : ℕ) + 1 : ℕ) : ℝ) * (√Phi0 * oscState (D.x0 i) (b + 1) (Phi0 * phi))) := by
    calc _ = √Phi0 * (Phi0 * phi * oscState (D.x0 i) b (Phi0 * phi)) := by ring
      _ = _ := by rw [this]; ring
  rw [← Complex.ofReal_mul, h2]
  push_cast
  ring

/-- C77: for a harmonic mode below its top level, -iħ d/dΦ of the wave function is the action of the
charge operator. -/
theorem C77_charge (hyperu : ℝ → ℝ → ℝ → ℝ) {D : ModeData nJ k} {m : Fin k → ℕ} {i : Fin k} (hi : Harmonic D i)
    (ng : Fin k → ℝ) (hm : m i ≤ 250) (b : Fin (m i)) (hb : (b : ℕ) + 1 < m i) (phi : ℝ) :
    ∃ d : ℂ, HasDerivAt (fun p : ℝ => modeWave hyperu D i b p) d phi ∧
      -I * hbar * (d / Phi0) = ∑ a, ((√hbar : ℝ) : ℂ) * chargeOpIso D m ng i a b * modeWave hyperu D i a phi := by
  have hw : D.omega i ≠ 0 := by
    obtain ⟨h1, h2, h3⟩ := hi
    rw [h3]; positivity
  have hx := x0_pos hi
  have hwave : ∀ a : ℕ, a < 250 → ∀ p, modeWave hyperu D i a p = ((√Phi0 * oscState (D.x0 i) a (Phi0 * p) : ℝ) : ℂ) := by
    intro a ha p
    unfold modeWave
    rw [if_neg hw, oscWave_eq hyperu hx ha]
  have hP := Phi0_pos
  have hPc : (Phi0 : ℂ) ≠ 0 := Complex.ofReal_ne_zero.2 hP.ne'
  set dr : ℝ := 1 / (√2 * D.x0 i) * (√((b : ℕ) : ℝ) * oscState (D.x0 i) (b - 1) (Phi0 * phi)
    - √(((b : ℕ) + 1 : ℕ) : ℝ) * oscState (D.x0 i) (b + 1) (Phi0 * phi)) with hdr
  refine ⟨((√Phi0 * (dr * Phi0) : ℝ) : ℂ), ?_, ?_⟩
  · have h1 : HasDerivAt (fun p : ℝ => Phi0 * p) Phi0 phi := by
      simpa using (hasDerivAt_id' phi).const_mul Phi0
    have h2 := ((osc_deriv hx b (Phi0 * phi)).comp phi h1).const_mul (√Phi0)
    have h3 := h2.ofReal_comp
    have e : (fun p : ℝ => modeWave hyperu D i b p)
        = fun p : ℝ => ((√Phi0 * (oscState (D.x0 i) b ∘ fun p => Phi0 * p) p : ℝ) : ℂ) := by
      funext p
      exact hwave b (by omega) p
    rw [e]
    exact h3
  · have hsum : ∑ a, ((√hbar : ℝ) : ℂ) * chargeOpIso D m ng i a b * modeWave hyperu D i a phi
        = -I * ((√hbar * √(0.5 / D.impedance i) : ℝ) : ℂ) *
          (∑ a, qDestroy (m i) a b * ((√Phi0 * oscState (D.x0 i) a (Phi0 * phi) : ℝ) : ℂ)
            - ∑ a, qCreate (m i) a b * ((√Phi0 * oscState (D.x0 i) a (Phi0 * phi) : ℝ) : ℂ)) := by
      rw [← Finset.sum_sub_distrib, Finset.mul_sum]
      refine Finset.sum_congr rfl fun a _ => ?_
      rw [hwave a (by have := a.2; omega)]
      unfold chargeOpIso
      rw [if_neg hw, if_neg (by omega), Matrix.smul_apply, Matrix.sub_apply, smul_eq_mul]
      push_cast
      ring
    rw [hsum, (ladder_sum b hb (fun a => ((√Phi0 * oscState (D.x0 i) a (Phi0 * phi) : ℝ) : ℂ))).1,
      (ladder_sum b hb (fun a => ((√Phi0 * oscState (D.x0 i) a (Phi0 * phi) : ℝ) : ℂ))).2, ← x0_admittance hi, hdr]
    push_cast
    field_simp

/-- C77: the wave functions of the levels of a harmonic mode solve the Schrödinger equation of the
oscillator, at energy ħω(n + 1/2). -/
theorem C77_energy (hyperu : ℝ → ℝ → ℝ → ℝ) {D : ModeData nJ k} {i : Fin k} (hi : Harmonic D i) {n : ℕ}
    (hn : n < 250) (phi : ℝ) :
    -(hbar ^ 2 * D.cInv i i / 2) * (deriv (deriv (oscWave hyperu (D.x0 i) n)) phi / Phi0 ^ 2)
      + D.l i i / 2 * (Phi0 * phi) ^ 2 * oscWave hyperu (D.x0 i) n phi
      = hbar * D.omega i * (n + 1 / 2) * oscWave hyperu (D.x0 i) n phi := by
  have hx := x0_pos hi
  have hP := Phi0_pos
  have hh : 0 < hbar := by unfold hbar; norm_num
  set y := D.x0 i with hy
  have hfun : oscWave hyperu y n = fun p => √Phi0 * oscState y n (Phi0 * p) := by
    funext p; exact oscWave_eq hyperu hx hn p
  have hd : ∀ (j : ℕ) (p : ℝ), HasDerivAt (fun p => oscState y j (Phi0 * p))
      (1 / (√2 * y) * (√(j : ℝ) * oscState y (j - 1) (Phi0 * p)
        - √((j + 1 : ℕ) : ℝ) * oscState y (j + 1) (Phi0 * p)) * Phi0) p := by
    intro j p
    have h1 : HasDerivAt (fun p : ℝ => Phi0 * p) Phi0 p := by
      simpa using (hasDerivAt_id' p).const_mul Phi0
    exact (osc_deriv hx j (Phi0 * p)).comp p h1
  have hd1 : deriv (oscWave hyperu y n) = fun p => √Phi0 * (1 / (√2 * y) * (√(n : ℝ) * oscState y (n - 1) (Phi0 * p)
        - √((n + 1 : ℕ) : ℝ) * oscState y (n + 1) (Phi0 * p)) * Phi0) := by
    funext p
    rw [hfun]
    exact ((hd n p).const_mul _).deriv
  have hd2 := (((((hd (n - 1) phi).const_mul (√(n : ℝ))).sub ((hd (n + 1) phi).const_mul (√((n + 1 : ℕ) : ℝ)))).const_mul
    (1 / (√2 * y))).mul_const Phi0).const_mul (√Phi0)
  have hdd := hd2.deriv
  change deriv (fun p => √Phi0 * (1 / (√2 * y) * (√(n : ℝ) * oscState y (n - 1) (Phi0 * p)
        - √((n + 1 : ℕ) : ℝ) * oscState y (n + 1) (Phi0 * p)) * Phi0)) phi = _ at hdd
  rw [hd1, hdd, hfun]
  have hs2 : √2 * √2 = 2 := Real.mul_self_sqrt (by norm_num)
  have h2p : (0 : ℝ) < √2 := by positivity
  -- ladder relations at this flux
  set P := Phi0 * phi with hPdef
  have f0 := osc_flux hx n P
  have fu := osc_flux hx (n + 1) P
  have fd := osc_flux hx (n - 1) P
  simp only [Nat.add_sub_cancel] at fu ⊢
  have hsq : √((n + 1 : ℕ) : ℝ) * √((n + 1 : ℕ) : ℝ) = n + 1 := by
    rw [Real.mul_self_sqrt (by positivity)]; push_cast; ring
  have hsqn : √(n : ℝ) * √(n : ℝ) = n := Real.mul_self_sqrt (by positivity)
  -- the term √n √((n-1)+1) ψ_{(n-1)+1} is n ψ_n
  have hdn : √(n : ℝ) * (√((n - 1 + 1 : ℕ) : ℝ) * oscState y (n - 1 + 1) P) = n * oscState y n P := by
    cases n with
    | zero => simp
    | succ n =>
      rw [Nat.add_sub_cancel, ← mul_assoc, hsqn]
  set A := √(n : ℝ) * (√((n - 1 : ℕ) : ℝ) * oscState y (n - 1 - 1) P) with hA
  set B := √((n + 1 : ℕ) : ℝ) * (√((n + 1 + 1 : ℕ) : ℝ) * oscState y (n + 1 + 1) P) with hB
  set ψ := oscState y n P with hψ
  have hup : √((n + 1 : ℕ) : ℝ) * (√((n + 1 : ℕ) : ℝ) * ψ) = (n + 1) * ψ := by
    rw [← mul_assoc, hsq]
  have hder : √(n : ℝ) * (1 / (√2 * y) * (√((n - 1 : ℕ) : ℝ) * oscState y (n - 1 - 1) P
        - √((n - 1 + 1 : ℕ) : ℝ) * oscState y (n - 1 + 1) P) * Phi0)
      - √((n + 1 : ℕ) : ℝ) * (1 / (√2 * y) * (√((n + 1 : ℕ) : ℝ) * ψ
        - √((n + 1 + 1 : ℕ) : ℝ) * oscState y (n + 1 + 1) P) * Phi0)
      = 1 / (√2 * y) * Phi0 * (A - n * ψ - (n + 1) * ψ + B) := by
    rw [hA, hB, ← hdn, ← hup]; ring
  have hpot : P ^ 2 * ψ = (y / √2) ^ 2 * (A + n * ψ + (n + 1) * ψ + B) := by
    rw [pow_two, mul_assoc, f0]
    calc _ = y / √2 * (√(n : ℝ) * (P * oscState y (n - 1) P) + √((n + 1 : ℕ) : ℝ) * (P * oscState y (n + 1) P)) := by ring
      _ = _ := by rw [fd, fu, hA, hB, ← hdn, ← hup]; ring
  have hyy : y ^ 2 = hbar * √(D.cInv i i / D.l i i) := by
    rw [hy]; unfold ModeData.x0
    exact Real.sq_sqrt (by positivity)
  obtain ⟨hc, hl, ho⟩ := hi
  -- c/y² and l y² are both ω/ħ-like
  set Z := √(D.cInv i i / D.l i i) with hZ
  have hZp : 0 < Z := by rw [hZ]; positivity
  have hZl : D.cInv i i = D.omega i * Z := by
    rw [ho, hZ, ← Real.sqrt_mul (by positivity), show D.cInv i i * D.l i i * (D.cInv i i / D.l i i) = D.cInv i i * D.cInv i i by field_simp,
      Real.sqrt_mul_self hc.le]
  have hlZ : D.l i i * Z = D.omega i := by
    have : D.l i i = √(D.l i i * D.l i i) := (Real.sqrt_mul_self hl.le).symm
    rw [this, ho, hZ, ← Real.sqrt_mul (by positivity)]
    congr 1
    field_simp
  rw [hder]
  have e1 : (1 / (√2 * y)) ^ 2 = 1 / (2 * (hbar * Z)) := by
    rw [div_pow, mul_pow, hyy, pow_two √2, hs2, one_pow]
  have e2 : (y / √2) ^ 2 = hbar * Z / 2 := by
    rw [div_pow, hyy, pow_two √2, hs2]
  calc _ = √Phi0 * (-(hbar ^ 2 * D.cInv i i / 2) * (1 / (√2 * y)) ^ 2 * (Phi0 ^ 2 / Phi0 ^ 2)
          * (A - n * ψ - (n + 1) * ψ + B) + D.l i i / 2 * (P ^ 2 * ψ)) := by ring
    _ = √Phi0 * (-(hbar ^ 2 * (D.omega i * Z) / 2) * (1 / (2 * (hbar * Z)))
          * (A - n * ψ - (n + 1) * ψ + B) + D.l i i / 2 * (hbar * Z / 2 * (A + n * ψ + (n + 1) * ψ + B))) := by
        rw [hpot, e1, e2, div_self (by positivity), mul_one, ← hZl]
    _ = √Phi0 * (hbar * (D.omega i) / 4 * (-(A - n * ψ - (n + 1) * ψ + B)) + hbar * (D.l i i * Z) / 4 * (A + n * ψ + (n + 1) * ψ + B)) := by
        field_simp
        ring
    _ = _ := by rw [hlZ]; ring

/-! ### charge modes -/

/-- C77: for a charge mode, -i d/dφ of a charge state is the action of the number operator and
2e(-i d/dφ - n_g) that of the charge operator. -/
theorem C77_charge_mode {D : ModeData nJ k} {m : Fin k → ℕ} {i : Fin k} (hi : D.omega i = 0) (ng : Fin k → ℝ)
    (b : Fin (m i)) (phi : ℝ) :
    ∃ d : ℂ, HasDerivAt (fun p : ℝ => chargeState (((b : ℕ) : ℝ) - ((m i : ℝ) - 1) / 2) p) d phi ∧
      -I * d = ∑ a, numOpIso D m i a b * chargeState (((a : ℕ) : ℝ) - ((m i : ℝ) - 1) / 2) phi ∧
      2 * eCharge * (-I * d - ng i * chargeState (((b : ℕ) : ℝ) - ((m i : ℝ) - 1) / 2) phi)
        = ∑ a, ((√hbar : ℝ) : ℂ) * chargeOpIso D m ng i a b * chargeState (((a : ℕ) : ℝ) - ((m i : ℝ) - 1) / 2) phi := by
  have hh : 0 < hbar := by unfold hbar; norm_num
  have hhc : ((√hbar : ℝ) : ℂ) ≠ 0 := Complex.ofReal_ne_zero.2 (Real.sqrt_pos.2 hh).ne'
  set q : ℝ := ((b : ℕ) : ℝ) - ((m i : ℝ) - 1) / 2 with hq
  refine ⟨chargeState q phi * (I * q), ?_, ?_, ?_⟩
  · unfold chargeState
    have h1 : HasDerivAt (fun p : ℝ => I * ((q * p : ℝ) : ℂ)) (I * (q : ℂ)) phi := by
      have h0 : HasDerivAt (fun p : ℝ => q * p) q phi := by simpa using (hasDerivAt_id' phi).const_mul q
      exact (h0.ofReal_comp).const_mul I
    have h2 := (h1.cexp).const_mul (((1 / √(2 * Real.pi) : ℝ)) : ℂ)
    rw [mul_assoc]
    exact h2
  · unfold numOpIso qCharge
    rw [if_pos hi, Finset.sum_eq_single b]
    · rw [Matrix.diagonal_apply_eq, ← hq]
      have : -I * (chargeState q phi * (I * q)) = -(I * I) * (q * chargeState q phi) := by ring
      rw [this, I_mul_I, neg_neg, one_mul]
      congr 1
      rw [hq]; push_cast; ring
    · intro a _ ha
      rw [Matrix.diagonal_apply_ne _ ha, zero_mul]
    · intro h; exact absurd (Finset.mem_univ _) h
  · unfold chargeOpIso qCharge
    rw [if_pos hi, Finset.sum_eq_single b]
    · rw [Matrix.smul_apply, Matrix.sub_apply, Matrix.diagonal_apply_eq, Matrix.smul_apply, Matrix.one_apply_eq, ← hq]
      have : -I * (chargeState q phi * (I * q)) = -(I * I) * (q * chargeState q phi) := by ring
      rw [this, I_mul_I, neg_neg, one_mul]
      have hqc : ((q : ℝ) : ℂ) = ((b : ℕ) : ℂ) - ((m i : ℂ) - 1) / 2 := by rw [hq]; push_cast; ring
      rw [← hqc]
      simp only [smul_eq_mul]
      push_cast
      field_simp
    · intro a _ ha
      rw [Matrix.smul_apply, Matrix.sub_apply, Matrix.diagonal_apply_ne _ ha, Matrix.smul_apply, Matrix.one_apply_ne ha]
      simp
    · intro h; exact absurd (Finset.mem_univ _) h

/-- C77: for a charge mode, multiplication by e^{iwφ}, w ∈ {-1, 0, 1}, is the action of the displacement
factor used in the junction operators, away from the ends of the truncated basis. -/
theorem C77_exponential {N : ℕ} (w : ℤ) (hw : w = -1 ∨ w = 0 ∨ w = 1) (b : Fin N) (hb : 0 ≤ (b : ℤ) + w ∧ (b : ℤ) + w < N)
    (phi : ℝ) :
    Complex.exp (I * (w * phi : ℝ)) * chargeState (((b : ℕ) : ℝ) - ((N : ℝ) - 1) / 2) phi
      = ∑ a, dOp N w a b * chargeState (((a : ℕ) : ℝ) - ((N : ℝ) - 1) / 2) phi := by
  have hl : Complex.exp (I * (w * phi : ℝ)) * chargeState (((b : ℕ) : ℝ) - ((N : ℝ) - 1) / 2) phi
      = chargeState (((((b : ℤ) + w).toNat : ℕ) : ℝ) - ((N : ℝ) - 1) / 2) phi := by
    unfold chargeState
    rw [mul_left_comm, ← Complex.exp_add]
    congr 2
    have : ((((b : ℤ) + w).toNat : ℕ) : ℝ) = (b : ℕ) + w := by
      have h := Int.toNat_of_nonneg hb.1
      have h2 : (((((b : ℤ) + w).toNat : ℕ) : ℤ) : ℝ) = (((b : ℤ) + w : ℤ) : ℝ) := by rw [h]
      push_cast at h2
      exact_mod_cast h2
    rw [this]
    push_cast
    ring
  rw [hl, Finset.sum_eq_single ⟨((b : ℤ) + w).toNat, by omega⟩]
  · have : dOp N w ⟨((b : ℤ) + w).toNat, by omega⟩ b = 1 := by
      unfold dOp
      rcases hw with h | h | h <;> subst h
      · rw [if_neg (by norm_num), if_pos (by norm_num)]
        simp only [Matrix.of_apply]
        rw [if_pos]
        simp; omega
      · rw [if_pos (by norm_num), Matrix.one_apply, if_pos]
        apply Fin.ext; simp
      · rw [if_neg (by norm_num), if_neg (by norm_num)]
        simp only [Matrix.conjTranspose_apply, Matrix.of_apply]
        rw [if_pos, star_one]
        simp
    rw [this, one_mul]
  · intro a _ ha
    have hav : (a : ℕ) ≠ ((b : ℤ) + w).toNat := fun h => ha (Fin.ext h)
    have : dOp N w a b = 0 := by
      unfold dOp
      rcases hw with h | h | h <;> subst h
      · rw [if_neg (by norm_num), if_pos (by norm_num)]
        simp only [Matrix.of_apply]
        rw [if_neg]
        omega
      · rw [if_pos (by norm_num), Matrix.one_apply_ne]
        intro h; apply hav; subst h; simp
      · rw [if_neg (by norm_num), if_neg (by norm_num)]
        simp only [Matrix.conjTranspose_apply, Matrix.of_apply]
        rw [if_neg, star_zero]
        omega
    rw [this, zero_mul]
  · intro h; exact absurd (Finset.mem_univ _) h

/-- the hypotheses hold of `oneMode` with 20 levels, and of the middle of a charge basis of 3 states -/
example : Harmonic oneMode 0 ∧ ((3 : Fin 20) : ℕ) + 1 < 20 ∧
    (0 ≤ (((1 : Fin 3) : ℕ) : ℤ) + (-1) ∧ (((1 : Fin 3) : ℕ) : ℤ) + (-1) < 3) :=
  ⟨⟨by simp, by simp, by simp⟩, by decide, by decide⟩

end SQ
