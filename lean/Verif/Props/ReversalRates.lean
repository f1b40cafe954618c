import Verif.Props.Reversal
import Verif.Props.SolverChoice

/-!
# C143: reversing all fluxes leaves all rates between simple levels unchanged
-/

namespace SQ
open Spec Matrix

/-! ### helper lemmas: matrix elements between transformed states -/

section
variable {ι : Type*} [Fintype ι] [DecidableEq ι] (e : ι ≃ ι) (s : ι → ℝ) (hs : ∀ x, s x * s x = 1)

theorem innerOp_anti {A : Matrix ι ι ℂ} (hA : antiHom e s hs A = A) (u v : ι → ℂ) :
    innerOp (antiVec e s u) A (antiVec e s v) = (starRingEnd ℂ) (innerOp u A v) := by
  unfold innerOp
  have h := antiHom_mulVec e s hs A v
  rw [hA] at h
  rw [h]
  exact antiVec_overlap e s hs u (A *ᵥ v)

theorem innerOp_anti_to {A B : Matrix ι ι ℂ} (hA : antiHom e s hs A = B) (u v : ι → ℂ) :
    innerOp (antiVec e s u) B (antiVec e s v) = (starRingEnd ℂ) (innerOp u A v) := by
  unfold innerOp
  rw [← hA, antiHom_mulVec e s hs A v]
  exact antiVec_overlap e s hs u (A *ᵥ v)

/-- an operator that changes sign up to a constant -/
theorem innerOp_anti_neg {A B : Matrix ι ι ℂ} {r : ℝ} (hA : antiHom e s hs A = -B + (r : ℂ) • 1) (u v : ι → ℂ) :
    innerOp (antiVec e s u) B (antiVec e s v) = (starRingEnd ℂ) (r * overlap u v - innerOp u A v) := by
  have h1 := innerOp_anti_to e s hs hA u v
  have h2 : innerOp (antiVec e s u) (-B + (r : ℂ) • 1) (antiVec e s v) =
      -innerOp (antiVec e s u) B (antiVec e s v) + r * overlap (antiVec e s u) (antiVec e s v) := by
    unfold innerOp
    rw [Matrix.add_mulVec, dotProduct_add, Matrix.neg_mulVec, dotProduct_neg, Matrix.smul_mulVec, Matrix.one_mulVec,
      dotProduct_smul, smul_eq_mul]
    rfl
  have h3 : overlap (antiVec e s u) (antiVec e s v) = (starRingEnd ℂ) (overlap u v) := antiVec_overlap e s hs u v
  rw [h2, h3] at h1
  rw [map_sub, map_mul, Complex.conj_ofReal, ← h1]
  ring

omit [DecidableEq ι] in
/-- eigenvectors of different eigenvalues are orthogonal -/
theorem orth_of_ne {H : Matrix ι ι ℂ} (hH : H.IsHermitian) {u v : ι → ℂ} {a b : ℝ} (hu : H *ᵥ u = (a : ℂ) • u)
    (hv : H *ᵥ v = (b : ℂ) • v) (hab : a ≠ b) : overlap u v = 0 := by
  have h1 : star u ⬝ᵥ (H *ᵥ v) = star (H *ᵥ u) ⬝ᵥ v := by
    rw [Matrix.star_mulVec, hH.eq, Matrix.dotProduct_mulVec]
  have h2 : star u ⬝ᵥ v = overlap u v := rfl
  rw [hu, hv, dotProduct_smul, star_smul, smul_dotProduct, h2, smul_eq_mul, smul_eq_mul, Complex.star_def,
    Complex.conj_ofReal] at h1
  have h3 : ((b : ℂ) - a) * overlap u v = 0 := by rw [sub_mul, h1, sub_self]
  rcases mul_eq_zero.1 h3 with h | h
  · exact absurd (by exact_mod_cast (sub_eq_zero.1 h).symm) hab
  · exact h

theorem antiVec_smul (y : ℂ) (v : ι → ℂ) : antiVec e s (y • v) = (starRingEnd ℂ) y • antiVec e s v := by
  funext x
  simp only [antiVec, Pi.smul_apply, smul_eq_mul, map_mul]
  ring

theorem addTerms_anti {k : ℕ} (coef : Fin k → Except PyErr ℝ) (ops : Fin k → Matrix ι ι ℂ)
    (ho : ∀ i, antiHom e s hs (ops i) = ops i) (l : List (Fin k)) : ∀ (acc : Matrix ι ι ℂ) {op : Matrix ι ι ℂ},
    antiHom e s hs acc = acc → addTerms coef ops l acc = .ok op → antiHom e s hs op = op := by
  induction l with
  | nil =>
    intro acc op ha h
    obtain rfl := Except.ok.inj h
    exact ha
  | cons i l ih =>
    intro acc op ha h
    unfold addTerms at h
    cases hc : coef i with
    | error e => rw [hc] at h; cases h
    | ok c =>
      rw [hc] at h
      exact ih _ (by rw [map_add, ha, antiHom_real, ho]) h

end

section
variable {k nJ : ℕ}

theorem conj_two_I : (starRingEnd ℂ) (1 / (2 * Complex.I)) = -(1 / (2 * Complex.I)) := by
  rw [map_div₀, map_one, map_mul, Complex.conj_I, Complex.conj_ofNat, mul_neg, div_neg]

theorem fluxRev_sine (D : ModeData nJ k) (m : Fin k → ℕ) (ng : Fin k → ℝ) (i : Fin nJ) (x : ℝ) :
    fluxRev D m (sinOp (buildMem D m ng) i x) = -sinOp (buildMem D m ng) i (-x) := by
  unfold sinOp
  have e := fluxRev_exp D m ng i
  unfold fluxRev antiTens at e ⊢
  rw [antiHom_smul, map_sub, antiHom_conjTranspose, antiHom_smul, e, phase_neg, conj_two_I, neg_smul]

theorem rev_rootExp (D : ModeData nJ k) (m : Fin k → ℕ) (i : Fin nJ) (j : Fin k) :
    revMode D m j (rootExpFactor D m i j) = rootExpFactor D m i j := by
  unfold rootExpFactor
  split
  · exact map_one _
  · rename_i h
    split
    · exact map_one _
    · have hc : (starRingEnd ℂ) (D.alpha i j / 2) = -(D.alpha i j / 2) := by
        rw [map_div₀, alpha_conj, Complex.conj_ofNat, neg_div]
      unfold qDisplace
      rw [antiHom_exp, map_sub, antiHom_smul, antiHom_smul, hc, map_neg, hc, neg_neg]
      rw [rev_destroy h, rev_create h, neg_smul_neg, smul_neg, neg_smul, sub_neg_eq_add]

theorem fluxRev_halfSine (D : ModeData nJ k) (m : Fin k → ℕ) (ng : Fin k → ℝ) (i : Fin nJ) (x : ℝ) :
    fluxRev D m (sinHalfOp (buildMem D m ng) i x) = -sinHalfOp (buildMem D m ng) i (-x) := by
  unfold sinHalfOp
  have e : fluxRev D m ((buildMem D m ng).rootExp i) = (buildMem D m ng).rootExp i := by
    show fluxRev D m (tens (rootExpFactor D m i)) = tens (rootExpFactor D m i)
    rw [antiTens_tens]
    exact congrArg tens (funext fun j => rev_rootExp D m i j)
  unfold fluxRev antiTens at e ⊢
  rw [antiHom_smul, map_sub, antiHom_conjTranspose, antiHom_smul, e, neg_div, phase_neg, conj_two_I, neg_smul]

end

section
variable {n b nl nJ : ℕ}

theorem jun_reversed (C : Matrix (Fin n) (Fin n) ℝ) (M : Modes nJ n) (m : Fin M.keep.length → ℕ) (ng : Fin M.keep.length → ℝ)
    (val : ElemId → ℝ) (B : Matrix (Fin b) (Fin nl) ℝ) (lv lv' : Fin nl → ℝ) (hlv : ∀ j, extFlux B lv' j = -extFlux B lv j)
    (P : ElemId → Matrix (Fin n) (Fin n) ℝ) (inds : List (IndKey b)) (juns : List (JunKey b nJ)) (bId : Option (Fin b))
    (i : ElemId) :
    fluxRev M.data m (partialH C M (buildMem M.data m ng) val B lv P inds juns bId (.jun i)) =
      partialH C M (buildMem M.data m ng) val B lv' P inds juns bId (.jun i) := by
  simp only [partialH]
  have : ∀ (l : List (JunKey b nJ)) (acc acc' : Op m), fluxRev M.data m acc = acc' →
      fluxRev M.data m (l.foldl (fun acc key =>
        if key.el = i ∧ (bId = none ∨ bId = some key.bId) then
          acc + (-1 : ℂ) • cosOp (buildMem M.data m ng) key.wId (extFlux B lv key.bId) else acc) acc) =
      l.foldl (fun acc key =>
        if key.el = i ∧ (bId = none ∨ bId = some key.bId) then
          acc + (-1 : ℂ) • cosOp (buildMem M.data m ng) key.wId (extFlux B lv' key.bId) else acc) acc' := by
    intro l
    induction l with
    | nil => intro acc acc' h; exact h
    | cons key l ih =>
      intro acc acc' h
      simp only [List.foldl_cons]
      refine ih _ _ ?_
      split_ifs
      · rw [map_add, h]
        congr 1
        have h1 := antiTens_real (fun _ => Equiv.refl _) (fluxSign M.data m) (fluxSign_sq M.data m) (-1)
          (cosOp (buildMem M.data m ng) key.wId (extFlux B lv key.bId))
        rw [Complex.ofReal_neg, Complex.ofReal_one] at h1
        refine h1.trans (congrArg _ ?_)
        exact fluxRev_cos M.data m ng key.wId (by rw [hlv, phase_neg])
      · exact h
  exact this _ _ _ (map_zero _)

theorem loop_reversed (C : Matrix (Fin n) (Fin n) ℝ) (M : Modes nJ n) (hk : M.keep.length ≤ n) (m : Fin M.keep.length → ℕ)
    (ng : Fin M.keep.length → ℝ)
    (val : ElemId → ℝ) (B : Matrix (Fin b) (Fin nl) ℝ) (lv lv' : Fin nl → ℝ) (hlv : ∀ j, extFlux B lv' j = -extFlux B lv j)
    (P : ElemId → Matrix (Fin n) (Fin n) ℝ) (inds : List (IndKey b)) (juns : List (JunKey b nJ))
    (hv : ∀ key ∈ inds, ValidEdge n key.edge) (i : Fin nl) :
    ∃ r : ℝ, fluxRev M.data m (partialH C M (buildMem M.data m ng) val B lv P inds juns none (.loop i)) =
      -partialH C M (buildMem M.data m ng) val B lv' P inds juns none (.loop i) + (r : ℂ) • 1 := by
  rw [partialH_loop_eq, partialH_loop_eq, map_add, antiTens_list_sum, antiTens_list_sum]
  have hI : ∀ l : List (IndKey b), (∀ key ∈ l, ValidEdge n key.edge) → ∃ r : ℝ, (l.map fun key => fluxRev M.data m
      (((B key.bId i / val key.el * Phi0 / √hbar / 2 / Real.pi : ℝ) : ℂ) • indOpOf C M (buildMem M.data m ng) key)).sum =
      -(l.map fun key => ((B key.bId i / val key.el * Phi0 / √hbar / 2 / Real.pi : ℝ) : ℂ) •
        indOpOf C M (buildMem M.data m ng) key).sum + (r : ℂ) • (1 : Op m) := by
    intro l
    induction l with
    | nil => intro _; exact ⟨0, by simp⟩
    | cons key l ih =>
      intro h
      obtain ⟨r, hr⟩ := ih fun k hk => h k (by simp [hk])
      refine ⟨r + B key.bId i / val key.el * Phi0 / √hbar / 2 / Real.pi * (2 * placeholder M hk key.edge), ?_⟩
      rw [List.map_cons, List.sum_cons, hr, List.map_cons, List.sum_cons]
      rw [antiTens_real, fluxRev_ind C M hk m ng (h key (by simp))]
      rw [smul_add, smul_smul, smul_neg, Complex.ofReal_add, Complex.ofReal_mul
        (B key.bId i / val key.el * Phi0 / √hbar / 2 / Real.pi), add_smul]
      abel
  have hJ : ∀ l : List (JunKey b nJ), (l.map fun key => fluxRev M.data m
      (((B key.bId i * val key.el : ℝ) : ℂ) • sinOp (buildMem M.data m ng) key.wId (extFlux B lv key.bId))).sum =
      -(l.map fun key => ((B key.bId i * val key.el : ℝ) : ℂ) •
        sinOp (buildMem M.data m ng) key.wId (extFlux B lv' key.bId)).sum := by
    intro l
    induction l with
    | nil => simp
    | cons key l ih =>
      rw [List.map_cons, List.sum_cons, ih, List.map_cons, List.sum_cons, antiTens_real, fluxRev_sine, hlv, smul_neg, neg_add]
  obtain ⟨r, hr⟩ := hI inds hv
  refine ⟨r, ?_⟩
  rw [hr, hJ]
  abel

end

theorem indRate_none (N : NoiseCirc) (omega : ℝ) (s1 s2 s1' s2' : Idx N.m → ℂ) :
    N.indRate omega none s1 s2 = N.indRate omega none s1' s2' := by
  unfold NoiseCirc.indRate
  congr 1
  funext acc key
  cases N.noise.indQ key.el omega N.env.T with
  | none => rfl
  | some Q => cases acc <;> rfl

theorem foldl_same {α β : Type*} (f g : β → α → β) (l : List α) (h : ∀ x ∈ l, ∀ acc, f acc x = g acc x) (acc : β) :
    l.foldl f acc = l.foldl g acc := by
  induction l generalizing acc with
  | nil => rfl
  | cons x l ih =>
    rw [List.foldl_cons, List.foldl_cons, h x (by simp), ih fun y hy => h y (by simp [hy])]

/-- rates between two states and their time-reversed images -/
theorem rate_anti (N : NoiseCirc) (e : Idx N.m ≃ Idx N.m) (s : Idx N.m → ℝ) (hs : ∀ x, s x * s x = 1)
    (hQ : ∀ i, antiHom e s hs (N.mem.Q i) = N.mem.Q i) (lv' : Fin N.nl → ℝ)
    (hjun : ∀ key ∈ N.juns, antiHom e s hs (partialH N.C N.M N.mem N.val N.B N.loopVals N.P N.inds N.juns
      (some key.bId) (.jun key.el)) = partialH N.C N.M N.mem N.val N.B lv' N.P N.inds N.juns (some key.bId) (.jun key.el))
    (hloop : ∀ l, ∃ r : ℝ, antiHom e s hs (partialH N.C N.M N.mem N.val N.B N.loopVals N.P N.inds N.juns none (.loop l)) =
      -partialH N.C N.M N.mem N.val N.B lv' N.P N.inds N.juns none (.loop l) + (r : ℂ) • 1)
    (hind : ∀ key ∈ N.inds, ∃ r : ℝ, antiHom e s hs (indOpOf N.C N.M N.mem key) =
      -indOpOf N.C N.M N.mem key + (r : ℂ) • 1)
    (hqp : ∀ key ∈ N.juns, antiHom e s hs (sinHalfOp N.mem key.wId (extFlux N.B N.loopVals key.bId)) =
      -sinHalfOp N.mem key.wId (extFlux N.B lv' key.bId))
    (ef' : List ℝ) (ev' : List (Idx N.m → ℂ)) {p q : ℕ} {w1 w2 x : ℝ} {s1 s2 : Idx N.m → ℂ}
    {y z : ℂ} (hy : ‖y‖ = 1) (hz : ‖z‖ = 1) (a1 : N.efreqs[p]? = some w1) (a2 : N.efreqs[q]? = some w2)
    (b1 : ef'[p]? = some (w1 + x)) (b2 : ef'[q]? = some (w2 + x)) (c1 : N.evecs[p]? = some s1) (c2 : N.evecs[q]? = some s2)
    (d1 : ev'[p]? = some (y • antiVec e s s1)) (d2 : ev'[q]? = some (z • antiVec e s s2))
    (n1 : overlap s1 s1 = 1) (n2 : overlap s2 s2 = 1) (ho : p ≠ q → overlap s1 s2 = 0) (ty : String) (total : Bool) :
    ({ N with loopVals := lv', efreqs := ef', evecs := ev' } : NoiseCirc).decRate ty (p, q) total =
      N.decRate ty (p, q) total := by
  have hne : ∀ {α : Type} {l : List α} {i : ℕ} {x : α}, l[i]? = some x → l.length ≠ 0 := by
    intro α l i x h h0
    rw [List.length_eq_zero_iff.1 h0] at h
    cases h
  have hmel : ∀ nodes, ∀ r, N.matrixElements "capacitive" nodes (p, q) = r →
      ({ N with loopVals := lv', efreqs := ef', evecs := ev' } : NoiseCirc).matrixElements "capacitive" nodes (p, q) =
        r.map (fun t => star y * z * (starRingEnd ℂ) t) := by
    rintro nodes r rfl
    unfold NoiseCirc.matrixElements
    simp only [if_neg (hne c1), if_neg (hne d1), pyGet_of_getElem? c1, pyGet_of_getElem? c2, pyGet_of_getElem? d1,
      pyGet_of_getElem? d2, NoiseCirc.coupling]
    cases hop : couplingOp "capacitive" N.C N.M N.mem.Q N.mem.phi nodes with
    | error e => rfl
    | ok op =>
      have hA : antiHom e s hs op = op := by
        unfold couplingOp at hop
        rw [if_neg (by simp)] at hop
        exact addTerms_anti e s hs _ N.mem.Q hQ _ 0 (map_zero _) hop
      exact congrArg Except.ok ((innerOp_phase _ _ _ _ _).trans (by rw [innerOp_anti e s hs hA]))
  have hcap : ∀ omega tS l acc, ({ N with loopVals := lv', efreqs := ef', evecs := ev' } : NoiseCirc).capRate omega tS (p, q) l
      acc = N.capRate omega tS (p, q) l acc := by
    intro omega tS l
    induction l with
    | nil => intro acc; rfl
    | cons x l ih =>
      intro acc
      obtain ⟨edge, cap⟩ := x
      unfold NoiseCirc.capRate
      show (match N.noise.capQ cap with | none => _ | some Q => _) = _
      cases N.noise.capQ cap with
      | none => exact ih acc
      | some Q =>
        simp only
        obtain ⟨r, hr⟩ : ∃ r, N.matrixElements "capacitive" edge (p, q) = r := ⟨_, rfl⟩
        rw [hmel _ r hr, hr]
        cases r with
        | error e => rfl
        | ok x =>
          simp only [Except.map]
          rw [ih]
          congr 2
          funext t
          rw [norm_mul, norm_mul, norm_star, hy, hz, one_mul, one_mul, RCLike.norm_conj]
  have hng : ∀ i, antiHom e s hs (partialHng N.M.cInv N.mem i) = partialHng N.M.cInv N.mem i := by
    intro i
    have : ∀ (l : List (Fin N.M.keep.length)) (acc : Op N.m), antiHom e s hs acc = acc →
        antiHom e s hs (l.foldl (fun acc j => acc + ((N.M.cInv i j / √hbar : ℝ) : ℂ) • N.mem.Q j) acc) =
          l.foldl (fun acc j => acc + ((N.M.cInv i j / √hbar : ℝ) : ℂ) • N.mem.Q j) acc := by
      intro l
      induction l with
      | nil => intro acc h; exact h
      | cons j l ih =>
        intro acc h
        exact ih _ (by rw [map_add, h, antiHom_real, hQ])
    exact this _ 0 (map_zero _)
  have hch : ({ N with loopVals := lv', efreqs := ef', evecs := ev' } : NoiseCirc).chargeRate (y • antiVec e s s1)
      (z • antiVec e s s2) = N.chargeRate s1 s2 := by
    unfold NoiseCirc.chargeRate
    simp only [innerOp_phase_self hy, innerOp_phase_self hz, innerOp_anti e s hs (hng _), ← map_sub, RCLike.norm_conj]
  have hom : |w2 + x - (w1 + x)| = |w2 - w1| := by congr 1; ring
  have hcc : ∀ l, (∀ key ∈ l, key ∈ N.juns) → ∀ acc, ({ N with loopVals := lv', efreqs := ef', evecs := ev' } :
      NoiseCirc).ccRate (p, q) l acc = N.ccRate (p, q) l acc := by
    intro l
    induction l with
    | nil => intro _ acc; rfl
    | cons key l ih =>
      intro hl acc
      have hpo : partialOmegaMN ev' (partialH N.C N.M N.mem N.val N.B lv' N.P N.inds N.juns (some key.bId) (.jun key.el)) (p, q) =
          partialOmegaMN N.evecs (partialH N.C N.M N.mem N.val N.B N.loopVals N.P N.inds N.juns (some key.bId)
            (.jun key.el)) (p, q) := by
        unfold partialOmegaMN
        simp only [pyGet_of_getElem? c1, pyGet_of_getElem? c2, pyGet_of_getElem? d1, pyGet_of_getElem? d2]
        rw [innerOp_phase_self hy, innerOp_phase_self hz, innerOp_anti_to e s hs (hjun key (hl key (by simp))),
          innerOp_anti_to e s hs (hjun key (hl key (by simp))), ← map_sub, Complex.conj_re]
      unfold NoiseCirc.ccRate
      simp only [hpo]
      split
      · rfl
      · exact ih (fun k hk => hl k (by simp [hk])) _
  have hfl : ∀ l acc, ({ N with loopVals := lv', efreqs := ef', evecs := ev' } : NoiseCirc).fluxRate (p, q) l acc =
      N.fluxRate (p, q) l acc := by
    intro l
    induction l with
    | nil => intro acc; rfl
    | cons i l ih =>
      intro acc
      obtain ⟨r, hr⟩ := hloop i
      have hpo : partialOmegaMN ev' (partialH N.C N.M N.mem N.val N.B lv' N.P N.inds N.juns none (.loop i)) (p, q) =
          (partialOmegaMN N.evecs (partialH N.C N.M N.mem N.val N.B N.loopVals N.P N.inds N.juns none
            (.loop i)) (p, q)).map (fun t => -t) := by
        unfold partialOmegaMN
        simp only [pyGet_of_getElem? c1, pyGet_of_getElem? c2, pyGet_of_getElem? d1, pyGet_of_getElem? d2]
        rw [innerOp_phase_self hy, innerOp_phase_self hz, innerOp_anti_neg e s hs hr, innerOp_anti_neg e s hs hr, n1, n2,
          ← map_sub, Complex.conj_re, sub_sub_sub_cancel_left]
        simp only [Except.map]
        rw [← Complex.neg_re, neg_sub]
      unfold NoiseCirc.fluxRate
      simp only [hpo]
      cases partialOmegaMN N.evecs (partialH N.C N.M N.mem N.val N.B N.loopVals N.P N.inds N.juns none (.loop i)) (p, q) with
      | error e => rfl
      | ok t =>
        simp only [Except.map]
        have : dephasing N.env (N.noise.loopA i) (-t) = dephasing N.env (N.noise.loopA i) t := by
          unfold dephasing
          rw [neg_mul, abs_neg]
        rw [this]
        exact ih _
  have hin : ({ N with loopVals := lv', efreqs := ef', evecs := ev' } : NoiseCirc).indRate |w2 - w1|
      (tempS (thermalAlpha |w2 - w1| N.env.T) (p, q) total) (y • antiVec e s s1) (z • antiVec e s s2) =
      N.indRate |w2 - w1| (tempS (thermalAlpha |w2 - w1| N.env.T) (p, q) total) s1 s2 := by
    by_cases hpq : p = q
    · subst hpq
      rw [a1] at a2
      obtain rfl := Option.some.inj a2
      have : tempS (thermalAlpha |w1 - w1| N.env.T) (p, p) total = none := by
        have h0 : thermalAlpha 0 N.env.T = 0 := by
          unfold thermalAlpha
          simp
        have ht : thermal 0 = none := by
          unfold thermal
          rw [if_neg (by norm_num), if_pos rfl]
        rw [sub_self, abs_zero, h0]
        unfold tempS
        rw [ht]
      rw [this]
      exact indRate_none N _ _ _ _ _
    · unfold NoiseCirc.indRate
      refine foldl_same _ _ _ ?_ _
      intro key hkey acc
      obtain ⟨r, hr⟩ := hind key hkey
      simp only [innerOp_phase_norm hy hz]
      have : ‖innerOp (antiVec e s s1) (indOpOf N.C N.M N.mem key) (antiVec e s s2)‖ =
          ‖innerOp s1 (indOpOf N.C N.M N.mem key) s2‖ := by
        rw [innerOp_anti_neg e s hs hr, ho hpq, mul_zero, zero_sub, RCLike.norm_conj, norm_neg]
      rw [this]
  have hqr : ∀ omega tS, ({ N with loopVals := lv', efreqs := ef', evecs := ev' } : NoiseCirc).qpRate omega tS
      (y • antiVec e s s1) (z • antiVec e s s2) = N.qpRate omega tS s1 s2 := by
    intro omega tS
    unfold NoiseCirc.qpRate
    refine foldl_same _ _ _ ?_ _
    intro key hkey acc
    simp only [innerOp_phase_norm hy hz]
    have : ‖innerOp (antiVec e s s1) (sinHalfOp N.mem key.wId (extFlux N.B lv' key.bId)) (antiVec e s s2)‖ =
        ‖innerOp s1 (sinHalfOp N.mem key.wId (extFlux N.B N.loopVals key.bId)) s2‖ := by
      have h := innerOp_anti_neg e s hs (r := 0) (A := sinHalfOp N.mem key.wId (extFlux N.B N.loopVals key.bId))
        (B := sinHalfOp N.mem key.wId (extFlux N.B lv' key.bId)) (by rw [hqp key hkey]; simp) s1 s2
      rw [h, Complex.ofReal_zero, zero_mul, zero_sub, RCLike.norm_conj, norm_neg]
    rw [this]
  unfold NoiseCirc.decRate
  simp only [if_neg (hne a1), if_neg (hne b1), pyGet_of_getElem? c1, pyGet_of_getElem? c2, pyGet_of_getElem? d1,
    pyGet_of_getElem? d2, pyGet_of_getElem? a1, pyGet_of_getElem? a2, pyGet_of_getElem? b1, pyGet_of_getElem? b2, hom,
    hcap, hch, hcc N.juns (fun _ h => h), hfl, hin, hqr]

variable {c : CircSpec} {eigs : EigsFn} {as : List ℂ → List ℕ}

/-- what the flux calls do -/
theorem fluxCalls_effect (g : LoopId → ℝ) (ls : List LoopId) (w : World (circPhys c eigs as)) :
    (run w (fluxCalls ls g)).circ = w.circ ∧ (run w (fluxCalls ls g)).vals = w.vals ∧
    (run w (fluxCalls ls g)).unitFreq = w.unitFreq ∧ Orderly w (fluxCalls ls g) ∧
    ∀ l, (l ∈ ls ∨ w.flux l = g l * 2 * Real.pi) → (run w (fluxCalls ls g)).flux l = g l * 2 * Real.pi := by
  induction ls generalizing w with
  | nil => exact ⟨rfl, rfl, rfl, trivial, fun l hl => by simpa [fluxCalls, run] using hl⟩
  | cons a t ih =>
    obtain ⟨i1, i2, i3, i5, i4⟩ := ih { w with flux := Function.update w.flux a (g a * 2 * Real.pi) }
    refine ⟨i1, i2, i3, ⟨fun _ => Or.inl rfl, i5⟩, fun l hl => ?_⟩
    refine i4 l ?_
    by_cases hla : l = a
    · subst hla; right; simp
    · rcases hl with hl | hl
      · left; simpa [hla] using hl
      · right; simpa [Function.update_of_ne hla] using hl

/-- the Hamiltonians with opposite fluxes -/
theorem reversed_ham (hs : NoSelfLoops c.els)
    {vals : ElemId → ℝ} {flux : LoopId → ℝ} {u : ℝ}
    {w0 : World (circPhys c eigs as)} (hw : construct (circPhys c eigs as) vals flux u = .ok w0)
    {h : List Act} (hh : Orderly w0 h) (hm : (run w0 h).circ.m ≠ []) (f : LoopId → ℝ) (bd : Build)
    (hbd : (run w0 h).circ.bd = bd) :
    bd.M.keep.length ≤ bd.n ∧ (∀ key ∈ bd.inds, ValidEdge bd.n key.edge) ∧
    ∃ (H H' : Op (bd.dims (run w0 h).circ.m)) (x : ℝ),
      (hamiltonian (run w0 (h ++ fluxCalls bd.loops f))).1 = .ok ⟨_, _, H⟩ ∧
      (hamiltonian (run w0 (h ++ fluxCalls bd.loops (fun l => -f l)))).1 = .ok ⟨_, _, H'⟩ ∧
      H' = fluxRev bd.M.data _ H + (x : ℂ) • 1 := by
  subst hbd
  obtain ⟨hbok, -, -, hham⟩ := ham_now hs hw hh hm
  set bd : Build := (run w0 h).circ.bd with hbd
  have key : ∀ g : LoopId → ℝ, ∃ H : Op (bd.dims (run w0 h).circ.m),
      fullHamiltonian bd.C bd.M (bd.dims (run w0 h).circ.m) (fun i => ((run w0 h).circ.ng i).getD 0) (run w0 h).vals
        (extFlux bd.B fun i => g (bd.loops.get i) * 2 * Real.pi) bd.inds bd.juns = .ok H ∧
      (hamiltonian (run w0 (h ++ fluxCalls bd.loops g))).1 = .ok ⟨_, _, H⟩ := by
    intro g
    obtain ⟨H, hH, hherm⟩ := C40_hermitian bd.C bd.M hbok.1 (bd.dims (run w0 h).circ.m)
      (fun i => ((run w0 h).circ.ng i).getD 0) (run w0 h).vals (extFlux bd.B fun i => g (bd.loops.get i) * 2 * Real.pi)
      bd.inds bd.juns hbok.2
    refine ⟨H, hH, ?_⟩
    rw [run_append]
    obtain ⟨i1, i2, i3, -, i4⟩ := fluxCalls_effect g bd.loops (run w0 h)
    refine (hham (run (run w0 h) (fluxCalls bd.loops g)) i1).trans ?_
    have hfl : bd.fluxes (run (run w0 h) (fluxCalls bd.loops g)).flux =
        extFlux bd.B fun i => g (bd.loops.get i) * 2 * Real.pi := by
      unfold Build.fluxes
      congr 1
      funext i
      exact i4 _ (Or.inl (List.get_mem _ _))
    rw [i2]
    exact congrArg (Except.map fun H => (⟨_, _, H⟩ : Σ (k : ℕ) (d : Fin k → ℕ), Op d))
      ((congrArg (fun z => fullHamiltonian bd.C bd.M (bd.dims (run w0 h).circ.m)
        (fun i => ((run w0 h).circ.ng i).getD 0) (run w0 h).vals z bd.inds bd.juns) hfl).trans hH)
  obtain ⟨H, hH, hr⟩ := key f
  obtain ⟨H', hH', hr'⟩ := key fun l => -f l
  have hneg : (extFlux bd.B fun i => -f (bd.loops.get i) * 2 * Real.pi) =
      fun i => -extFlux bd.B (fun i => f (bd.loops.get i) * 2 * Real.pi) i := by
    funext i
    rw [extFlux_sum, extFlux_sum, ← Finset.sum_neg_distrib]
    exact Finset.sum_congr rfl fun l _ => by ring
  have hrev := fluxRev_ham bd.C bd.M hbok.1 (bd.dims (run w0 h).circ.m) (fun i => ((run w0 h).circ.ng i).getD 0)
    (run w0 h).vals _ _ bd.inds bd.juns hbok.2 (fun key _ => congrFun hneg key.bId)
    (fun key _ => by rw [hneg, phase_neg]) hH hH'
  exact ⟨hbok.1, hbok.2, H, H', _, hr, hr', hrev⟩

/-- C143: in every reachable state, set the loops of the circuit to the fluxes `f` or to the opposite fluxes and compute `num`
levels with `diag`. Between any two simple levels, `dec_rate` gives the same rate of every type (up, down or total), at any
temperature and with any quality factors and noise amplitudes. -/
theorem C143_flux_reversal (he : EigsLowest eigs) (ha : CArgsortSpec as) (hs : NoSelfLoops c.els)
    (vals : ElemId → ℝ) (flux : LoopId → ℝ) (u : ℝ)
    (w0 : World (circPhys c eigs as)) (hw : construct (circPhys c eigs as) vals flux u = .ok w0)
    (h : List Act) (hh : Orderly w0 h) (hm : (run w0 h).circ.m ≠ []) (f : LoopId → ℝ) (num : ℕ) (h1 : 1 ≤ num) :
    let bd := (run w0 h).circ.bd
    num + 1 < Fintype.card (Idx (bd.dims (run w0 h).circ.m)) →
    let w := run w0 (h ++ fluxCalls bd.loops f)
    let w' := run w0 (h ++ fluxCalls bd.loops (fun l => -f l))
    ∀ p q, p + 1 < num → q + 1 < num → SimpleLevel (reported num w) p → SimpleLevel (reported num w) q →
      ∀ (noise : ObjNoise) (env : NoiseEnv) (ty : String) (total : Bool),
        sessionRate noise env ty (p, q) total (diag (some num) w').2 =
          sessionRate noise env ty (p, q) total (diag (some num) w).2 := by
  intro bd0 hnum w w' p q hp hq hsp hsq noise env ty total
  obtain ⟨bd, hbd⟩ : ∃ bd : Build, bd = (run w0 h).circ.bd := ⟨_, rfl⟩
  have hbd0 : bd0 = bd := hbd.symm
  obtain ⟨hk, hve, H, H', x, hH, hH', hrev⟩ := reversed_ham hs hw hh hm f bd hbd.symm
  obtain ⟨i1, i2, i3, i5, i6⟩ := fluxCalls_effect f bd.loops (run w0 h)
  obtain ⟨j1, j2, j3, j5, j6⟩ := fluxCalls_effect (fun l => -f l) bd.loops (run w0 h)
  have e1 : w = run (run w0 h) (fluxCalls bd.loops f) := by rw [← run_append, ← hbd0]
  have e2 : w' = run (run w0 h) (fluxCalls bd.loops fun l => -f l) := by rw [← run_append, ← hbd0]
  have e1' : w = run w0 (h ++ fluxCalls bd.loops f) := by rw [← hbd0]
  have e2' : w' = run w0 (h ++ fluxCalls bd.loops fun l => -f l) := by rw [← hbd0]
  rw [← e1] at i1 i2 i3 i6
  rw [← e2] at j1 j2 j3 j6
  rw [← e1'] at hH
  rw [← e2'] at hH'
  have F : SolverFacts w w.circ.bd w.circ.m w.circ.islands w.vals w.flux w.unitFreq := by
    rw [e1']
    exact solver_facts he ha hs hw (orderly_append hh i5) (by rw [← e1', i1]; exact hm)
  have F' : SolverFacts w' w'.circ.bd w'.circ.m w'.circ.islands w'.vals w'.flux w'.unitFreq := by
    rw [e2']
    exact solver_facts he ha hs hw (orderly_append hh j5) (by rw [← e2', j1]; exact hm)
  have q1 : (w.circ.bd : Build) = bd := by rw [i1, hbd]
  have q1' : (w'.circ.bd : Build) = bd := by rw [j1, hbd]
  have q2 : w.circ.m = (run w0 h).circ.m := by rw [i1]
  have q2' : w'.circ.m = (run w0 h).circ.m := by rw [j1]
  have q3 : w.circ.islands = (run w0 h).circ.islands := by rw [i1]
  have q3' : w'.circ.islands = (run w0 h).circ.islands := by rw [j1]
  rw [q1, q2, q3, i2, i3] at F
  rw [q1', q2', q3', j2, j3] at F'
  have hnum' : num + 1 < Fintype.card (Idx (bd.dims (run w0 h).circ.m)) := by rw [← hbd0]; exact hnum
  obtain ⟨H1, hH1, hherm, F⟩ := F
  obtain ⟨H1', hH1', hherm', F'⟩ := F'
  have k1 : H1 = H := by
    rw [hH] at hH1
    exact (eq_of_heq (Sigma.mk.inj (eq_of_heq (Sigma.mk.inj (Except.ok.inj hH1)).2)).2).symm
  have k1' : H1' = H' := by
    rw [hH'] at hH1'
    exact (eq_of_heq (Sigma.mk.inj (eq_of_heq (Sigma.mk.inj (Except.ok.inj hH1')).2)).2).symm
  subst k1 k1'
  obtain ⟨vs, ws, ev, hlev, hrep, hevs, hlen, heig, hrate⟩ := F num h1 hnum'
  obtain ⟨vs', ws', ev', hlev', hrep', hevs', hlen', heig', hrate'⟩ := F' num h1 hnum'
  have hl3 : Levels H1' (vs.map (antiVec (Equiv.piCongrRight fun _ => Equiv.refl _)
      (fun x => ∏ i, fluxSign bd.M.data (bd.dims (run w0 h).circ.m) i (x i)))) (ws.map (· + x)) := by
    rw [hrev]
    exact levels_shift (levels_anti _ _ _ hlev) x
  obtain rfl : ws' = ws.map (· + x) := levels_unique hlev' hl3
  have hwl : ws.length = Fintype.card (Idx (bd.dims (run w0 h).circ.m)) := hlev.len.trans hlev.card
  have hph : ∀ p, p + 1 < num → SimpleLevel (reported num w) p →
      ∃ (psi : _) (y : ℂ), ‖y‖ = 1 ∧ ev[p]? = some psi ∧ overlap psi psi = 1 ∧ H1 *ᵥ psi = ((ws.getD p 0 : ℝ) : ℂ) • psi ∧
        ev'[p]? = some (y • antiVec (Equiv.piCongrRight fun _ => Equiv.refl _)
          (fun x => ∏ i, fluxSign bd.M.data (bd.dims (run w0 h).circ.m) i (x i)) psi) := by
    intro p hp hsp
    rw [hrep] at hsp
    have hs1 := simple_of_take hlev.sorted hp (by omega) hsp
    have hs2 : SimpleLevel (ws.map (· + x)) p := by
      refine ⟨by rw [List.length_map]; exact hs1.1, fun n hn hne heq => ?_⟩
      rw [List.length_map] at hn
      refine hs1.2 n hn hne ?_
      rw [List.getElem?_map, List.getElem?_map, List.getElem?_eq_getElem hn, List.getElem?_eq_getElem hs1.1] at heq
      rw [List.getElem?_eq_getElem hn, List.getElem?_eq_getElem hs1.1]
      simpa using heq
    have gp : ev[p]? = some (ev[p]'(by omega)) := List.getElem?_eq_getElem _
    have gp' : ev'[p]? = some (ev'[p]'(by omega)) := List.getElem?_eq_getElem _
    obtain ⟨y, hy, e1⟩ := simple_phase hherm hlev hs1 (heig p _ gp).1 (heig p _ gp).2
    obtain ⟨z, hz, e2⟩ := simple_phase hherm' hl3 hs2 (heig' p _ gp').1 (heig' p _ gp').2
    have hpv : p < vs.length := by rw [← hlev.len]; exact hs1.1
    rw [List.getD_eq_getElem _ _ (by rw [List.length_map]; exact hpv), List.getElem_map] at e2
    rw [List.getD_eq_getElem _ _ hpv] at e1
    have hy0 : (starRingEnd ℂ) y ≠ 0 := by
      intro h0
      have : y = 0 := by simpa using h0
      rw [this] at hy
      simp at hy
    refine ⟨_, z * ((starRingEnd ℂ) y)⁻¹, by rw [norm_mul, norm_inv, RCLike.norm_conj, hy, hz]; norm_num, gp, (heig p _ gp).1,
      (heig p _ gp).2, ?_⟩
    rw [gp', e1, antiVec_smul, smul_smul, mul_assoc, inv_mul_cancel₀ hy0, mul_one, ← e2]
  obtain ⟨psi, y, hy, a1, n1, g1, a2⟩ := hph p hp hsp
  obtain ⟨psi', z, hz, a3, n2, g2, a4⟩ := hph q hq hsq
  rw [hrate, hrate']
  have hget : ∀ i, i < num → i < ws.length → (ws.take num)[i]? = some (ws.getD i 0) := by
    intro i hn hl
    rw [List.getElem?_take_of_lt hn, List.getElem?_eq_getElem hl, List.getD_eq_getElem _ _ hl]
  have hget' : ∀ i, i < num → i < ws.length → ((ws.map (· + x)).take num)[i]? = some (ws.getD i 0 + x) := by
    intro i hn hl
    rw [List.getElem?_take_of_lt hn, List.getElem?_map, List.getElem?_eq_getElem hl, List.getD_eq_getElem _ _ hl]
    rfl
  have hlv : ∀ j, extFlux bd.B (fun l => w'.flux (bd.loops.get l)) j = -extFlux bd.B (fun l => w.flux (bd.loops.get l)) j := by
    intro j
    rw [extFlux_sum, extFlux_sum, ← Finset.sum_neg_distrib]
    refine Finset.sum_congr rfl fun l _ => ?_
    rw [i6 _ (Or.inl (List.get_mem _ _)), j6 _ (Or.inl (List.get_mem _ _))]
    ring
  have hort : p ≠ q → overlap psi psi' = 0 := by
    intro hpq
    have hsq' := hsq
    rw [hrep] at hsq'
    have hs2 := simple_of_take hlev.sorted hq (by omega) hsq'
    have hne : ws.getD p 0 ≠ ws.getD q 0 := by
      intro heq
      refine hs2.2 p (by omega) hpq ?_
      rw [List.getElem?_eq_getElem (by omega), List.getElem?_eq_getElem (by omega)]
      rw [List.getD_eq_getElem _ _ (by omega), List.getD_eq_getElem _ _ (by omega)] at heq
      rw [heq]
    exact orth_of_ne hherm g1 g2 hne
  exact congrArg some (rate_anti (Build.noise c bd _ _ _ _ _ _ env (ws.take num) ev) _ _ _
    (fun i => fluxRev_Q bd.M.data _ _ i) (fun l => w'.flux (bd.loops.get l))
    (fun key _ => jun_reversed bd.C bd.M _ _ _ bd.B _ _ hlv _ bd.inds bd.juns _ _)
    (fun l => loop_reversed bd.C bd.M hk _ _ _ bd.B _ _ hlv _ bd.inds bd.juns hve l)
    (fun key hkey => ⟨_, fluxRev_ind bd.C bd.M hk _ _ (hve key hkey)⟩)
    (fun key _ => (fluxRev_halfSine bd.M.data _ _ _ _).trans (by
      exact congrArg (fun t => -sinHalfOp (buildMem bd.M.data _ _) key.wId t) (hlv key.bId).symm))
    ((ws.map (· + x)).take num) ev' hy hz
    (hget p (by omega) (by omega)) (hget q (by omega) (by omega)) (hget' p (by omega) (by omega))
    (hget' q (by omega) (by omega)) a1 a3 a2 a4 n1 n2 hort ty total)

end SQ
