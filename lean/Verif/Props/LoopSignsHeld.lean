import Verif.Props.LoopSigns

/-!
# C134 and C111: frequencies of circuits held by inductors, with flux, written down in two ways
-/

namespace SQ
open Matrix Spec Real

/-- sum over the branches of one kind, by number -/
theorem fluxed_sum {α : Type*} [AddCommMonoid α] (kd : Kind) (O : Objs) (els : Elements) (val : ElemId → ℝ) (x : ℕ → ℝ)
    (f : PlacedBranch → α) :
    ((fluxedBranches kd O els val x).map f).sum = ∑ i : Fin (inductivePlacements O els).length,
      if (O.elem ((inductivePlacements O els).get i).2).kind = kd then
        f ⟨((inductivePlacements O els).get i).1, val ((inductivePlacements O els).get i).2, x i⟩ else 0 := by
  unfold fluxedBranches numbered
  rw [List.map_map]
  have key : ∀ (P : List (Edge × ElemId)) (s : ℕ),
      (((P.zipIdx s).filter fun q => decide ((O.elem q.1.2).kind = kd)).map (f ∘ fun q => ⟨q.1.1, val q.1.2, x q.2⟩)).sum =
      ∑ i : Fin P.length, if (O.elem (P.get i).2).kind = kd then f ⟨(P.get i).1, val (P.get i).2, x (s + i)⟩ else 0 := by
    intro P
    induction P with
    | nil => intro s; simp
    | cons p P ih =>
      intro s
      rw [List.zipIdx_cons]
      have hr : ∑ i : Fin (p :: P).length, (if (O.elem ((p :: P).get i).2).kind = kd then
            f ⟨((p :: P).get i).1, val ((p :: P).get i).2, x (s + i)⟩ else 0) =
          (if (O.elem p.2).kind = kd then f ⟨p.1, val p.2, x s⟩ else 0) +
          ∑ i : Fin P.length, (if (O.elem (P.get i).2).kind = kd then f ⟨(P.get i).1, val (P.get i).2, x (s + 1 + i)⟩ else 0) := by
        refine (Fin.sum_univ_succ (n := P.length) _).trans ?_
        congr 1
        refine Finset.sum_congr rfl fun i _ => ?_
        have : s + ((Fin.succ i : Fin (P.length + 1)) : ℕ) = s + 1 + i := by rw [Fin.val_succ]; omega
        simp only [this]
        rfl
      rw [hr, ← ih (s + 1)]
      by_cases hk : (O.elem p.2).kind = kd
      · rw [List.filter_cons_of_pos (by simpa using hk), List.map_cons, List.sum_cons, if_pos hk]; rfl
      · rw [List.filter_cons_of_neg (by simpa using hk), if_neg hk, zero_add]
  simpa using key (inductivePlacements O els) 0

theorem phaseOperator_mul {k : ℕ} (m : Fin k → ℕ) (a : ℝ) (g : Fin k → ℝ) :
    phaseOperator m (fun j => a * g j) = (a : ℂ) • phaseOperator m g := by
  unfold phaseOperator
  rw [Finset.smul_sum]
  refine Finset.sum_congr rfl fun j _ => ?_
  rw [smul_smul]; push_cast; rfl

theorem phaseOperator_herm {k : ℕ} (m : Fin k → ℕ) (g : Fin k → ℝ) : (phaseOperator m g)ᴴ = phaseOperator m g := by
  unfold phaseOperator
  rw [conjTranspose_sum]
  refine Finset.sum_congr rfl fun j _ => ?_
  rw [conjTranspose_smul, onMode_eq, single_conjTranspose, conjTranspose_add]
  unfold qCreate
  rw [conjTranspose_conjTranspose, add_comm]
  simp

/-- cos(-φ - x) = cos(φ + x) -/
theorem cosPhase_neg {k : ℕ} (m : Fin k → ℕ) (g : Fin k → ℝ) (x : ℝ) :
    cosPhase m (fun j => -1 * g j) (-1 * x) = cosPhase m g x := by
  have hE : (Complex.exp (Complex.I * (x : ℝ)) • NormedSpace.exp (Complex.I • phaseOperator m g))ᴴ =
      Complex.exp (Complex.I * ((-1 * x : ℝ) : ℂ)) • NormedSpace.exp (Complex.I • phaseOperator m fun j => -1 * g j) := by
    rw [conjTranspose_smul, ← Matrix.exp_conjTranspose, conjTranspose_smul, phaseOperator_herm, phaseOperator_mul]
    congr 1
    · show (starRingEnd ℂ) _ = _
      rw [← Complex.exp_conj]
      congr 1
      simp
    · congr 1
      rw [smul_smul]
      congr 1
      simp
  unfold cosPhase
  simp only
  rw [← hE, conjTranspose_conjTranspose, add_comm]

theorem cosPhase_sgn {k : ℕ} (m : Fin k → ℕ) (g : Fin k → ℝ) (x : ℝ) {a : ℝ} (ha : a = 1 ∨ a = -1) :
    cosPhase m (fun j => a * g j) (a * x) = cosPhase m g x := by
  rcases ha with rfl | rfl
  · simp only [one_mul]
  · exact cosPhase_neg m g x

theorem phaseZp_match {n : ℕ} {σ : Equiv.Perm (Fin n)} {e e' : Edge} {a : ℝ}
    (h : ∀ k : Fin n, (incidence e' ((σ k : ℕ) + 1) : ℝ) = a * incidence e (k + 1)) (ω : ℝ) (v : Fin n → ℝ) :
    phaseZp ω (v ∘ σ.symm) e' = a * phaseZp ω v e := by
  have : acrossEdge (v ∘ σ.symm) e' = a * acrossEdge v e := by
    unfold acrossEdge
    rw [← Equiv.sum_comp σ, Finset.mul_sum]
    refine Finset.sum_congr rfl fun i _ => ?_
    rw [h]
    simp [mul_assoc]
  unfold phaseZp
  rw [this]; ring

/-- the Hamiltonian of the normal modes in two notations -/
theorem normalMode_match {n k : ℕ} {σ : Equiv.Perm (Fin n)} {O : Objs} {els els' : Elements} {τ a}
    (hm : Matching σ (inductivePlacements O els) (inductivePlacements O els') τ a) (m : Fin k → ℕ) (ω : Fin k → ℝ)
    (v : Fin k → Fin n → ℝ) (val : ElemId → ℝ) {x x' : ℕ → ℝ}
    (hx : ∀ i : Fin (inductivePlacements O els').length, x' i = a i * x (τ i)) :
    normalModeHamiltonian m ω (fun j => v j ∘ σ.symm) (fluxedBranches .ind O els' val x') (fluxedBranches .jj O els' val x') =
      normalModeHamiltonian m ω v (fluxedBranches .ind O els val x) (fluxedBranches .jj O els val x) := by
  unfold normalModeHamiltonian
  rw [fluxed_sum, fluxed_sum, fluxed_sum, fluxed_sum]
  congr 1
  · congr 1
    rw [← Equiv.sum_comp τ]
    refine Finset.sum_congr rfl fun i _ => ?_
    rw [hm.elem]
    by_cases hk : (O.elem ((inductivePlacements O els).get (τ i)).2).kind = .ind
    · rw [if_pos hk, if_pos hk, hx]
      simp only [phaseZp_match (hm.inc i)]
      rw [phaseOperator_mul, smul_smul]
      congr 1
      rw [← Complex.ofReal_mul]
      congr 1
      linear_combination (Phi0 / (2 * π)) ^ 2 / (hbar * val ((inductivePlacements O els).get (τ i)).2) * x (τ i) * sgn_mul_self (hm.sgn i)
    · rw [if_neg hk, if_neg hk]
  · rw [← Equiv.sum_comp τ]
    refine Finset.sum_congr rfl fun i _ => ?_
    rw [hm.elem]
    by_cases hk : (O.elem ((inductivePlacements O els).get (τ i)).2).kind = .jj
    · rw [if_pos hk, if_pos hk, hx]
      simp only [phaseZp_match (hm.inc i), neglect_sgn (hm.sgn i)]
      rw [cosPhase_sgn m _ _ (hm.sgn i)]
    · rw [if_neg hk, if_neg hk]

/-- reversing all external phases does not change the levels -/
theorem normalMode_reversed {n k : ℕ} (m : Fin k → ℕ) (ω : Fin k → ℝ) (v : Fin k → Fin n → ℝ) (O : Objs) (els : Elements)
    (val : ElemId → ℝ) (x : ℕ → ℝ) {vs : List (Idx m → ℂ)} {ws : List ℝ}
    (h : Levels (normalModeHamiltonian m ω v (fluxedBranches .ind O els val x) (fluxedBranches .jj O els val x)) vs ws) :
    ∃ vs', Levels (normalModeHamiltonian m ω v (fluxedBranches .ind O els val fun i => -1 * x i)
      (fluxedBranches .jj O els val fun i => -1 * x i)) vs' ws := by
  have hs : ∀ j : Fin k, (fun _ => (-1 : ℝ)) j = 1 ∨ (fun _ => (-1 : ℝ)) j = -1 := fun _ => Or.inr rfl
  have h1 := normalMode_sign (m := m) (s := fun _ => -1) hs ω v (fluxedBranches .ind O els val x) (fluxedBranches .jj O els val x)
  have h2 : normalModeHamiltonian m ω (fun j i => -1 * v j i) (fluxedBranches .ind O els val x) (fluxedBranches .jj O els val x) =
      normalModeHamiltonian m ω v (fluxedBranches .ind O els val fun i => -1 * x i) (fluxedBranches .jj O els val fun i => -1 * x i) := by
    unfold normalModeHamiltonian
    rw [fluxed_sum, fluxed_sum, fluxed_sum, fluxed_sum]
    congr 1
    · congr 1
      refine Finset.sum_congr rfl fun i _ => ?_
      split
      · simp only [phaseZp_smul]
        rw [phaseOperator_mul, smul_smul]
        congr 1
        push_cast; ring
      · rfl
    · refine Finset.sum_congr rfl fun i _ => ?_
      split
      · simp only [phaseZp_smul, neglect_sgn (Or.inr (rfl : (-1 : ℝ) = -1))]
        congr 1
        have := cosPhase_neg m (fun j => neglect (phaseZp (ω j) (v j) ((inductivePlacements O els).get i).1)) (-1 * x i)
        rw [← this]
        congr 1
        ring
      · rfl
  rw [h2] at h1
  have hV1 : (modeParity m (fun _ : Fin k => (-1 : ℝ)))ᴴ * modeParity m (fun _ => -1) = 1 := by rw [modeParity_herm, modeParity_sq hs]
  have hV2 : modeParity m (fun _ : Fin k => (-1 : ℝ)) * (modeParity m (fun _ => -1))ᴴ = 1 := by rw [modeParity_herm, modeParity_sq hs]
  have := levels_conj hV1 hV2 h
  rw [h1] at this
  exact ⟨_, this⟩

/-- modes of the renumbered circuit -/
theorem held_renumbered {c c' : CircSpec} {n : ℕ} {σ : Equiv.Perm (Fin n)} (hO : c'.O = c.O) (hval : ValidElements n c.els)
    (hren : Renumbered σ c.els c'.els) {vals : ElemId → ℝ} {ω ω' : Fin n → ℝ} {v v' : Fin n → Fin n → ℝ}
    (hheld : HeldCircuit c n vals ω v) (hheld' : HeldCircuit c' n vals ω' v') :
    HeldCircuit c' n vals ω fun j => v j ∘ σ.symm := by
  have hnode := node_rename hval hren (c.O.withVals vals)
  have hmod := modePatterns_rename (σ := σ) (fun i j => (hnode i j).1) (fun i j => (hnode i j).2) hheld.modes
  have hOv : c'.O.withVals vals = c.O.withVals vals := by rw [hO]
  refine ⟨hheld'.good, hheld'.nodes, by rw [hOv]; exact hmod, ?_⟩
  rcases hheld'.kept with h | h | h
  · exact Or.inl h
  · exact Or.inr (Or.inl h)
  · right; right
    intro j
    obtain ⟨q, hq, hqk, hq1⟩ := h j
    have hm2 := hheld'.modes
    rw [hOv] at hm2
    obtain ⟨rfl, s, hs, hvs⟩ := mp_same hmod hm2
    refine ⟨q, hq, hqk, ?_⟩
    have e : v' j = fun i => s j * (v j ∘ σ.symm) i := funext fun i => hvs j i
    rw [e, phaseZp_smul, abs_mul] at hq1
    rcases hs j with h | h <;> rw [h] at hq1 <;> simpa using hq1

section
variable {c c' : CircSpec} {eigs eigs' : EigsFn} {as as' : List ℂ → List ℕ} {n : ℕ} {σ : Equiv.Perm (Fin n)}

/-- levels of a circuit in two notations, from a relation of their external phases -/
theorem held_two (he : EigsLowest eigs) (ha : CArgsortSpec as) (he' : EigsLowest eigs') (ha' : CArgsortSpec as')
    (h2 : TwoNotations c c' n σ) (hcaps : CapsOK c.O)
    (rel : Build → Build → (LoopId → ℝ) → (LoopId → ℝ) → Prop)
    (hrel : ∀ vals b b' f f', ValidElements n c.els → buildCirc c vals = .ok b → buildCirc c' vals = .ok b' → rel b b' f f' →
      ∃ τ a η, Matching σ (inductivePlacements c.O c.els) (inductivePlacements c.O c'.els) τ a ∧ (η = 1 ∨ η = -1) ∧
        ∀ i : Fin (inductivePlacements c.O c'.els).length, branchPhase b' f' i = a i * (η * branchPhase b f (τ i)))
    (vals vals' : ElemId → ℝ) (flux flux' : LoopId → ℝ) (u u' : ℝ)
    (w0 : World (circPhys c eigs as)) (hw : construct (circPhys c eigs as) vals flux u = .ok w0)
    (w0' : World (circPhys c' eigs' as')) (hw' : construct (circPhys c' eigs' as') vals' flux' u' = .ok w0')
    (h h' : List Act) (hh : Orderly w0 h) (hh' : Orderly w0' h')
    (h0 : ∃ ω v, HeldCircuit c n vals ω v) (h0' : ∃ ω v, HeldCircuit c' n vals' ω v)
    (hup : ∀ h1 h2, h = h1 ++ .update :: h2 → ∃ ω v, HeldCircuit c n (run w0 h1).vals ω v)
    (hup' : ∀ h1 h2, h' = h1 ++ .update :: h2 → ∃ ω v, HeldCircuit c' n (run w0' h1).vals ω v) :
    let w := run w0 h
    let w' := run w0' h'
    (∀ i, (c.O.elem i).kind ≠ .jj → w.vals i = lastBuilt vals w0 h i) →
    (∀ i, (c.O.elem i).kind ≠ .jj → w'.vals i = lastBuilt vals' w0' h' i) →
    (∃ ω v, HeldCircuit c n w.vals ω v) → (∃ ω v, HeldCircuit c' n w'.vals ω v) →
    (∀ b b', buildCirc c w.vals = .ok b → buildCirc c' w.vals = .ok b' → rel b b' w.flux w'.flux) →
    w.circ.m ≠ [] → w'.vals = w.vals → w'.circ.m = w.circ.m → w'.unitFreq = w.unitFreq →
    ∀ num : ℕ, 1 ≤ num → num + 1 < ∏ i : Fin n, (w.circ.m.getD i 0).toNat →
      ∃ F v v', (diag (some num) w).1 = .ok (F, v) ∧ (diag (some num) w').1 = .ok (F, v') := by
  intro w w' hlast hlast' hheld hheld' hfl hm0 hvv hmm huu num h1 hnum
  obtain ⟨ω, v, hheld⟩ := hheld
  obtain ⟨ω', v', hheld'⟩ := hheld'
  obtain ⟨b, hb, vs, ws, hlev, hd⟩ := C132_levels he ha hcaps vals flux u w0 hw h hh h0 hup hlast hm0 ω v hheld
  have hval := two_valid h2 hb
  have hheld2 := held_renumbered h2.objects hval h2.renumbered hheld (hvv ▸ hheld')
  obtain ⟨b', hb', vs', ws', hlev', hd'⟩ := C132_levels he' ha' (by rw [h2.objects]; exact hcaps) vals' flux' u' w0' hw' h' hh' h0' hup'
    (by rw [h2.objects]; exact hlast') (by rw [hmm]; exact hm0) ω _ (hvv ▸ hheld2)
  have hb'' : buildCirc c' w.vals = .ok b' := by rw [← hvv]; exact hb'
  obtain ⟨τ, a, η, hm, hη, hph⟩ := hrel w.vals b b' w.flux w'.flux hval hb hb'' (hfl b b' hb hb'')
  have hws : ws' = ws := by
    have e : ∀ (mm mm' : List ℤ), mm' = mm → ∀ (va va' : ElemId → ℝ), va' = va → ∀ (O' : Objs), O' = c.O →
        ∀ (vs vs' : _) (ws ws' : List ℝ),
        Levels (normalModeHamiltonian (fun j : Fin n => (mm.getD j 0).toNat) ω v
          (fluxedBranches .ind c.O c.els va (branchPhase b w.flux)) (fluxedBranches .jj c.O c.els va (branchPhase b w.flux))) vs ws →
        Levels (normalModeHamiltonian (fun j : Fin n => (mm'.getD j 0).toNat) ω (fun j => v j ∘ σ.symm)
          (fluxedBranches .ind O' c'.els va' (branchPhase b' w'.flux)) (fluxedBranches .jj O' c'.els va' (branchPhase b' w'.flux))) vs' ws' →
        ws' = ws := by
      rintro _ mm' rfl _ va' rfl _ rfl vs vs' ws ws' l1 l2
      rw [normalMode_match hm _ ω v va' (x := fun i => η * branchPhase b w.flux i) hph] at l2
      rcases hη with rfl | rfl
      · simp only [one_mul] at l2
        exact levels_unique l2 l1
      · obtain ⟨vs'', l3⟩ := normalMode_reversed _ ω v c.O c.els va' (branchPhase b w.flux) l1
        exact levels_unique l2 l3
    exact e _ _ hmm _ _ hvv _ h2.objects vs vs' ws ws' hlev hlev'
  subst hws
  obtain ⟨ev, hev⟩ := hd num h1 hnum
  obtain ⟨ev', hev'⟩ := hd' num h1 (by
    show num + 1 < ∏ i : Fin n, (w'.circ.m.getD i 0).toNat
    rw [hmm]; exact hnum)
  refine ⟨_, ev, ev', hev, hev'.trans ?_⟩
  show _ = Except.ok (List.map (fun f => f / (2 * Real.pi * w.unitFreq)) _, ev')
  rw [← huu]

/-- C134 for circuits whose nodes are all held by inductors, with any number of loops: written down in two ways, they have
the same frequencies when each loop carries the same flux up to a sign, which depends on the dictionaries alone. -/
theorem C134_frequencies (he : EigsLowest eigs) (ha : CArgsortSpec as) (he' : EigsLowest eigs') (ha' : CArgsortSpec as')
    (h2 : TwoNotations c c' n σ) (hcaps : CapsOK c.O) :
    ∃ ε : LoopId → ℝ, (∀ l, ε l = 1 ∨ ε l = -1) ∧
    ∀ (vals vals' : ElemId → ℝ) (flux flux' : LoopId → ℝ) (u u' : ℝ)
    (w0 : World (circPhys c eigs as)) (_ : construct (circPhys c eigs as) vals flux u = .ok w0)
    (w0' : World (circPhys c' eigs' as')) (_ : construct (circPhys c' eigs' as') vals' flux' u' = .ok w0')
    (h h' : List Act) (_ : Orderly w0 h) (_ : Orderly w0' h')
    (_ : ∃ ω v, HeldCircuit c n vals ω v) (_ : ∃ ω v, HeldCircuit c' n vals' ω v)
    (_ : ∀ h1 h2, h = h1 ++ .update :: h2 → ∃ ω v, HeldCircuit c n (run w0 h1).vals ω v)
    (_ : ∀ h1 h2, h' = h1 ++ .update :: h2 → ∃ ω v, HeldCircuit c' n (run w0' h1).vals ω v),
    let w := run w0 h
    let w' := run w0' h'
    (∀ i, (c.O.elem i).kind ≠ .jj → w.vals i = lastBuilt vals w0 h i) →
    (∀ i, (c.O.elem i).kind ≠ .jj → w'.vals i = lastBuilt vals' w0' h' i) →
    (∃ ω v, HeldCircuit c n w.vals ω v) → (∃ ω v, HeldCircuit c' n w'.vals ω v) →
    (∀ l, w.flux l = ε l * w'.flux l) →
    w.circ.m ≠ [] → w'.vals = w.vals → w'.circ.m = w.circ.m → w'.unitFreq = w.unitFreq →
    ∀ num : ℕ, 1 ≤ num → num + 1 < ∏ i : Fin n, (w.circ.m.getD i 0).toNat →
      ∃ F v v', (diag (some num) w).1 = .ok (F, v) ∧ (diag (some num) w').1 = .ok (F, v') := by
  by_cases hv : ValidElements n c.els
  · obtain ⟨τ, a, ε, hm, hε, hph⟩ := C134_phases h2 hv
    refine ⟨ε, hε, ?_⟩
    intro vals vals' flux flux' u u' w0 hw w0' hw' h h' hh hh' h0 h0' hup hup' w w' hlast hlast' hheld hheld' hfl hm0 hvv hmm huu num h1 hnum
    exact held_two he ha he' ha' h2 hcaps (fun _ _ f f' => ∀ l, f l = ε l * f' l)
      (fun vals b b' f f' _ hb hb' hff => ⟨τ, a, 1, hm, Or.inl rfl, fun i => by
        rw [hph vals b b' hb hb' f' i, one_mul]
        have : f = fun l => ε l * f' l := funext hff
        rw [this]⟩) vals vals' flux flux' u u' w0 hw w0' hw' h h' hh hh' h0 h0' hup hup' hlast hlast' hheld hheld'
      (fun _ _ _ _ => hfl) hm0 hvv hmm huu num h1 hnum
  · refine ⟨fun _ => 1, fun _ => Or.inl rfl, ?_⟩
    intro vals vals' flux flux' u u' w0 hw w0' hw' h h' hh hh' h0 h0' hup hup' w w' hlast hlast' hheld hheld' hfl hm0 hvv hmm huu num h1 hnum
    obtain ⟨ω, v, hheld⟩ := hheld
    obtain ⟨b, hb, -⟩ := C132_levels he ha hcaps vals flux u w0 hw h hh h0 hup hlast hm0 ω v hheld
    exact absurd (two_valid h2 hb) hv

/-- with one loop, all external phases are proportional to its flux -/
theorem one_loop_phase {c : CircSpec} {vals : ElemId → ℝ} {b : Build} (hs : NoSelfLoops c.els)
    (ho : LoopsListedOnce c.O) (hsv : SvdSpec c.sv) (hn : numNodes c.els = .ok n) (hb : buildCirc c vals = .ok b) {l0 : LoopId}
    (hone : ∀ q ∈ placements c.els, ∀ l ∈ (c.O.elem q.2).loops, l = l0) (ε : LoopId → ℝ) (flux : LoopId → ℝ)
    (i : Fin (inductivePlacements c.O c.els).length) :
    branchPhase b (fun l => ε l * flux l) i = ε l0 * branchPhase b flux i := by
  obtain ⟨G, B0, -, hp⟩ := build_shares hs ho hsv hn hb
  rw [hp, hp, ← List.sum_map_mul_left]
  congr 1
  refine List.map_congr_left fun l hl => ?_
  have : l = l0 := by
    rw [mem_firstUses] at hl
    unfold loopUses numbered at hl
    simp only [List.mem_map, List.mem_flatMap] at hl
    obtain ⟨u, ⟨q, hq, l', hl', rfl⟩, rfl⟩ := hl
    rw [List.mem_zipIdx_iff_getElem?] at hq
    exact hone _ (List.mem_of_mem_filter (List.mem_of_getElem? hq)) _ hl'
  rw [this]; ring

/-- C111 for circuits with one loop whose nodes are all held by inductors, at any flux: renumbering the nodes, turning edges
around and listing edges and elements in another order does not change the frequencies. -/
theorem C111_one_loop_partial (he : EigsLowest eigs) (ha : CArgsortSpec as) (he' : EigsLowest eigs') (ha' : CArgsortSpec as')
    (h2 : TwoNotations c c' n σ) (hcaps : CapsOK c.O) (hone : OneLoop c.O c.els)
    (vals vals' : ElemId → ℝ) (flux flux' : LoopId → ℝ) (u u' : ℝ)
    (w0 : World (circPhys c eigs as)) (hw : construct (circPhys c eigs as) vals flux u = .ok w0)
    (w0' : World (circPhys c' eigs' as')) (hw' : construct (circPhys c' eigs' as') vals' flux' u' = .ok w0')
    (h h' : List Act) (hh : Orderly w0 h) (hh' : Orderly w0' h')
    (h0 : ∃ ω v, HeldCircuit c n vals ω v) (h0' : ∃ ω v, HeldCircuit c' n vals' ω v)
    (hup : ∀ h1 h2, h = h1 ++ .update :: h2 → ∃ ω v, HeldCircuit c n (run w0 h1).vals ω v)
    (hup' : ∀ h1 h2, h' = h1 ++ .update :: h2 → ∃ ω v, HeldCircuit c' n (run w0' h1).vals ω v) :
    let w := run w0 h
    let w' := run w0' h'
    (∀ i, (c.O.elem i).kind ≠ .jj → w.vals i = lastBuilt vals w0 h i) →
    (∀ i, (c.O.elem i).kind ≠ .jj → w'.vals i = lastBuilt vals' w0' h' i) →
    (∃ ω v, HeldCircuit c n w.vals ω v) → (∃ ω v, HeldCircuit c' n w'.vals ω v) →
    w'.flux = w.flux → w.circ.m ≠ [] → w'.vals = w.vals → w'.circ.m = w.circ.m → w'.unitFreq = w.unitFreq →
    ∀ num : ℕ, 1 ≤ num → num + 1 < ∏ i : Fin n, (w.circ.m.getD i 0).toNat →
      ∃ F v v', (diag (some num) w).1 = .ok (F, v) ∧ (diag (some num) w').1 = .ok (F, v') := by
  intro w w' hlast hlast' hheld hheld' hfl hm0 hvv hmm huu num h1 hnum
  obtain ⟨l0, hone⟩ := hone
  exact held_two he ha he' ha' h2 hcaps (fun _ _ f f' => f' = f)
    (fun vals b b' f f' hv hb hb' hff => by
      obtain ⟨τ, a, ε, hm, hε, hph⟩ := C134_phases h2 hv
      refine ⟨τ, a, ε l0, hm, hε l0, fun i => ?_⟩
      rw [hph vals b b' hb hb' f' i, one_loop_phase h2.noSelf h2.once h2.svd h2.nodes hb hone, hff])
    vals vals' flux flux' u u' w0 hw w0' hw' h h' hh hh' h0 h0' hup hup' hlast hlast' hheld hheld'
    (fun _ _ _ _ => hfl) hm0 hvv hmm huu num h1 hnum

end
end SQ
