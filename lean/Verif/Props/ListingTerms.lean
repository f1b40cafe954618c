import Verif.Props.Listing

/-!
# C118: the coefficients inside the printed Hamiltonian
-/

namespace SQ
open Spec Real

theorem npRound_decimals (d : ℕ) (y : ℝ) : Decimals d (npRound d y) y := ⟨⟨_, rfl⟩, npRound_close d y⟩

theorem description_ham {b : Build} {uf : ℝ} {vals : ElemId → ℝ} {flux : LoopId → ℝ} {islands : ℕ → Option ChargeObj}
    {p : Printed b.M.keep.length b.loops.length} (hp : b.description uf vals flux islands = .ok p) :
    p.ham = constructHamiltonian (dictOf b uf vals flux islands) b.inds b.juns := by
  unfold Build.description at hp
  cases h1 : (dictOf b uf vals flux islands).EJ.mapM id with
  | error e => rw [h1] at hp; cases hp
  | ok EJ =>
    cases h2 : (dictOf b uf vals flux islands).EL.mapM id with
    | error e => rw [h1, h2] at hp; cases hp
    | ok EL =>
      cases h3 : islandValues islands (dictOf b uf vals flux islands).harDim b.M.keep.length with
      | error e => rw [h1, h2, h3] at hp; cases hp
      | ok ng =>
        rw [h1, h2, h3] at hp
        cases hp
        rfl

theorem mem_cosines {b : Build} {d : Descrip b.n b.nJ b.M.keep.length b.nB b.loops.length} (q : ℕ)
    (t : SymExpr b.M.keep.length b.loops.length) :
    SymExpr.mul (.neg (.EJ q)) (.cos t) ∈ constructHamiltonian d b.inds b.juns ↔ ∃ key, b.juns[q]? = some key ∧
      t = .add (.phis (d.W key.wId)) (.exts (d.B key.bId)) := by
  constructor
  · intro h
    simp only [constructHamiltonian, harModeTerms, chargeModeTerms, inductiveTerms, jjTerms, List.mem_append, List.mem_map,
      List.mem_flatMap, List.mem_filterMap, reduceCtorEq, SymExpr.mul.injEq] at h
    rcases h with ((⟨_, -, h⟩ | ⟨_, -, _, -, h⟩) | ⟨x, -, h⟩) | ⟨x, hx, h⟩
    · exact absurd h.1 (by simp)
    · exact absurd h.1 (by simp)
    · split_ifs at h
      simp at h
    · obtain ⟨h1, h2⟩ := h
      simp only [SymExpr.neg.injEq, SymExpr.EJ.injEq, SymExpr.cos.injEq] at h1 h2
      obtain ⟨key, i⟩ := x
      have hx' := List.mem_zipIdx_iff_getElem?.1 hx
      simp only at hx' h1 h2
      subst h1
      exact ⟨key, hx', h2.symm⟩
  · rintro ⟨key, hk, rfl⟩
    unfold constructHamiltonian
    refine List.mem_append_right _ ?_
    unfold jjTerms
    exact List.mem_map.2 ⟨(key, q), List.mem_zipIdx_iff_getElem?.2 hk, rfl⟩

theorem mem_inductive {b : Build} {d : Descrip b.n b.nJ b.M.keep.length b.nB b.loops.length} (q : ℕ)
    (t u : SymExpr b.M.keep.length b.loops.length) :
    SymExpr.mul (.mul (.EL q) t) u ∈ constructHamiltonian d b.inds b.juns ↔ ∃ key, b.inds[q]? = some key ∧
      (∃ l, d.B key.bId l ≠ 0) ∧ t = .phis (symW d key.edge) ∧ u = .exts (d.B key.bId) := by
  have hsum : ∀ i : Fin b.nB, (∑ l, |d.B i l| = 0) ↔ ¬ ∃ l, d.B i l ≠ 0 := by
    intro i
    rw [Finset.sum_eq_zero_iff_of_nonneg fun _ _ => abs_nonneg _]
    simp
  constructor
  · intro h
    simp only [constructHamiltonian, harModeTerms, chargeModeTerms, inductiveTerms, jjTerms, List.mem_append, List.mem_map,
      List.mem_flatMap, List.mem_filterMap, reduceCtorEq, SymExpr.mul.injEq] at h
    rcases h with ((⟨_, -, h⟩ | ⟨_, -, _, -, h⟩) | ⟨x, hx, h⟩) | ⟨x, hx, h⟩
    · exact absurd h.1.1 (by simp)
    · exact absurd h.1.1 (by simp)
    · split_ifs at h with h0
      simp only [Option.some.injEq, SymExpr.mul.injEq, SymExpr.EL.injEq] at h
      obtain ⟨⟨h1, h2⟩, h3⟩ := h
      obtain ⟨key, i⟩ := x
      have hx' := List.mem_zipIdx_iff_getElem?.1 hx
      simp only at hx' h1 h2 h3 h0
      subst h1
      exact ⟨key, hx', not_not.1 fun h => h0 ((hsum _).2 h), h2.symm, h3.symm⟩
    · exact absurd h.1 (by simp)
  · rintro ⟨key, hk, hB, rfl, rfl⟩
    unfold constructHamiltonian
    refine List.mem_append_left _ (List.mem_append_right _ ?_)
    unfold inductiveTerms
    exact List.mem_filterMap.2 ⟨(key, q), List.mem_zipIdx_iff_getElem?.2 hk,
      if_neg fun h => (hsum _).1 h hB⟩

/-- C118, coefficients in cosines: in the Hamiltonian that `description()` prints, the `q`-th junction has a cosine,
`-EJ_q cos(Σ w_i φ_i + Σ β_l φ_ext,l)`, and only one, where `w` is the row of the junction in the coordinates of the modes
written with six decimals, and `β` are its shares of the external fluxes written with two decimals. -/
theorem C118_cosines {c : CircSpec} {eigs : EigsFn} {as : List ℂ → List ℕ} (w : World (circPhys c eigs as))
    (p : Printed (Modes.keep (Build.M w.circ.bd)).length (Build.loops w.circ.bd).length) (hp : describeNow w = .ok p) :
    let b : Build := w.circ.bd
    (∀ q key, b.juns[q]? = some key → ∃! t, SymExpr.mul (.neg (.EJ q)) (.cos t) ∈ p.ham) ∧
    ∀ q t, SymExpr.mul (.neg (.EJ q)) (.cos t) ∈ p.ham → ∃ key row β, b.juns[q]? = some key ∧
      t = .add (.phis row) (.exts β) ∧ (∀ i, Decimals 6 (row i) (b.M.w key.wId i)) ∧
      ∀ l, Decimals 2 (β l) (b.B key.bId l) := by
  intro b
  rw [description_ham hp]
  refine ⟨fun q key hk => ⟨_, (mem_cosines (b := b) q _).2 ⟨key, hk, rfl⟩, fun t ht => ?_⟩, fun q t ht => ?_⟩
  · obtain ⟨key', hk', h⟩ := (mem_cosines (b := b) q _).1 ht
    rw [hk] at hk'
    cases hk'
    exact h
  · obtain ⟨key, hk, rfl⟩ := (mem_cosines (b := b) q _).1 ht
    exact ⟨key, _, _, hk, rfl, fun i => npRound_decimals _ _, fun l => npRound_decimals _ _⟩

/-- C118, coefficients in inductive terms (harmonic modes first, as in all constructed circuits, C78): every term
`EL_q (Σ w_i φ_i)(Σ β_l φ_ext,l)` that `description()` prints belongs to the `q`-th inductor of the circuit; `β` are its
shares of the external fluxes written with two decimals, not all printed as zero; `w` is the row of the branch in the
coordinates of the harmonic modes, from entries written with three decimals, and zero for charge modes. Every inductor
with a share that is not written as zero has such a term. -/
theorem C118_inductive (b : Build) (uf : ℝ) (vals : ElemId → ℝ) (flux : LoopId → ℝ) (islands : ℕ → Option ChargeObj)
    (hfirst : ∀ i j, i ≤ j → b.M.omega i = 0 → b.M.omega j = 0)
    (hn : ∀ key ∈ b.inds, ValidEdge b.n key.edge) (hk : b.M.keep.length ≤ b.n)
    (p : Printed b.M.keep.length b.loops.length) (hp : b.description uf vals flux islands = .ok p) :
    (∀ q t u, SymExpr.mul (.mul (.EL q) t) u ∈ p.ham → ∃ key row β, b.inds[q]? = some key ∧ t = .phis row ∧ u = .exts β ∧
      (∃ l, β l ≠ 0) ∧ (∀ l, Decimals 2 (β l) (b.B key.bId l)) ∧
      ∀ i : Fin b.M.keep.length, (b.M.omega i ≠ 0 → EdgeRow b.M.S key.edge (i.castLE hk) (row i)) ∧
        (b.M.omega i = 0 → row i = 0)) ∧
    ∀ q key, b.inds[q]? = some key → (∃ l, 0.005 < |b.B key.bId l|) → ∃ t u, SymExpr.mul (.mul (.EL q) t) u ∈ p.ham := by
  have hd : ∀ i : Fin b.M.keep.length, (i : ℕ) < (dictOf b uf vals flux islands).harDim ↔ b.M.omega i ≠ 0 :=
    fun i => harDim_iff hfirst i
  rw [description_ham hp]
  constructor
  · intro q t u h
    obtain ⟨key, hq, hB, rfl, rfl⟩ := (mem_inductive (b := b) q _ _).1 h
    refine ⟨key, _, _, hq, rfl, rfl, hB, fun l => npRound_decimals _ _, fun i => ⟨fun hi => ?_, fun hi => ?_⟩⟩
    · obtain ⟨hne, h1, h2⟩ := hn key (List.mem_of_getElem? hq)
      unfold EdgeRow symW
      rw [if_pos ((hd i).2 hi)]
      have hin : i.val < b.n := lt_of_lt_of_le i.isLt hk
      by_cases h0 : key.edge.1 = 0 ∨ key.edge.2 = 0
      · rw [if_pos h0, if_pos h0]
        have hr : key.edge.1 + key.edge.2 - 1 < b.n := by omega
        refine ⟨⟨_, hr⟩, by simp only; omega, ?_⟩
        rw [entryAt, dif_pos ⟨hr, hin⟩]
        exact npRound_decimals 3 _
      · rw [if_neg h0, if_neg h0]
        have hr : key.edge.1 - 1 < b.n := by omega
        have hs : key.edge.2 - 1 < b.n := by omega
        refine ⟨⟨_, hr⟩, ⟨_, hs⟩, _, _, by simp only; omega, by simp only; omega, npRound_decimals 3 _, npRound_decimals 3 _, ?_⟩
        rw [entryAt, dif_pos ⟨hr, hin⟩, entryAt, dif_pos ⟨hs, hin⟩]
        rfl
    · exact if_neg fun h => (hd i).1 h hi
  · rintro q key hq ⟨l, hl⟩
    refine ⟨_, _, (mem_inductive (b := b) q _ _).2 ⟨key, hq, ⟨l, fun h0 => ?_⟩, rfl, rfl⟩⟩
    have h1 : |npRound 2 (b.B key.bId l) - b.B key.bId l| ≤ 1 / 2 / 10 ^ 2 := npRound_close _ _
    have h2 : npRound 2 (b.B key.bId l) = 0 := h0
    rw [h2, zero_sub, abs_neg] at h1
    norm_num at h1 hl
    linarith

/-- C118, coefficients, for circuit objects: after construction and any calls without `update()`, the description has for
every inductor with a share of an external flux above 0.005 a term, and the terms have the coefficients of the circuit. -/
theorem C118_terms {c : CircSpec} {eigs as} (vals : ElemId → ℝ) (hc : GoodCircuit c vals) (flux : LoopId → ℝ) (u : ℝ)
    (w0 : World (circPhys c eigs as)) (hw : construct (circPhys c eigs as) vals flux u = .ok w0) (h : List Act)
    (hu : Act.update ∉ h)
    (p : Printed (Modes.keep (Build.M (run w0 h).circ.bd)).length (Build.loops (run w0 h).circ.bd).length)
    (hp : describeNow (run w0 h) = .ok p) :
    let b : Build := (run w0 h).circ.bd
    ∃ hk : b.M.keep.length ≤ b.n,
    (∀ q t u, SymExpr.mul (.mul (.EL q) t) u ∈ p.ham → ∃ key row β, b.inds[q]? = some key ∧ t = .phis row ∧ u = .exts β ∧
      (∃ l, β l ≠ 0) ∧ (∀ l, Decimals 2 (β l) (b.B key.bId l)) ∧
      ∀ i : Fin b.M.keep.length, (b.M.omega i ≠ 0 → EdgeRow b.M.S key.edge (i.castLE hk) (row i)) ∧
        (b.M.omega i = 0 → row i = 0)) ∧
    ∀ q key, b.inds[q]? = some key → (∃ l, 0.005 < |b.B key.bId l|) → ∃ t u, SymExpr.mul (.mul (.EL q) t) u ∈ p.ham := by
  intro b
  have hb : b = w0.circ.bd := (run_frame h w0 hu).1
  have hbuild := (construct_build hw).1
  have hok : BuildOK b := by rw [hb]; exact build_valid hc.noSelf hbuild
  have hf : ∀ i j, i ≤ j → b.M.omega i = 0 → b.M.omega j = 0 := by rw [hb]; exact (C78_circuit c vals hc _ hbuild).1
  exact ⟨hok.1, C118_inductive b _ _ _ _ hf hok.2 hok.1 p hp⟩

end SQ
