import Verif.Lemmas.CircuitPhys
import Verif.Lemmas.State
import Mathlib.LinearAlgebra.Eigenspace.Triangularizable
import Mathlib.Analysis.Complex.Polynomial.Basic
import Mathlib.Analysis.Complex.Order
import Mathlib.LinearAlgebra.Matrix.DotProduct
import Verif.Lemmas.Hamil
import Verif.Props.Graph
import Verif.Lemmas.Traverse
import Verif.Lemmas.Transform2
import Verif.Spec.CircuitState
import Verif.Props.Ops

/-! # Lemmas on circuit objects built from actual circuits -/

namespace SQ
open Matrix Spec

variable {P : Phys}

/-- only `update` replaces the build data -/
theorem exec_bd (a : Act) (w : World P) (h : a ≠ .update) : (a.exec w).2.circ.bd = w.circ.bd := by
  have hs : ∀ x, (setTruncNums x w).2.circ.bd = w.circ.bd := by
    intro x
    rcases setTruncNums_cases x w with ⟨h, -⟩ | ⟨nums, -, -, ⟨e, -, h⟩ | ⟨mem, -, -, h⟩⟩ <;> rw [h]
  cases a with
  | setTruncNums x => exact hs x
  | truncateCircuit x =>
    simp only [Act.exec]
    rcases truncateCircuit_state x w with h | ⟨l, h⟩ <;> rw [h]
    exact hs _
  | setChargeOffset mode ng =>
    simp only [Act.exec, setChargeOffset]
    repeat' split
    all_goals rfl
  | setChargeNoise mode amp =>
    simp only [Act.exec, setChargeNoise]
    repeat' split
    all_goals rfl
  | setFlux l v => rfl
  | setValue i v => rfl
  | setUnitFreq v => rfl
  | hamiltonian =>
    simp only [Act.exec]
    rcases hamiltonian_frame w with h | ⟨t, h⟩ <;> rw [h]
  | diag k =>
    simp only [Act.exec]
    obtain ⟨t, f, v, h⟩ := diag_frame k w
    rw [h]
  | update => exact absurd rfl h

theorem run_m (h : List Act) (w : World P) (hh : noTrunc h) : (run w h).circ.m = w.circ.m := by
  induction h generalizing w with
  | nil => rfl
  | cons a h ih =>
    change (run (a.exec w).2 h).circ.m = _
    rw [ih _ (fun b hb => hh b (by simp [hb])), exec_m a w (hh a (by simp))]

/-- number of modes is conserved by every history -/
theorem run_nModes (hP : ∀ n v b, P.rebuild n v = .ok b → P.nModes b = n) (h : List Act)
    (w : World P) : P.nModes (run w h).circ.bd = P.nModes w.circ.bd := by
  induction h generalizing w with
  | nil => rfl
  | cons a h ih =>
    change P.nModes (run (a.exec w).2 h).circ.bd = _
    rw [ih]
    by_cases hu : a = .update
    · subst hu
      simp only [Act.exec]
      rcases update_cases w with ⟨e, h1⟩ | ⟨bd, hbd, ⟨e, h1⟩ | ⟨mem, hmem, h1⟩⟩ <;> rw [h1]
      · exact hP _ _ _ hbd
      · exact hP _ _ _ hbd
    · rw [exec_bd a w hu]

theorem rebuild_k {c : CircSpec} (n : ℕ) (v : ElemId → ℝ) (b : Build)
    (h : rebuildCirc c n v = .ok b) : b.k = n := by
  obtain ⟨nJ, t, hk, -⟩ := buildWith_n h
  rw [hk]; simp [restrict]

theorem build_n {c : CircSpec} {v : ElemId → ℝ} {b : Build} (h : buildCirc c v = .ok b) :
    numNodes c.els = .ok b.n := by
  unfold buildCirc at h
  cases hn : numNodes c.els with
  | error e => rw [hn] at h; cases h
  | ok n =>
    rw [hn] at h
    obtain ⟨nJ, t, -, hk⟩ := buildWith_n h
    rw [hk]

theorem build_k_torch {c : CircSpec} (ht : c.torch = true) {v : ElemId → ℝ} {b : Build}
    (h : buildCirc c v = .ok b) : b.k = b.n := by
  unfold buildCirc at h
  cases hn : numNodes c.els with
  | error e => rw [hn] at h; cases h
  | ok n =>
    rw [hn] at h
    obtain ⟨nJ, t, hk, hk2⟩ := buildWith_n h
    rw [hk, hk2, ht]
    unfold finishModes
    rw [if_neg (by simp)]
    simp [restrict]

theorem finishModes_full {nJ n : ℕ} (torch : Bool) (t : Trans nJ n)
    (h : (finishModes torch t).keep.length = n) : finishModes torch t = restrict t (List.finRange n) := by
  unfold finishModes at h ⊢
  split
  · rename_i hc
    rw [if_pos hc] at h
    unfold removeUncoupled at h ⊢
    simp only [restrict] at h
    have := List.length_filter_eq_length_iff (l := List.finRange n)
      (p := fun j => !(uncoupled t.w).contains j)
    rw [List.length_finRange] at this
    rw [List.filter_eq_self.2 (this.1 h)]
  · rfl

/-- where construction removes no mode, `update` recomputes what construction computes -/
theorem rebuild_eq_full (c : CircSpec) {n : ℕ} (hn : numNodes c.els = .ok n) (v : ElemId → ℝ)
    (h : ∀ b, buildCirc c v = .ok b → b.k = b.n) : rebuildCirc c n v = buildCirc c v := by
  unfold buildCirc at h ⊢
  rw [hn] at h ⊢
  simp only at h ⊢
  unfold rebuildCirc
  rw [buildWith_eq, buildWith_eq] at *
  cases htr : traverse c.torch c.fd (c.O.withVals v) n c.h c.els with
  | error e => rfl
  | ok a =>
    rw [htr] at h
    simp only at h ⊢
    unfold afterTraverse afterFields at h ⊢
    split
    · rfl
    · rename_i B hB
      rw [hB] at h
      simp only at h
      split
      · rfl
      · rename_i hd
        rw [if_neg hd] at h
        split
        · rfl
        · rfl
        · rename_i t ht
          rw [ht] at h
          simp only at h
          have := h _ rfl
          beta_reduce
          rw [finishModes_full c.torch t this]

/-- `update` fails if construction removed modes -/
theorem rebuild_removed (c : CircSpec) {v0 v : ElemId → ℝ} {b : Build} (hb : buildCirc c v0 = .ok b)
    {k : ℕ} (hk : k < b.n) : ∃ e, rebuildCirc c k v = .error e := by
  have hn := build_n hb
  unfold buildCirc at hb
  rw [hn] at hb
  simp only at hb
  rw [buildWith_eq] at hb
  cases htr : traverse c.torch c.fd (c.O.withVals v0) b.n c.h c.els with
  | error e => rw [htr] at hb; cases hb
  | ok a =>
    have hmax := (C13_node_count_correct_or_rejected _ _ _ _ _ _ hn).1 a htr
    unfold rebuildCirc
    rw [buildWith_eq]
    cases htr' : traverse c.torch c.fd (c.O.withVals v) k c.h c.els with
    | error e => exact ⟨e, rfl⟩
    | ok a' =>
      have := largestNode_le (buildEdges_nodes_le htr')
      omega

/-- `memOps` succeeds with the operators of `buildMem` -/
theorem memOps_ok {b : Build} {m : List ℤ} {ng : ℕ → Option ℝ}
    {mem : Σ d : Fin b.M.keep.length → ℕ, OpMem b.nJ d} (h : b.memOps m ng = .ok mem) :
    mem = ⟨b.dims m, buildMem b.M.data (b.dims m) (fun i => (ng i).getD 0)⟩ := by
  unfold Build.memOps at h
  split at h
  · cases h
  · split at h
    · cases h
    · split at h
      · cases h
      · injection h with h
        exact h.symm

theorem ham_same (b : Build) {d : Fin b.M.keep.length → ℕ} (mem : OpMem b.nJ d)
    (ex rx : Fin b.nJ → Op d) (lc : Op d) (vals : ElemId → ℝ) (flux : LoopId → ℝ) :
    b.ham ⟨d, mem⟩ ⟨d, ex, rx⟩ ⟨d, lc⟩ vals flux =
      (hamiltonianOf b.C b.M { mem with exp := ex, rootExp := rx } lc vals (b.fluxes flux) b.inds
        b.juns).map (fun H => (⟨_, _, H⟩ : Σ (k : ℕ) (d : Fin k → ℕ), Op d)) := by
  unfold Build.ham
  rw [dif_pos ⟨rfl, rfl⟩]
  simp only
  cases hamiltonianOf b.C b.M { mem with exp := ex, rootExp := rx } lc vals (b.fluxes flux) b.inds
        b.juns <;> rfl

theorem ham_mem {b : Build} {m : List ℤ} {ng : ℕ → Option ℝ}
    {mem : Σ d : Fin b.M.keep.length → ℕ, OpMem b.nJ d} (h : b.memOps m ng = .ok mem)
    (c : CircSpec) (eigs as) (vals : ElemId → ℝ) (flux : LoopId → ℝ) :
    (circPhys c eigs as).ham b mem ((circPhys c eigs as).expOps b m) ((circPhys c eigs as).lc b mem)
      vals flux = (fullHamiltonian b.C b.M (b.dims m) (fun i => (ng i).getD 0) vals (b.fluxes flux)
        b.inds b.juns).map (fun H => (⟨_, _, H⟩ : Σ (k : ℕ) (d : Fin k → ℕ), Op d)) := by
  have := memOps_ok h
  subst this
  exact ham_same b _ _ _ _ _ _

/-- the Hamiltonian of a freshly built circuit is `fullHamiltonian` -/
theorem freshHam_circuit (c : CircSpec) (eigs as) {vals : ElemId → ℝ} {b : Build}
    (hb : buildCirc c vals = .ok b) (flux : LoopId → ℝ) (ng : ℕ → Option ℝ) (m : List ℤ)
    {mem} (hm : b.memOps m ng = .ok mem) :
    freshHam (circPhys c eigs as) vals flux ng m =
      (fullHamiltonian b.C b.M (b.dims m) (fun i => (ng i).getD 0) vals (b.fluxes flux)
        b.inds b.juns).map (fun H => (⟨_, _, H⟩ : Σ (k : ℕ) (d : Fin k → ℕ), Op d)) := by
  unfold freshHam
  have h1 : (circPhys c eigs as).build vals = .ok b := hb
  rw [h1]
  simp only
  have h2 : (circPhys c eigs as).memOps b m ng = .ok mem := hm
  rw [h2]
  exact ham_mem hm c eigs as vals flux

/-! ### Hermiticity of what a circuit object returns -/

/-- what building guarantees for the keys of inductors -/
def BuildOK (b : Build) : Prop :=
  b.M.keep.length ≤ b.n ∧ ∀ key ∈ b.inds, ValidEdge b.n key.edge

theorem annotate_valid {n : ℕ} {O : Objs} {els : Elements} {k : ℕ} (hv : ValidElements n els)
    {q : APl} (hq : q ∈ annotate O k els) : ValidEdge n q.1 := by
  induction els generalizing k with
  | nil => simp [annotate] at hq
  | cons p ps ih =>
    simp only [annotate, List.mem_append, List.mem_map] at hq
    rcases hq with ⟨i, -, rfl⟩ | hq
    · exact hv p (by simp)
    · exact ih (fun p hp => hv p (by simp [hp])) hq

theorem buildWith_valid {c : CircSpec} (hs : NoSelfLoops c.els) {n : ℕ} {v : ElemId → ℝ}
    {finish : ∀ {nJ : ℕ}, Trans nJ n → Modes nJ n}
    (hf : ∀ {nJ : ℕ} (t : Trans nJ n), (finish t).keep.length ≤ n) {b : Build}
    (h : buildWith c n v finish = .ok b) : BuildOK b := by
  rw [buildWith_eq] at h
  split at h
  · cases h
  · rename_i a htr
    have hv : ValidElements n c.els := by
      intro p hp
      have := buildEdges_nodes_le htr p hp
      exact ⟨hs p hp, this.1, this.2⟩
    have hinv := (traverse_inv hv htr).1
    have hik : ∀ x ∈ a.st.indKeys, ValidEdge n x.1 := by
      intro x hx
      rw [hinv.indKeys] at hx
      obtain ⟨q, hq, rfl⟩ := List.mem_map.1 hx
      have hq1 := List.mem_of_mem_filter hq
      have hq2 : q.1 ∈ indOf (c.O.withVals v) (annotate (c.O.withVals v) 0 c.els) := by
        have := List.mem_map_of_mem (f := Prod.fst) hq1
        rwa [List.zipIdx_map_fst] at this
      have hq3 : q.1 ∈ annotate (c.O.withVals v) 0 c.els := List.mem_of_mem_filter hq2
      have := annotate_valid hv hq3
      exact this
    unfold afterTraverse afterFields at h
    split at h
    · cases h
    · split at h
      · cases h
      · split at h
        · cases h
        · cases h
        · rename_i t _
          injection h with h
          subst h
          refine ⟨hf t, ?_⟩
          intro key hkey
          simp only [indKeysOf, List.mem_filterMap] at hkey
          obtain ⟨x, hx, hx2⟩ := hkey
          split at hx2
          · injection hx2 with hx2
            subst hx2
            exact hik x hx
          · cases hx2

theorem build_valid {c : CircSpec} (hs : NoSelfLoops c.els) {v : ElemId → ℝ} {b : Build}
    (h : buildCirc c v = .ok b) : BuildOK b := by
  unfold buildCirc at h
  cases hn : numNodes c.els with
  | error e => rw [hn] at h; cases h
  | ok n =>
    rw [hn] at h
    refine buildWith_valid hs ?_ h
    intro nJ t
    obtain ⟨keep, hM, hp⟩ := finishModes_eq c.torch t
    rw [hM]; exact keep_len_le hp

theorem rebuild_valid {c : CircSpec} (hs : NoSelfLoops c.els) {n : ℕ} {v : ElemId → ℝ} {b : Build}
    (h : rebuildCirc c n v = .ok b) : BuildOK b :=
  buildWith_valid hs (by intro nJ t; simp [restrict]) h

open ComplexOrder in
theorem hermitian_eigen_real {ι : Type*} [Fintype ι] {H : Matrix ι ι ℂ} (hH : H.IsHermitian) {l : ℂ}
    {v : ι → ℂ} (hv : v ≠ 0) (h : H *ᵥ v = l • v) : ((l.re : ℝ) : ℂ) = l := by
  have h1 : star v ⬝ᵥ (H *ᵥ v) = l * (star v ⬝ᵥ v) := by rw [h, dotProduct_smul, smul_eq_mul]
  have h2 : star (star v ⬝ᵥ (H *ᵥ v)) = star v ⬝ᵥ (H *ᵥ v) := by
    rw [← star_dotProduct, star_mulVec, hH.eq, ← dotProduct_mulVec]
  have h3 : star (star v ⬝ᵥ v) = star v ⬝ᵥ v := by
    exact (star_dotProduct v v).symm
  have h0 : star v ⬝ᵥ v ≠ 0 := by
    intro h0
    exact hv (dotProduct_star_self_eq_zero.1 h0)
  rw [h1, star_mul', h3] at h2
  have := mul_right_cancel₀ h0 h2
  exact Complex.conj_eq_iff_re.1 this

theorem perm_map_exists {α β : Type*} {f : α → β} {l : List α} {m : List β} (h : (l.map f).Perm m) :
    ∃ l', l.Perm l' ∧ l'.map f = m := by
  generalize hx : l.map f = x at h
  induction h generalizing l with
  | nil => exact ⟨l, .refl _, hx⟩
  | cons b h ih =>
    cases l with
    | nil => cases hx
    | cons a l =>
      injection hx with h1 h2
      obtain ⟨l', hp, hm⟩ := ih h2
      exact ⟨a :: l', hp.cons a, by simp [h1, hm]⟩
  | swap b b' m =>
    match l, hx with
    | a :: a' :: l, hx =>
      simp only [List.map_cons, List.cons.injEq] at hx
      exact ⟨a' :: a :: l, .swap _ _ _, by simp [hx]⟩
  | trans h1 h2 ih1 ih2 =>
    obtain ⟨l1, p1, m1⟩ := ih1 hx
    obtain ⟨l2, p2, m2⟩ := ih2 m1
    exact ⟨l2, p1.trans p2, m2⟩

/-- eigensolvers with the assumed properties exist -/
theorem exists_eigs : ∃ eigs : EigsFn, EigsSpec eigs := by
  classical
  have h : ∀ (k : ℕ) (d : Fin k → ℕ) (H : Op d), 0 < Fintype.card (Idx d) →
      ∃ p : ℂ × (Idx d → ℂ), p.2 ≠ 0 ∧ H *ᵥ p.2 = p.1 • p.2 := by
    intro k d H hc
    have : Nonempty (Idx d) := Fintype.card_pos_iff.1 hc
    obtain ⟨l, hl⟩ := Module.End.exists_eigenvalue (Matrix.toLin' H)
    obtain ⟨v, hv⟩ := hl.exists_hasEigenvector
    refine ⟨(l, v), hv.2, ?_⟩
    have := hv.apply_eq_smul
    rwa [Matrix.toLin'_apply] at this
  refine ⟨fun X num => if hX : 0 < Fintype.card (Idx X.2.1) then
      .ok ((List.replicate num.toNat (h X.1 X.2.1 X.2.2 hX).choose).map
        (fun p => (p.1, ⟨X.1, X.2.1, p.2⟩))) else .error .valueError, ?_⟩
  intro k d H num h1 h2
  have hc : 0 < Fintype.card (Idx d) := by omega
  refine ⟨List.replicate num.toNat (h k d H hc).choose, ?_, by simp; omega, ?_⟩
  · simp only [dif_pos hc]
  · intro p hp
    rw [List.eq_of_mem_replicate hp]
    exact (h k d H hc).choose_spec

theorem exists_cargsort : ∃ argsort : List ℂ → List ℕ, CArgsortSpec argsort := by
  classical
  refine ⟨fun l => (List.range l.length).mergeSort (fun i j => decide ((l.getD i 0).re < (l.getD j 0).re ∨
      ((l.getD i 0).re = (l.getD j 0).re ∧ (l.getD i 0).im ≤ (l.getD j 0).im))), fun l =>
    ⟨List.mergeSort_perm _ _, ?_⟩⟩
  have := List.pairwise_mergeSort (le := fun i j => decide ((l.getD i 0).re < (l.getD j 0).re ∨
      ((l.getD i 0).re = (l.getD j 0).re ∧ (l.getD i 0).im ≤ (l.getD j 0).im))) (by
    intro a b c h1 h2
    simp only [decide_eq_true_eq] at h1 h2 ⊢
    rcases h1 with h1 | ⟨h1, h1'⟩ <;> rcases h2 with h2 | ⟨h2, h2'⟩
    · exact .inl (h1.trans h2)
    · exact .inl (h2 ▸ h1)
    · exact .inl (h1 ▸ h2)
    · exact .inr ⟨h1.trans h2, h1'.trans h2'⟩) (by
    intro a b
    simp only [Bool.or_eq_true, decide_eq_true_eq]
    rcases lt_trichotomy (l.getD a 0).re (l.getD b 0).re with h | h | h
    · exact .inl (.inl h)
    · rcases le_total (l.getD a 0).im (l.getD b 0).im with h' | h'
      · exact .inl (.inr ⟨h, h'⟩)
      · exact .inr (.inr ⟨h.symm, h'⟩)
    · exact .inr (.inl h)) (List.range l.length)
  exact this.imp (fun h => by simpa using h)

end SQ
