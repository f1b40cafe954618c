import Verif.Lemmas.Constructed
import Verif.Props.Symbolic

/-!
# C70, C78 for circuit objects
-/

namespace SQ
open Matrix Spec

/-- C78 for circuit objects: every constructed circuit lists its harmonic modes first; harmonic modes are
decoupled oscillators, charge modes carry no inductive energy. -/
theorem C78_circuit (c : CircSpec) (vals : ElemId → ℝ) (hc : GoodCircuit c vals) (b : Build)
    (hb : buildCirc c vals = .ok b) :
    (∀ i j, i ≤ j → b.M.omega i = 0 → b.M.omega j = 0) ∧
    (∀ i j, i ≠ j → b.M.omega i ≠ 0 →
      b.M.cInv i j = 0 ∧ b.M.cInv j i = 0 ∧ b.M.l i j = 0 ∧ b.M.l j i = 0) ∧
    (∀ i, b.M.omega i ≠ 0 → Harmonic b.M.data i) ∧
    (∀ i j, b.M.omega i = 0 → b.M.l i j = 0 ∧ b.M.l j i = 0) := by
  obtain ⟨n, a, B, t, hn, htr, -, ht, rfl⟩ := buildCirc_stages hb
  obtain ⟨-, hC, hL⟩ := good_mats hc hn htr
  exact C78_modes (c.lib n) c.sv c.argsort (c.argmax _) (hc.argmax _) c.draws _ _ _ hC hL _ (hc.lib n a hn htr).1
    c.fuel t ht c.torch

theorem mem_numbered_ind {O : Objs} {els : Elements} {q : (Edge × ElemId) × ℕ} (hq : q ∈ numbered O els) :
    ∃ p ∈ els, p.1 = q.1.1 ∧ q.1.2 ∈ p.2 := by
  unfold numbered at hq
  have h1 : q.1 ∈ inductivePlacements O els := by
    have := List.mem_map_of_mem (f := Prod.fst) hq
    rwa [List.zipIdx_map_fst] at this
  have h2 : q.1 ∈ placements els := List.mem_of_mem_filter h1
  simp only [placements, List.mem_flatMap, List.mem_map] at h2
  obtain ⟨p, hp, i, hi, e⟩ := h2
  refine ⟨p, hp, ?_, ?_⟩
  · rw [← e]
  · rw [← e]; exact hi

/-- C70 for circuit objects whose retained modes are the first ones (all circuits under PyTorch, and those
without removed modes): the Hamiltonian of the circuit is the symbolic Hamiltonian of
`description()` plus the deviation (4e²/ħ) Σ_{i<j} cInv_ij (n_i - ng_i)(n_j - n_i) over charge modes. -/
theorem C70_circuit_deviation (c : CircSpec) (vals : ElemId → ℝ) (hc : GoodCircuit c vals) (b : Build)
    (hb : buildCirc c vals = .ok b) (hal : Aligned b.M) (uf : ℝ) (huf : uf ≠ 0) (flux : LoopId → ℝ)
    (ng : Fin b.M.keep.length → ℝ) (m : Fin b.M.keep.length → ℕ) :
    let d := b.descrip uf vals flux ng
    fullHamiltonian b.C b.M m ng vals (b.fluxes flux) b.inds b.juns =
      .ok (evalSum d uf m (constructHamiltonian d b.inds b.juns) + symDeviation b.M.data m ng) := by
  obtain ⟨h1, h2, -, -⟩ := C78_circuit c vals hc b hb
  have hok := build_valid hc.noSelf hb
  refine C70_deviation b uf huf vals flux ng m hok.1 h1 (fun i j hij hi => (h2 i j hij hi).1) ?_ ?_
  · intro key hkey
    refine ⟨hok.2 key hkey, ?_⟩
    obtain ⟨n, a, B, t, hn, htr, -, ht, rfl⟩ := buildCirc_stages hb
    obtain ⟨hv, hC, hL⟩ := good_mats hc hn htr
    obtain ⟨hlib, hgap⟩ := hc.lib n a hn htr
    simp only [indKeysOf, List.mem_filterMap] at hkey
    obtain ⟨x, hx, hx2⟩ := hkey
    split at hx2
    swap
    · cases hx2
    injection hx2 with hx2
    subst hx2
    rw [(C18_branch_numbering _ _ _ _ _ _ hv a htr).1] at hx
    obtain ⟨q, hq, rfl⟩ := List.mem_map.1 hx
    obtain ⟨hq, hkind⟩ := List.mem_filter.1 hq
    rw [decide_eq_true_eq] at hkind
    obtain ⟨p, hp, hpe, hpi⟩ := mem_numbered_ind hq
    constructor
    · have hmem : (p.1, q.1.2) ∈ placements c.els := by
        simp only [placements, List.mem_flatMap, List.mem_map]
        exact ⟨p, hp, _, hpi, rfl⟩
      exact (hc.inds _ hmem hkind).ne'
    · intro i hi
      have hi' : (finishModes c.torch t).omega i = 0 := hi
      have hom : t.omega ((finishModes c.torch t).keep.get i) = 0 := by
        rw [← ((C32_uncoupled_removal t).2.2 c.torch).2.1 i, hi']
      have hS : (finishModes c.torch t).S = t.S := by
        obtain ⟨keep, hM, -⟩ := finishModes_eq c.torch t
        rw [hM]; rfl
      have hidx : ∀ hlt : (i : ℕ) < n, (⟨i, hlt⟩ : Fin n) = (finishModes c.torch t).keep.get i :=
        fun _ => Fin.ext (hal i).symm
      have := (C34_charge_mode_patterns _ _ _ _ _ hv hc.inds a htr hC (c.lib n) c.sv c.argsort (c.argmax _)
        (hc.argmax _) c.draws hlib hgap c.fuel t ht p hp _ hpi hkind _ hom).2.1
      rw [hpe] at this
      simp only
      rw [hidx, hS]
      exact this
  · intro key _ i hi
    obtain ⟨n, a, B, t, hn, htr, -, ht, rfl⟩ := buildCirc_stages hb
    exact (C28_charge_couplings (c.lib n) c.sv c.argsort (c.argmax _) c.draws _ _ _ _ c.fuel t ht).2 c.torch i
      key.wId hi

/-- In particular, without capacitively coupled charge modes (for instance with a single charge mode) the
symbolic Hamiltonian is the numerical one.  Missing: coupled charge modes, where it is false
(`C70_refuted`), and misaligned circuits. -/
theorem C70_circuit_partial (c : CircSpec) (vals : ElemId → ℝ) (hc : GoodCircuit c vals) (b : Build)
    (hb : buildCirc c vals = .ok b) (hal : Aligned b.M) (uf : ℝ) (huf : uf ≠ 0) (flux : LoopId → ℝ)
    (ng : Fin b.M.keep.length → ℝ) (m : Fin b.M.keep.length → ℕ)
    (hunc : ∀ i j, i < j → b.M.omega i = 0 → b.M.omega j = 0 → b.M.cInv i j = 0) :
    let d := b.descrip uf vals flux ng
    fullHamiltonian b.C b.M m ng vals (b.fluxes flux) b.inds b.juns =
      .ok (evalSum d uf m (constructHamiltonian d b.inds b.juns)) := by
  intro d
  have := C70_circuit_deviation c vals hc b hb hal uf huf flux ng m
  simp only [symDeviation_zero b.M.data m ng hunc, add_zero] at this
  exact this

/-- all circuits are aligned under PyTorch -/
theorem aligned_torch {nJ n : ℕ} (t : Trans nJ n) : Aligned (finishModes true t) := by
  intro i
  have h := (C32_uncoupled_removal t).2.1.2
  have : ∀ (l : List (Fin n)) (hl : l = List.finRange n) (i : Fin l.length), (l.get i : ℕ) = i := by
    rintro _ rfl i
    simp
  exact this _ h i

/-- the LC/junction circuit (harmonic mode and charge mode) meets the hypotheses under PyTorch -/
example (sv : SvdFn) (hsv : SvdSpec sv) (argsort : ArgsortFn) (ha : ArgsortSpec argsort)
    (argmax : ∀ k, ArgmaxFn k) (hm : ∀ k, ArgmaxSpec (argmax k)) (flux : LoopId → ℝ)
    (ng : Fin (lcBuild true).M.keep.length → ℝ) (m : Fin (lcBuild true).M.keep.length → ℕ) :
    let d := (lcBuild true).descrip 1e9 lcVals flux ng
    fullHamiltonian (lcBuild true).C (lcBuild true).M m ng lcVals ((lcBuild true).fluxes flux)
        (lcBuild true).inds (lcBuild true).juns =
      .ok (evalSum d 1e9 m (constructHamiltonian d (lcBuild true).inds (lcBuild true).juns)) := by
  have hal : Aligned (lcBuild true).M := aligned_torch lcFinal
  refine C70_circuit_partial (lcSpec true sv argsort argmax) lcVals (lc_good true sv argsort hm) _
    (lc_build_init hsv ha argmax true) hal 1e9 (by norm_num) flux ng m ?_
  intro i j hij hi hj
  have h1 := (((C32_uncoupled_removal lcFinal).2.2 true).2.2.2 i j).1
  have hne : (finishModes true lcFinal).keep.get i ≠ (finishModes true lcFinal).keep.get j := by
    intro h
    have h2 : (i : ℕ) = j := ((hal i).symm.trans (congrArg Fin.val h)).trans (hal j)
    exact hij.ne (Fin.ext h2)
  rw [show (lcBuild true).M.cInv i j = _ from h1]
  exact Matrix.one_apply_ne hne

end SQ
