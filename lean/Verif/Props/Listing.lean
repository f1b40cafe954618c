import Verif.Lemmas.Listing
import Verif.Props.Constructed
import Verif.Props.CircuitState
import Verif.Props.Inputs
import Mathlib.Data.Nat.Digits.Lemmas

/-!
# C118: `description()` gives a value to every symbol it prints
-/

namespace SQ
open Real Spec

section
variable {n nJ k b nl : ℕ} {c : Descrip n nJ k b nl}

theorem mem_modeTxt {ng : List ℝ} {e : Eqn} : e ∈ (modeTxt c ng).flatMap Prod.snd ↔ ∃ i : Fin k,
    (i.val < c.harDim ∧ (e = .phase i ∨ e = .over2pi (.omega i) (sciRound 5 (npRound 5 (c.omega i))) ∨
      e = .value (.zp i) (sciRound 2 (c.phiZp i)))) ∨
    (¬ i.val < c.harDim ∧ e = .value (.ng i) (npRound 3 (ng.getD (i - c.harDim) 0))) := by
  unfold modeTxt
  simp only [List.mem_flatMap, List.mem_map, List.mem_finRange, true_and, exists_exists_eq_and]
  apply exists_congr
  intro i
  by_cases h : i.val < c.harDim <;> simp [h]

theorem mem_paramTxt {EL EJ : List ℝ} {flux : List Bool} {e : Eqn} : e ∈ paramTxt c EL EJ flux ↔
    (∃ i j : Fin k, c.harDim ≤ i.val ∧ i ≤ j ∧ e = .value (.EC i j) (npRound 3 (c.EC i j))) ∨
    (∃ i x, EL[i]? = some x ∧ flux.getD i false = true ∧ e = .value (.EL i) (npRound 3 x)) ∨
    (∃ i x, EJ[i]? = some x ∧ e = .value (.EJ i) (npRound 3 x)) := by
  unfold paramTxt
  rw [List.mem_append, List.mem_append, or_assoc]
  refine or_congr ?_ (or_congr ?_ ?_)
  · simp only [List.mem_flatMap, List.mem_filter, List.mem_finRange, true_and, List.mem_map, decide_eq_true_eq]
    constructor
    · rintro ⟨i, hi, j, hj, rfl⟩
      exact ⟨i, j, hi, hj, rfl⟩
    · rintro ⟨i, j, hi, hj, rfl⟩
      exact ⟨i, hi, j, hj, rfl⟩
  · simp only [List.mem_filterMap, Option.ite_none_right_eq_some, Option.some.injEq, Prod.exists]
    constructor
    · rintro ⟨x, i, hm, hf, rfl⟩
      exact ⟨i, x, List.mem_zipIdx_iff_getElem?.1 hm, hf, rfl⟩
    · rintro ⟨i, x, hm, hf, rfl⟩
      exact ⟨x, i, List.mem_zipIdx_iff_getElem?.2 hm, hf, rfl⟩
  · simp only [List.mem_map, Prod.exists]
    constructor
    · rintro ⟨x, i, hm, rfl⟩
      exact ⟨i, x, List.mem_zipIdx_iff_getElem?.1 hm, rfl⟩
    · rintro ⟨i, x, hm, rfl⟩
      exact ⟨x, i, List.mem_zipIdx_iff_getElem?.2 hm, rfl⟩

theorem mem_loopTxt {e : Eqn} : e ∈ loopTxt c ↔ ∃ l : Fin nl, e = .over2pi (.ext l) (npRound 2 (c.loops l)) := by
  unfold loopTxt
  simp only [List.mem_map, List.mem_finRange, true_and]
  exact exists_congr fun l => eq_comm

theorem modeTxt_nodup {ng : List ℝ} : (((modeTxt c ng).flatMap Prod.snd).map Eqn.sym).Nodup := by
  unfold modeTxt
  rw [List.flatMap_map, List.map_flatMap, List.nodup_flatMap]
  constructor
  · intro i _
    by_cases h : i.val < c.harDim <;> simp [h, Eqn.sym]
  · refine (List.nodup_finRange k).imp_of_mem ?_
    intro i j _ _ hij
    have hij' : i.val ≠ j.val := fun h => hij (Fin.ext h)
    by_cases h : i.val < c.harDim <;> by_cases h' : j.val < c.harDim <;>
      simp [h, h', Eqn.sym, Function.onFun, List.Disjoint, hij']

theorem paramTxt_nodup {EL EJ : List ℝ} {flux : List Bool} : ((paramTxt c EL EJ flux).map Eqn.sym).Nodup := by
  unfold paramTxt
  rw [List.map_append, List.map_append, List.nodup_append', List.nodup_append']
  refine ⟨⟨?_, ?_, ?_⟩, ?_, ?_⟩
  · rw [List.map_flatMap, List.nodup_flatMap]
    constructor
    · intro i _
      rw [List.map_map]
      refine List.Nodup.map_on ?_ ((List.nodup_finRange k).filter _)
      intro j _ j' _ h
      simp [Eqn.sym] at h
      exact Fin.ext h
    · refine ((List.nodup_finRange k).filter _).imp_of_mem ?_
      intro i j _ _ hij s h1 h2
      simp only [List.map_map, List.mem_map, Function.comp] at h1 h2
      obtain ⟨x, -, rfl⟩ := h1
      obtain ⟨y, -, e⟩ := h2
      simp [Eqn.sym] at e
      exact hij (Fin.ext e.1.symm)
  · rw [List.map_filterMap]
    have : (fun q : ℝ × ℕ => Option.map Eqn.sym (if flux.getD q.2 false = true then
        some (Eqn.value (.EL q.2) (npRound 3 q.1)) else none)) =
        fun q : ℝ × ℕ => if flux.getD q.2 false = true then some (Sym.EL q.2) else none := by
      funext q
      by_cases h : flux.getD q.2 false = true
      · rw [if_pos h, if_pos h]; rfl
      · rw [if_neg h, if_neg h]; rfl
    rw [this]
    have h2 : EL.zipIdx.filterMap (fun q : ℝ × ℕ => if flux.getD q.2 false = true then some (Sym.EL q.2) else none) =
        (EL.zipIdx.map Prod.snd).filterMap (fun i => if flux.getD i false = true then some (Sym.EL i) else none) := by
      rw [List.filterMap_map]; rfl
    rw [h2, List.zipIdx_map_snd]
    refine List.Nodup.filterMap ?_ (List.nodup_range' )
    intro i j s hi hj
    simp only [Option.mem_def, Option.ite_none_right_eq_some, Option.some.injEq] at hi hj
    have := hi.2.trans hj.2.symm
    simpa using this
  · intro s h1 h2
    simp only [List.mem_map, List.mem_flatMap, List.mem_filterMap, Option.ite_none_right_eq_some] at h1 h2
    obtain ⟨e, ⟨i, -, j, -, rfl⟩, rfl⟩ := h1
    obtain ⟨e, ⟨q, -, -, h⟩, h'⟩ := h2
    cases h
    cases h'
  · rw [List.map_map]
    have : (Eqn.sym ∘ fun q : ℝ × ℕ => Eqn.value (.EJ q.2) (npRound 3 q.1)) = Sym.EJ ∘ Prod.snd := rfl
    rw [this, ← List.map_map, List.zipIdx_map_snd]
    exact List.Nodup.map (fun i j h => by simpa using h) List.nodup_range'
  · intro s h1 h2
    simp only [List.mem_append, List.mem_map, List.mem_flatMap, List.mem_filterMap,
      Option.ite_none_right_eq_some] at h1 h2
    obtain ⟨e, ⟨q, -, rfl⟩, rfl⟩ := h2
    rcases h1 with ⟨e, ⟨i, -, j, -, rfl⟩, h⟩ | ⟨e, ⟨q, -, -, h⟩, h'⟩
    · cases h
    · cases h
      cases h'

end

/-- C118: if harmonic modes come first (so in all constructed circuits, C78), no inductance is zero and every charge mode
has its charge offset, then `description()` succeeds. Every symbol for a number in the printed Hamiltonian is given a
value; the phase operator of a harmonic mode is defined by its ladder operators and its zero-point fluctuation, which is
given a value; no symbol is defined twice; the kinds of the modes are right; and the numbers are those of the circuit, up
to the digits shown. -/
theorem C118_listing (b : Build) (uf : ℝ) (vals : ElemId → ℝ) (flux : LoopId → ℝ) (islands : ℕ → Option ChargeObj)
    (hfirst : ∀ i j, i ≤ j → b.M.omega i = 0 → b.M.omega j = 0) (hL : ∀ key ∈ b.inds, vals key.el ≠ 0)
    (hisl : ∀ i, b.M.omega i = 0 → islands i ≠ none) :
    ∃ p, b.description uf vals flux islands = .ok p ∧
      (∀ t ∈ p.ham, ∀ s ∈ t.syms, s.isNumber = true → ∃ e ∈ p.eqns, e.sym = s) ∧
      (∀ i : Fin b.M.keep.length, b.M.omega i ≠ 0 → .phase i ∈ p.eqns ∧ ∃ x, .value (.zp i) x ∈ p.eqns) ∧
      (p.eqns.map Eqn.sym).Nodup ∧
      (p.modes.length = b.M.keep.length ∧ ∀ i : Fin b.M.keep.length,
        (p.modes[i.val]?.map Prod.fst = some true ↔ b.M.omega i ≠ 0)) ∧
      Faithful b uf vals flux (fun i => (islands i).map ChargeObj.chValue) p.eqns := by
  classical
  have hd : ∀ i : Fin b.M.keep.length, (i : ℕ) < (dictOf b uf vals flux islands).harDim ↔ b.M.omega i ≠ 0 :=
    fun i => harDim_iff hfirst i
  have hgt : ∀ i, (b.descrip uf vals flux (fun _ => 0)).harDim ≤ i → i < b.M.keep.length → islands i ≠ none := by
    intro i h1 h2
    apply hisl ⟨i, h2⟩
    by_contra h
    have := (hd ⟨i, h2⟩).2 h
    exact absurd h1 (not_le.2 this)
  refine ⟨_, description_eq b uf vals flux islands hL hgt, ?_, ?_, ?_, ⟨?_, ?_⟩, ?_⟩
  · intro t ht s hs hn
    have hmem : ∀ e : Eqn, ∀ {p : Printed b.M.keep.length b.loops.length},
        e ∈ p.modes.flatMap Prod.snd ∨ e ∈ p.params ∨ e ∈ p.loops → e ∈ p.eqns := by
      intro e p h
      unfold Printed.eqns
      rw [List.mem_append, List.mem_append, or_assoc]
      exact h
    unfold constructHamiltonian at ht
    simp only [List.mem_append] at ht
    rcases ht with ((ht | ht) | ht) | ht
    · unfold harModeTerms at ht
      simp only [List.mem_map, List.mem_filter, List.mem_finRange, true_and, decide_eq_true_eq] at ht
      obtain ⟨i, hi, rfl⟩ := ht
      simp only [SymExpr.syms, Set.mem_union, Set.mem_singleton_iff] at hs
      rcases hs with (rfl | rfl) | rfl
      · exact ⟨_, hmem _ (.inl (mem_modeTxt.2 ⟨i, .inl ⟨hi, .inr (.inl rfl)⟩⟩)), rfl⟩
      · cases hn
      · cases hn
    · unfold chargeModeTerms at ht
      simp only [List.mem_flatMap, List.mem_map, List.mem_filter, List.mem_finRange, true_and, decide_eq_true_eq] at ht
      obtain ⟨i, hi, j, hj, rfl⟩ := ht
      have hj' : ¬ j.val < (dictOf b uf vals flux islands).harDim := not_lt.2 (le_trans hi hj)
      simp only [SymExpr.syms, Set.mem_union, Set.mem_singleton_iff] at hs
      rcases hs with (rfl | rfl | rfl) | rfl | rfl
      · exact ⟨_, hmem _ (.inr (.inl (mem_paramTxt.2 (.inl ⟨i, j, hi, hj, rfl⟩)))), rfl⟩
      · cases hn
      · exact ⟨_, hmem _ (.inl (mem_modeTxt.2 ⟨i, .inr ⟨not_lt.2 hi, rfl⟩⟩)), rfl⟩
      · cases hn
      · exact ⟨_, hmem _ (.inl (mem_modeTxt.2 ⟨j, .inr ⟨hj', rfl⟩⟩)), rfl⟩
    · unfold inductiveTerms at ht
      simp only [List.mem_filterMap, Option.ite_none_left_eq_some, Option.some.injEq, Prod.exists] at ht
      obtain ⟨key, i, hk, hB, rfl⟩ := ht
      rw [List.mem_zipIdx_iff_getElem?] at hk
      simp only [SymExpr.syms, Set.mem_union, Set.mem_singleton_iff, Set.mem_ofPred_eq] at hs
      rcases hs with (rfl | ⟨j, -, rfl⟩) | ⟨l, -, rfl⟩
      · refine ⟨_, hmem _ (.inr (.inl (mem_paramTxt.2 (.inr (.inl
          ⟨i, (Phi0 / (2 * π)) ^ 2 / vals key.el / (2 * π * hbar) / uf, ?_, ?_, rfl⟩))))), rfl⟩
        · rw [List.getElem?_map, hk]; rfl
        · unfold Descrip.hasFlux
          rw [List.getD_eq_getElem?_getD, List.getElem?_map, hk]
          simpa using hB
      · cases hn
      · exact ⟨_, hmem _ (.inr (.inr (mem_loopTxt.2 ⟨l, rfl⟩))), rfl⟩
    · unfold jjTerms at ht
      simp only [List.mem_map, Prod.exists] at ht
      obtain ⟨key, i, hk, rfl⟩ := ht
      rw [List.mem_zipIdx_iff_getElem?] at hk
      simp only [SymExpr.syms, Set.mem_union, Set.mem_singleton_iff, Set.mem_ofPred_eq] at hs
      rcases hs with rfl | ⟨j, -, rfl⟩ | ⟨l, -, rfl⟩
      · refine ⟨_, hmem _ (.inr (.inl (mem_paramTxt.2 (.inr (.inr ⟨i, vals key.el / (2 * π) / uf, ?_, rfl⟩))))), rfl⟩
        rw [List.getElem?_map, hk]; rfl
      · cases hn
      · exact ⟨_, hmem _ (.inr (.inr (mem_loopTxt.2 ⟨l, rfl⟩))), rfl⟩
  · intro i hi
    have h := (hd i).2 hi
    constructor
    · exact List.mem_append_left _ (List.mem_append_left _ (mem_modeTxt.2 ⟨i, .inl ⟨h, .inl rfl⟩⟩))
    · exact ⟨_, List.mem_append_left _ (List.mem_append_left _ (mem_modeTxt.2 ⟨i, .inl ⟨h, .inr (.inr rfl)⟩⟩))⟩
  · unfold Printed.eqns
    rw [List.map_append, List.map_append, List.nodup_append', List.nodup_append']
    refine ⟨⟨modeTxt_nodup, paramTxt_nodup, ?_⟩, ?_, ?_⟩
    · intro s h1 h2
      obtain ⟨e, he, rfl⟩ := List.mem_map.1 h1
      obtain ⟨e', he', h⟩ := List.mem_map.1 h2
      obtain ⟨i, ⟨-, rfl | rfl | rfl⟩ | ⟨-, rfl⟩⟩ := mem_modeTxt.1 he <;>
        rcases mem_paramTxt.1 he' with ⟨i', j', -, -, rfl⟩ | ⟨i', x, -, -, rfl⟩ | ⟨i', x, -, rfl⟩ <;> cases h
    · unfold loopTxt
      rw [List.map_map]
      refine List.Nodup.map ?_ (List.nodup_finRange _)
      intro l l' h
      simp [Eqn.sym] at h
      exact Fin.ext h
    · intro s h1 h2
      obtain ⟨e', he', rfl⟩ := List.mem_map.1 h2
      obtain ⟨l, rfl⟩ := mem_loopTxt.1 he'
      rw [List.mem_append] at h1
      rcases h1 with h1 | h1
      · obtain ⟨e, he, h⟩ := List.mem_map.1 h1
        obtain ⟨i, ⟨-, rfl | rfl | rfl⟩ | ⟨-, rfl⟩⟩ := mem_modeTxt.1 he <;> cases h
      · obtain ⟨e, he, h⟩ := List.mem_map.1 h1
        rcases mem_paramTxt.1 he with ⟨i', j', -, -, rfl⟩ | ⟨i', x, -, -, rfl⟩ | ⟨i', x, -, rfl⟩ <;> cases h
  · simp [modeTxt]
  · intro i
    rw [← hd i]
    unfold modeTxt
    rw [List.getElem?_map, List.getElem?_eq_getElem (by simp)]
    simp only [List.getElem_finRange, Option.map_some, Fin.cast_mk, Fin.eta]
    by_cases h : (i : ℕ) < (dictOf b uf vals flux islands).harDim
    · rw [if_pos h]; simp [h]
    · rw [if_neg h]; simp [h]
  · have hsplit : ∀ {e : Eqn} {p : Printed b.M.keep.length b.loops.length}, e ∈ p.eqns →
        e ∈ p.modes.flatMap Prod.snd ∨ e ∈ p.params ∨ e ∈ p.loops := by
      intro e p h
      unfold Printed.eqns at h
      rwa [List.mem_append, List.mem_append, or_assoc] at h
    refine ⟨?_, ?_, ?_, ?_, ?_, ?_, ?_⟩
    · intro i x hx
      rcases hsplit hx with h | h | h
      · obtain ⟨j, ⟨hj, h | h | h⟩ | ⟨hj, h⟩⟩ := mem_modeTxt.1 h <;> try cases h
        refine ⟨j.isLt, npRound 5 ((dictOf b uf vals flux islands).omega j), ?_, ?_⟩
        · refine le_trans (npRound_close 5 _) (by norm_num)
        · refine le_trans (sciRound_close 5 _) ?_
          gcongr
          norm_num
      · rcases mem_paramTxt.1 h with ⟨i', j', -, -, h⟩ | ⟨i', x, -, -, h⟩ | ⟨i', x, -, h⟩ <;> cases h
      · obtain ⟨l, h⟩ := mem_loopTxt.1 h
        cases h
    · intro i x hx
      rcases hsplit hx with h | h | h
      · obtain ⟨j, ⟨hj, h | h | h⟩ | ⟨hj, h⟩⟩ := mem_modeTxt.1 h <;> try cases h
        refine ⟨j.isLt, ?_⟩
        refine le_trans (sciRound_close 2 _) ?_
        change _ * |b.M.data.phiZp j| ≤ _
        gcongr
        norm_num
      · rcases mem_paramTxt.1 h with ⟨i', j', -, -, h⟩ | ⟨i', x, -, -, h⟩ | ⟨i', x, -, h⟩ <;> cases h
      · obtain ⟨l, h⟩ := mem_loopTxt.1 h
        cases h
    · intro i x hx
      rcases hsplit hx with h | h | h
      · obtain ⟨j, ⟨hj, h | h | h⟩ | ⟨hj, h⟩⟩ := mem_modeTxt.1 h <;> try cases h
        have hne := hgt j (not_lt.1 hj) j.isLt
        obtain ⟨o, ho⟩ := Option.ne_none_iff_exists'.1 hne
        refine ⟨o.chValue, by simp [ho], ?_⟩
        have hval : (((List.range b.M.keep.length).drop (dictOf b uf vals flux islands).harDim).map
            fun i => ((islands i).map ChargeObj.chValue).getD 0).getD (j - (dictOf b uf vals flux islands).harDim) 0 =
            o.chValue := by
          rw [List.getD_eq_getElem?_getD, List.getElem?_map, List.getElem?_drop]
          have : (dictOf b uf vals flux islands).harDim + (j - (dictOf b uf vals flux islands).harDim) = j.val := by omega
          rw [this, List.getElem?_range j.isLt]
          simp [ho]
        rw [hval]
        exact le_trans (npRound_close 3 _) (by norm_num)
      · rcases mem_paramTxt.1 h with ⟨i', j', -, -, h⟩ | ⟨i', x, -, -, h⟩ | ⟨i', x, -, h⟩ <;> cases h
      · obtain ⟨l, h⟩ := mem_loopTxt.1 h
        cases h
    · intro i j x hx
      rcases hsplit hx with h | h | h
      · obtain ⟨j, ⟨hj, h | h | h⟩ | ⟨hj, h⟩⟩ := mem_modeTxt.1 h <;> cases h
      · rcases mem_paramTxt.1 h with ⟨i', j', -, -, h⟩ | ⟨i', x, -, -, h⟩ | ⟨i', x, -, h⟩ <;> try cases h
        refine ⟨i'.isLt, j'.isLt, ?_⟩
        have hval : (dictOf b uf vals flux islands).EC i' j' = (2 * eCharge) ^ 2 / (2 * π * hbar) / uf *
            (if i'.val = j'.val then b.M.cInv i' j' / 2 else b.M.cInv i' j') := by
          change ((2 * eCharge) ^ 2 / (hbar * 2 * π * uf)) * (quadCInv b.M.cInv i' j') = _
          unfold quadCInv
          rw [Matrix.of_apply, div_div, show hbar * 2 * π * uf = 2 * π * hbar * uf by ring]
          simp only [Fin.ext_iff]
        rw [← hval]
        exact le_trans (npRound_close 3 _) (by norm_num)
      · obtain ⟨l, h⟩ := mem_loopTxt.1 h
        cases h
    · intro i x hx
      rcases hsplit hx with h | h | h
      · obtain ⟨j, ⟨hj, h | h | h⟩ | ⟨hj, h⟩⟩ := mem_modeTxt.1 h <;> cases h
      · rcases mem_paramTxt.1 h with ⟨i', j', -, -, h⟩ | ⟨i', y, hy, -, h⟩ | ⟨i', x, -, h⟩ <;> try cases h
        rw [List.getElem?_map] at hy
        obtain ⟨key, hkey, rfl⟩ := Option.map_eq_some_iff.1 hy
        exact ⟨key, hkey, le_trans (npRound_close 3 _) (by norm_num)⟩
      · obtain ⟨l, h⟩ := mem_loopTxt.1 h
        cases h
    · intro i x hx
      rcases hsplit hx with h | h | h
      · obtain ⟨j, ⟨hj, h | h | h⟩ | ⟨hj, h⟩⟩ := mem_modeTxt.1 h <;> cases h
      · rcases mem_paramTxt.1 h with ⟨i', j', -, -, h⟩ | ⟨i', y, -, -, h⟩ | ⟨i', y, hy, h⟩ <;> try cases h
        rw [List.getElem?_map] at hy
        obtain ⟨key, hkey, rfl⟩ := Option.map_eq_some_iff.1 hy
        exact ⟨key, hkey, le_trans (npRound_close 3 _) (by norm_num)⟩
      · obtain ⟨l, h⟩ := mem_loopTxt.1 h
        cases h
    · intro l x hx
      rcases hsplit hx with h | h | h
      · obtain ⟨j, ⟨hj, h | h | h⟩ | ⟨hj, h⟩⟩ := mem_modeTxt.1 h <;> cases h
      · rcases mem_paramTxt.1 h with ⟨i', j', -, -, h⟩ | ⟨i', y, -, -, h⟩ | ⟨i', y, hy, h⟩ <;> cases h
      · obtain ⟨l', h⟩ := mem_loopTxt.1 h
        cases h
        refine ⟨b.loops.get l', by simp, ?_⟩
        have hval : (dictOf b uf vals flux islands).loops l' = flux (b.loops.get l') / (2 * π) := by
          change flux (b.loops.get l') / 2 / π = _
          rw [div_div]
        rw [← hval]
        exact le_trans (npRound_close 2 _) (by norm_num)

/-- only `update` changes the matrices, and no call removes a charge island -/
theorem exec_frame {P : Phys} (a : Act) (w : World P) (h : a ≠ .update) :
    (a.exec w).2.circ.bd = w.circ.bd ∧ ∀ i, w.circ.islands i ≠ none → (a.exec w).2.circ.islands i ≠ none := by
  have hst : ∀ x, (setTruncNums x w).2.circ.bd = w.circ.bd ∧ (setTruncNums x w).2.circ.islands = w.circ.islands := by
    intro x
    rcases setTruncNums_cases x w with ⟨h, -⟩ | ⟨nums, -, -, ⟨e, -, h⟩ | ⟨mem, -, -, h⟩⟩ <;> (rw [h]; exact ⟨rfl, rfl⟩)
  have hisl : ∀ (k : ℕ) (o : ChargeObj) (i : ℕ), w.circ.islands i ≠ none →
      Function.update w.circ.islands k (some o) i ≠ none := by
    intro k o i hi
    by_cases hk : i = k
    · subst hk; simp
    · rwa [Function.update_of_ne hk]
  cases a with
  | setTruncNums x => exact ⟨(hst x).1, fun i hi => by rw [show ((Act.setTruncNums x).exec w).2.circ.islands = _ from (hst x).2]; exact hi⟩
  | truncateCircuit x =>
    simp only [Act.exec]
    rcases truncateCircuit_state x w with h | ⟨l, h⟩
    · rw [h]; exact ⟨rfl, fun i hi => hi⟩
    · rw [h]; exact ⟨(hst _).1, fun i hi => by rw [(hst _).2]; exact hi⟩
  | setChargeOffset mode ng =>
    simp only [Act.exec, setChargeOffset]
    repeat' split
    all_goals first
      | exact ⟨rfl, fun i hi => hi⟩
      | exact ⟨rfl, fun i hi => hisl _ _ i hi⟩
  | setChargeNoise mode amp =>
    simp only [Act.exec, setChargeNoise]
    split <;> first
      | exact ⟨rfl, fun i hi => hi⟩
      | exact ⟨rfl, fun i hi => hisl _ _ i hi⟩
  | setFlux l v => exact ⟨rfl, fun i hi => hi⟩
  | setValue i v => exact ⟨rfl, fun i hi => hi⟩
  | setUnitFreq u => exact ⟨rfl, fun i hi => hi⟩
  | hamiltonian =>
    rcases hamiltonian_frame w with h | ⟨t, h⟩ <;> (simp only [Act.exec]; rw [h]; exact ⟨rfl, fun i hi => hi⟩)
  | diag k =>
    obtain ⟨t, f, v, h⟩ := diag_frame k w
    simp only [Act.exec]; rw [h]; exact ⟨rfl, fun i hi => hi⟩
  | update => exact absurd rfl h

theorem run_frame {P : Phys} : ∀ (h : List Act) (w : World P), Act.update ∉ h →
    (run w h).circ.bd = w.circ.bd ∧ ∀ i, w.circ.islands i ≠ none → (run w h).circ.islands i ≠ none := by
  intro h
  induction h with
  | nil => intro w _; exact ⟨rfl, fun i hi => hi⟩
  | cons a h ih =>
    intro w hu
    rw [List.mem_cons, not_or] at hu
    obtain ⟨h1, h2⟩ := exec_frame a w (Ne.symm hu.1)
    obtain ⟨h3, h4⟩ := ih (a.exec w).2 hu.2
    exact ⟨h3.trans h1, fun i hi => h4 i (h2 i hi)⟩

/-- C118 for circuit objects: after construction and any calls without `update()`. -/
theorem C118_circuit {c : CircSpec} {eigs as} (vals : ElemId → ℝ) (hc : GoodCircuit c vals) (flux : LoopId → ℝ) (u : ℝ)
    (w0 : World (circPhys c eigs as)) (hw : construct (circPhys c eigs as) vals flux u = .ok w0) (h : List Act)
    (hu : Act.update ∉ h) (hL : ∀ key ∈ Build.inds w0.circ.bd, (run w0 h).vals key.el ≠ 0) :
    let w := run w0 h
    let b : Build := w.circ.bd
    ∃ p, describeNow w = .ok p ∧
      (∀ t ∈ p.ham, ∀ s ∈ t.syms, s.isNumber = true → ∃ e ∈ p.eqns, e.sym = s) ∧
      (∀ i : Fin b.M.keep.length, b.M.omega i ≠ 0 → .phase i ∈ p.eqns ∧ ∃ x, .value (.zp i) x ∈ p.eqns) ∧
      (p.eqns.map Eqn.sym).Nodup ∧
      (p.modes.length = b.M.keep.length ∧ ∀ i : Fin b.M.keep.length,
        (p.modes[i.val]?.map Prod.fst = some true ↔ b.M.omega i ≠ 0)) ∧
      Faithful b w.unitFreq w.vals w.flux w.circ.ng p.eqns := by
  intro w b
  have hb : b = w0.circ.bd := (run_frame h w0 hu).1
  have hbuild := (construct_build hw).1
  refine C118_listing b w.unitFreq w.vals w.flux w.circ.islands ?_ ?_ ?_
  · rw [hb]
    exact (C78_circuit c vals hc _ hbuild).1
  · rw [hb]; exact hL
  · intro i hi
    refine (run_frame h w0 hu).2 i ?_
    have hch : Build.isCharge w0.circ.bd i = true := by
      rw [← hb]
      unfold Build.isCharge
      rw [dif_pos i.isLt]
      simpa using hi
    unfold construct at hw
    split at hw
    · cases hw
    · rename_i bd hbd
      injection hw with hw
      subst hw
      have h1 : (circPhys c eigs as).isCharge bd i = true := hch
      have h2 : i.val < (circPhys c eigs as).nModes bd := by
        have hk : b.M.keep.length = Build.k bd := congrArg Build.k hb
        exact lt_of_lt_of_eq i.isLt hk
      simp [h1, h2]

/-- the LC/junction circuit under PyTorch, with a harmonic and a charge mode, after two truncation numbers, a charge
offset and a flux are set: the hypotheses of C118_circuit are met -/
theorem C118_example {sv : SvdFn} (hsv : SvdSpec sv) {argsort : ArgsortFn} (ha : ArgsortSpec argsort)
    {argmax : ∀ k, ArgmaxFn k} (hm : ∀ k, ArgmaxSpec (argmax k)) {eigs as} :
    GoodCircuit (lcSpec true sv argsort argmax) lcVals ∧
    ∃ w0 : World (circPhys (lcSpec true sv argsort argmax) eigs as),
      construct (circPhys (lcSpec true sv argsort argmax) eigs as) lcVals (fun _ => 0) 1e9 = .ok w0 ∧
      ∃ h, h = [Act.setTruncNums (.list [3, 4]), .setChargeOffset (some 2) 0.25, .setFlux 0 0.5] ∧ Act.update ∉ h ∧
      (∀ key ∈ Build.inds w0.circ.bd, (run w0 h).vals key.el ≠ 0) ∧
      ∃ p, describeNow (run w0 h) = .ok p ∧ p.modes.length = 2 := by
  have hg := lc_good true sv argsort hm
  obtain ⟨w0, hw, hbd⟩ := lc_construct (eigs := eigs) (as := as) (argmax := argmax) hsv ha lcVals (fun _ _ => rfl) true
    (fun _ => 0) 1e9
  have hu : Act.update ∉ [Act.setTruncNums (.list [3, 4]), .setChargeOffset (some 2) 0.25, .setFlux 0 0.5] := by simp
  have hL : ∀ key ∈ Build.inds w0.circ.bd, (run w0 [Act.setTruncNums (.list [3, 4]), .setChargeOffset (some 2) 0.25,
      .setFlux 0 0.5]).vals key.el ≠ 0 := by
    have hvals : ∀ i, (run w0 [Act.setTruncNums (.list [3, 4]), .setChargeOffset (some 2) 0.25, .setFlux 0 0.5]).vals i =
        lcVals i := by
      intro i
      have h0 : w0.vals i = lcVals i := by
        unfold construct at hw
        split at hw
        · cases hw
        · injection hw with hw
          rw [← hw]
      rw [← h0]
      exact ((exec_inputs _ _).2.1 i (by simp)).trans (((exec_inputs _ _).2.1 i (by simp)).trans
        ((exec_inputs _ _).2.1 i (by simp)))
    have key : ∀ b : Build, b = lcBuild true → ∀ key ∈ b.inds, lcVals key.el ≠ 0 := by
      rintro _ rfl key hk
      have hk' : key ∈ [(⟨(0, 1), 0, (0 : Fin 2)⟩ : IndKey 2)] := hk
      have he : key.el = 0 := congrArg IndKey.el (List.mem_singleton.1 hk')
      rw [he]
      simp [lcVals, lcObjs]
    intro k hk
    rw [hvals]
    exact key _ hbd k hk
  refine ⟨hg, w0, hw, _, rfl, hu, hL, ?_⟩
  obtain ⟨p, hp, -, -, -, ⟨hlen, -⟩, -⟩ := C118_circuit lcVals hg (fun _ => 0) 1e9 w0 hw _ hu hL
  refine ⟨p, hp, hlen.trans ?_⟩
  have h1 : Build.k (run w0 [Act.setTruncNums (.list [3, 4]), .setChargeOffset (some 2) 0.25, .setFlux 0 0.5]).circ.bd =
      Build.k w0.circ.bd := congrArg Build.k (run_frame _ w0 hu).1
  refine h1.trans ?_
  rw [hbd]
  change (finishModes true lcFinal).keep.length = 2
  rw [((C32_uncoupled_removal lcFinal).2.1).2]
  rfl

/-- symbols of a circuit of at most 110 modes -/
def Sym.small : Sym → Prop
  | .EC i j => i ≤ j ∧ j < 110
  | _ => True

theorem digit_back (d : ℕ) (h : d < 10) : (Nat.digitChar d).toNat - 48 = d := by
  interval_cases d <;> rfl

theorem digits_back (n : ℕ) : ((Nat.digits 10 n).map Nat.digitChar).map (fun ch => ch.toNat - 48) = Nat.digits 10 n := by
  rw [List.map_map]
  conv_rhs => rw [← List.map_id (Nat.digits 10 n)]
  apply List.map_congr_left
  intro d hd
  exact digit_back d (Nat.digits_lt_base (by norm_num) hd)

theorem decimal_inj {m n : ℕ} (h : decimal m = decimal n) : m = n := by
  unfold decimal at h
  have h1 := congrArg (List.map (fun ch : Char => ch.toNat - 48)) (List.reverse_injective h)
  rw [digits_back, digits_back] at h1
  exact Nat.digits_inj_iff.1 h1

theorem decimal_head (n : ℕ) (l : List Char) : decimal (n + 1) ≠ 'e' :: l := by
  intro h
  have he : 'e' ∈ decimal (n + 1) := by rw [h]; simp
  unfold decimal at he
  rw [List.mem_reverse, List.mem_map] at he
  obtain ⟨d, hd, h2⟩ := he
  have hlt := Nat.digits_lt_base (by norm_num : 1 < 10) hd
  interval_cases d <;> simp [Nat.digitChar] at h2

theorem digits_len110 {x : ℕ} (h1 : 1 ≤ x) (h2 : x ≤ 110) :
    (x < 10 ∧ (Nat.digits 10 x).length = 1) ∨ (10 ≤ x ∧ x < 100 ∧ (Nat.digits 10 x).length = 2) ∨
      (100 ≤ x ∧ (Nat.digits 10 x).length = 3) := by
  interval_cases x <;> simp

theorem decimal_pair {a b c d : ℕ} (ha : 1 ≤ a) (hab : a ≤ b) (hb : b ≤ 110) (hc : 1 ≤ c) (hcd : c ≤ d) (hd : d ≤ 110)
    (h : decimal a ++ decimal b = decimal c ++ decimal d) : a = c ∧ b = d := by
  have h1 : Nat.digits 10 b ++ Nat.digits 10 a = Nat.digits 10 d ++ Nat.digits 10 c := by
    unfold decimal at h
    rw [← List.reverse_append, ← List.reverse_append, ← List.map_append, ← List.map_append] at h
    have h1 := congrArg (List.map (fun ch : Char => ch.toNat - 48)) (List.reverse_injective h)
    rwa [List.map_append, List.map_append, List.map_append, List.map_append, digits_back, digits_back, digits_back,
      digits_back] at h1
  have h2 := congrArg List.length h1
  have h3 := congrArg (Nat.ofDigits 10) h1
  rw [List.length_append, List.length_append] at h2
  rw [Nat.ofDigits_append, Nat.ofDigits_append, Nat.ofDigits_digits, Nat.ofDigits_digits, Nat.ofDigits_digits,
    Nat.ofDigits_digits] at h3
  rcases digits_len110 ha (le_trans hab hb) with ⟨qa, la⟩ | ⟨qa, qa', la⟩ | ⟨qa, la⟩ <;>
  rcases digits_len110 (le_trans ha hab) hb with ⟨qb, lb⟩ | ⟨qb, qb', lb⟩ | ⟨qb, lb⟩ <;>
  rcases digits_len110 hc (le_trans hcd hd) with ⟨qc, lc⟩ | ⟨qc, qc', lc⟩ | ⟨qc, lc⟩ <;>
  rcases digits_len110 (le_trans hc hcd) hd with ⟨qd, ld⟩ | ⟨qd, qd', ld⟩ | ⟨qd, ld⟩ <;>
  (rw [la, lb, lc, ld] at h2; rw [lb, ld] at h3; norm_num at h3; omega)

/-- C118, names: in circuits of at most 110 modes different symbols are printed differently. -/
theorem C118_names (s s' : Sym) (hs : s.small) (hs' : s'.small) (h : s.name = s'.name) : s = s' := by
  cases s <;> cases s' <;> simp [Sym.name] at h <;> first
    | (have := decimal_inj h; simp at this; rw [this])
    | (exact absurd h (decimal_head _ _))
    | (exact absurd h.symm (decimal_head _ _))
    | (obtain ⟨h1, h2⟩ := decimal_pair (by omega) (by simpa using hs.1) (by have := hs.2; omega) (by omega) (by simpa using hs'.1) (by have := hs'.2; omega) h
       simp at h1 h2
       rw [h1, h2])

/-- from 111 modes on this fails: the charging energies of modes 1, 111 and of mode 11 are both printed `EC_1111` -/
theorem C118_names_limit : (Sym.EC 0 110).name = (Sym.EC 10 10).name := by
  simp [Sym.name, decimal]

end SQ
