import Verif.Spec.System
import Verif.Lemmas.Traverse
import Verif.Lemmas.Ops

/-! # Lemmas for systems -/

namespace SQ
open Matrix Spec

/-! ### circuit list -/

theorem getAllCircuits_eq (cps : List Couple) : getAllCircuits cps = firstUses (mentions cps) := by
  have step : ∀ (l : List CircId) (c : CircId),
      (if (firstUses l).contains c then firstUses l else firstUses l ++ [c]) = firstUses (l ++ [c]) := by
    intro l c
    rw [firstUses_snoc]
    simp only [List.contains_iff_mem, mem_firstUses]
  have key : ∀ (cps : List Couple) (l : List CircId),
      cps.foldl (fun acc cp =>
        [cp.cr1, cp.cr2].foldl (fun acc c => if acc.contains c then acc else acc ++ [c]) acc) (firstUses l)
        = firstUses (l ++ mentions cps) := by
    intro cps
    induction cps with
    | nil => intro l; simp [mentions]
    | cons cp cps ih =>
      intro l
      rw [List.foldl_cons]
      simp only [List.foldl_cons, List.foldl_nil] at ih ⊢
      rw [step, step, ih]
      congr 1
      simp [mentions]
  have := key cps []
  simpa [firstUses, getAllCircuits] using this

theorem idxOf_firstUses {α : Type*} [DecidableEq α] (l : List α) :
    ∀ x ∈ l, ∀ y ∈ l, ((firstUses l).idxOf x < (firstUses l).idxOf y ↔ l.idxOf x < l.idxOf y) := by
  induction l using List.reverseRecOn with
  | nil => simp
  | append_singleton l z ih =>
    intro x hx y hy
    rw [firstUses_snoc]
    by_cases hz : z ∈ l
    · rw [if_pos hz]
      have hx' : x ∈ l := by simpa [or_iff_left_of_imp (fun h : x = z => h ▸ hz)] using hx
      have hy' : y ∈ l := by simpa [or_iff_left_of_imp (fun h : y = z => h ▸ hz)] using hy
      rw [List.idxOf_append_of_mem hx', List.idxOf_append_of_mem hy']
      exact ih x hx' y hy'
    · rw [if_neg hz]
      have hzf : z ∉ firstUses l := fun h => hz ((mem_firstUses _ _).1 h)
      by_cases hx' : x ∈ l <;> by_cases hy' : y ∈ l
      · rw [List.idxOf_append_of_mem hx', List.idxOf_append_of_mem hy',
          List.idxOf_append_of_mem ((mem_firstUses _ _).2 hx'),
          List.idxOf_append_of_mem ((mem_firstUses _ _).2 hy')]
        exact ih x hx' y hy'
      · have : y = z := by simpa [hy'] using hy
        subst this
        rw [List.idxOf_append_of_mem hx', List.idxOf_append_of_notMem hy',
          List.idxOf_append_of_mem ((mem_firstUses _ _).2 hx'), List.idxOf_append_of_notMem hzf]
        have h1 := List.idxOf_lt_length_of_mem hx'
        have h2 := List.idxOf_lt_length_of_mem ((mem_firstUses l x).2 hx')
        constructor <;> intro <;> omega
      · have : x = z := by simpa [hx'] using hx
        subst this
        rw [List.idxOf_append_of_mem hy', List.idxOf_append_of_notMem hx',
          List.idxOf_append_of_mem ((mem_firstUses _ _).2 hy'), List.idxOf_append_of_notMem hzf]
        have h1 := List.idxOf_lt_length_of_mem hy'
        have h2 := List.idxOf_lt_length_of_mem ((mem_firstUses l y).2 hy')
        constructor <;> intro <;> omega
      · have hxz : x = z := by simpa [hx'] using hx
        have hyz : y = z := by simpa [hy'] using hy
        subst hxz; subst hyz
        simp

/-! ### numbering -/

theorem subSysLoop_spec (sz : CircId → ℕ) (all : List CircId) (c : CircId) (i : ℤ) :
    ∀ (cs : List CircId) (N : ℕ), c ∈ cs → 1 ≤ i → i ≤ sz c →
      subSysLoop sz all ((N : ℤ) + nodesBefore sz c cs + i - 1) cs N = (i, all.idxOf c) := by
  intro cs
  induction cs with
  | nil => intro N h; simp at h
  | cons a cs ih =>
    intro N hc h1 h2
    by_cases ha : a = c
    · subst ha
      simp only [subSysLoop, nodesBefore, if_true]
      rw [if_pos (by push_cast; omega)]
      congr 1
      push_cast
      ring
    · have hc' : c ∈ cs := by
        rcases List.mem_cons.1 hc with h | h
        · exact absurd h.symm ha
        · exact h
      simp only [subSysLoop, nodesBefore, if_neg ha]
      rw [if_neg (by push_cast; omega)]
      have := ih (N + sz a) hc' h1 h2
      rw [← this]
      congr 1
      push_cast
      ring

theorem nodesBefore_le (sz : CircId → ℕ) (c : CircId) (cs : List CircId) (h : c ∈ cs) :
    nodesBefore sz c cs + sz c ≤ (cs.map sz).sum := by
  induction cs with
  | nil => simp at h
  | cons a cs ih =>
    by_cases ha : a = c
    · subst ha; simp [nodesBefore]
    · have hc' : c ∈ cs := by
        rcases List.mem_cons.1 h with h | h
        · exact absurd h.symm ha
        · exact h
      have := ih hc'
      simp only [nodesBefore, if_neg ha, List.map_cons, List.sum_cons]
      omega

theorem subSysLoop_inv (sz : CircId → ℕ) (all : List CircId) (i : ℤ) :
    ∀ (cs : List CircId) (N : ℕ), cs.Nodup → (N : ℤ) ≤ i → i < (N : ℤ) + ((cs.map sz).sum : ℕ) →
      ∃ c ∈ cs, (subSysLoop sz all i cs N).2 = all.idxOf c ∧ 1 ≤ (subSysLoop sz all i cs N).1 ∧
        (subSysLoop sz all i cs N).1 ≤ sz c ∧
        (N : ℤ) + nodesBefore sz c cs + (subSysLoop sz all i cs N).1 - 1 = i := by
  intro cs
  induction cs with
  | nil => intro N _ h1 h2; simp at h2; omega
  | cons a cs ih =>
    intro N hnd h1 h2
    simp only [List.map_cons, List.sum_cons] at h2
    by_cases hi : i < (N : ℤ) + sz a
    · refine ⟨a, by simp, ?_, ?_, ?_, ?_⟩ <;> simp only [subSysLoop, if_pos hi]
      · omega
      · omega
      · simp only [nodesBefore, if_true]; push_cast; ring
    · obtain ⟨c, hc, e1, e2, e3, e4⟩ := ih (N + sz a) (List.nodup_cons.1 hnd).2 (by push_cast; omega)
        (by push_cast at h2 ⊢; omega)
      have hac : a ≠ c := fun h => (List.nodup_cons.1 hnd).1 (h ▸ hc)
      refine ⟨c, by simp [hc], ?_, ?_, ?_, ?_⟩ <;> simp only [subSysLoop, if_neg hi, nodesBefore, if_neg hac]
      · exact e1
      · exact e2
      · exact e3
      · push_cast at e4 ⊢; linarith

/-! ### capacitance matrix -/

theorem form_incAt {N : ℕ} (M : ℕ → ℕ → ℝ) (u : ℕ → ℝ) {i j : ℕ} (hi : i < N) (hj : j < N) (x : ℝ) :
    form N (incAt M i j x) u = form N M u + u i * x * u j := by
  have h : ∀ p q, u p * incAt M i j x p q * u q
      = u p * M p q * u q + (if p = i then (if q = j then u i * x * u j else 0) else 0) := by
    intro p q
    unfold incAt
    by_cases hp : p = i <;> by_cases hq : q = j <;> simp [hp, hq]
    ring
  unfold form
  simp only [h, Finset.sum_add_distrib]
  congr 1
  simp [hi, hj]

theorem form_blockDiag (sub : CircId → SubCirc) (v : CircId → ℕ → ℝ) (cs : List CircId) :
    form (sysNodes sub cs) (bareCap sub cs) (stack sub v cs) = (cs.map (selfForm sub v)).sum := by
  induction cs with
  | nil => simp [form, sysNodes]
  | cons c cs ih =>
    have hN : sysNodes sub (c :: cs) = (sub c).nodes + sysNodes sub cs := by simp [sysNodes]
    have e1 : ∀ p, p < (sub c).nodes → stack sub v (c :: cs) p = v c (p + 1) := by
      intro p hp; simp [stack, hp]
    have e2 : ∀ p, stack sub v (c :: cs) ((sub c).nodes + p) = stack sub v cs p := by
      intro p; simp [stack]
    have b1 : ∀ p q, p < (sub c).nodes → q < (sub c).nodes → bareCap sub (c :: cs) p q = (sub c).C p q := by
      intro p q hp hq; simp [bareCap, blockDiag, hp, hq]
    have b2 : ∀ p q, p < (sub c).nodes → bareCap sub (c :: cs) p ((sub c).nodes + q) = 0 := by
      intro p q hp; simp [bareCap, blockDiag, hp]
    have b3 : ∀ p q, q < (sub c).nodes → bareCap sub (c :: cs) ((sub c).nodes + p) q = 0 := by
      intro p q hp; simp [bareCap, blockDiag, hp]
    have b4 : ∀ p q, bareCap sub (c :: cs) ((sub c).nodes + p) ((sub c).nodes + q) = bareCap sub cs p q := by
      intro p q; simp [bareCap, blockDiag]
    unfold form at ih ⊢
    rw [hN, Finset.sum_range_add, List.map_cons, List.sum_cons, ← ih]
    congr 1
    · unfold selfForm form
      refine Finset.sum_congr rfl (fun p hp => ?_)
      rw [Finset.mem_range] at hp
      rw [Finset.sum_range_add]
      have : ∑ q ∈ Finset.range (sysNodes sub cs), stack sub v (c :: cs) p *
          bareCap sub (c :: cs) p ((sub c).nodes + q) * stack sub v (c :: cs) ((sub c).nodes + q) = 0 := by
        refine Finset.sum_eq_zero (fun q _ => ?_)
        rw [b2 p q hp]; ring
      rw [this, add_zero]
      refine Finset.sum_congr rfl (fun q hq => ?_)
      rw [Finset.mem_range] at hq
      rw [e1 p hp, e1 q hq, b1 p q hp hq]
    · refine Finset.sum_congr rfl (fun p _ => ?_)
      rw [Finset.sum_range_add]
      have : ∑ q ∈ Finset.range (sub c).nodes, stack sub v (c :: cs) ((sub c).nodes + p) *
          bareCap sub (c :: cs) ((sub c).nodes + p) q * stack sub v (c :: cs) q = 0 := by
        refine Finset.sum_eq_zero (fun q hq => ?_)
        rw [Finset.mem_range] at hq
        rw [b3 p q hq]; ring
      rw [this, zero_add]
      refine Finset.sum_congr rfl (fun q _ => ?_)
      rw [e2, e2, b4]

theorem stack_at (sub : CircId → SubCirc) (v : CircId → ℕ → ℝ) (c : CircId) (i : ℕ) (hi : i < (sub c).nodes)
    (cs : List CircId) (hc : c ∈ cs) :
    stack sub v cs (nodesBefore (fun c => (sub c).nodes) c cs + i) = v c (i + 1) := by
  induction cs with
  | nil => simp at hc
  | cons a cs ih =>
    by_cases ha : a = c
    · subst ha; simp [nodesBefore, stack, hi]
    · have hc' : c ∈ cs := by
        rcases List.mem_cons.1 hc with h | h
        · exact absurd h.symm ha
        · exact h
      have := ih hc'
      simp only [nodesBefore, if_neg ha, stack]
      rw [if_neg (by omega)]
      rw [← this]
      congr 1
      omega

theorem nodesBefore_congr {f g : CircId → ℕ} (c : CircId) (cs : List CircId) (h : ∀ a ∈ cs, f a = g a) :
    nodesBefore f c cs = nodesBefore g c cs := by
  induction cs with
  | nil => rfl
  | cons a cs ih =>
    simp only [nodesBefore, h a (by simp), ih (fun b hb => h b (by simp [hb]))]

/-- global index of a valid node -/
theorem node_index (sub : CircId → SubCirc) (cs : List CircId) (hn : ∀ c ∈ cs, (sub c).n = (sub c).nodes)
    {c : CircId} (hc : c ∈ cs) {i : ℤ} (h1 : 1 ≤ i) (h2 : i ≤ (sub c).nodes) :
    ∃ g : Fin (sysNodes sub cs), pyIdx (sysNodes sub cs) (nodeIdxInSys (fun c => (sub c).n) cs c i) = .ok g ∧
      (g : ℕ) = nodesBefore (fun c => (sub c).nodes) c cs + (i - 1).toNat ∧
      ∀ v, stack sub v cs g = v c i.toNat := by
  have hb := nodesBefore_le (fun c => (sub c).nodes) c cs hc
  have hN : ((cs.map (fun c => (sub c).nodes)).sum) = sysNodes sub cs := rfl
  rw [hN] at hb
  have hidx : nodeIdxInSys (fun c => (sub c).n) cs c i
      = ((nodesBefore (fun c => (sub c).nodes) c cs + (i - 1).toNat : ℕ) : ℤ) := by
    unfold nodeIdxInSys
    rw [nodesBefore_congr c cs hn]
    push_cast
    rw [Int.toNat_of_nonneg (by omega)]
    ring
  have hlt : nodesBefore (fun c => (sub c).nodes) c cs + (i - 1).toNat < sysNodes sub cs := by
    have : (i - 1).toNat < (sub c).nodes := by omega
    omega
  refine ⟨⟨_, hlt⟩, ?_, rfl, ?_⟩
  · rw [hidx]
    unfold pyIdx
    rw [dif_pos ⟨by omega, by exact_mod_cast hlt⟩]
    congr 1
  · intro v
    rw [stack_at sub v c _ (by omega) cs hc]
    congr 1
    omega

theorem addCouples_form (sub : CircId → SubCirc) (cs : List CircId)
    (hn : ∀ c ∈ cs, (sub c).n = (sub c).nodes) :
    ∀ (cps : List Couple), (∀ cp ∈ cps, cp.cr1 ∈ cs ∧ cp.cr2 ∈ cs ∧ ValidCouple sub cp) →
      ∀ M, ∃ M', addCouples sub cs cps M = .ok M' ∧
        ∀ v, form (sysNodes sub cs) M' (stack sub v cs)
          = form (sysNodes sub cs) M (stack sub v cs) + (cps.map (coupleForm v)).sum := by
  intro cps
  induction cps with
  | nil => intro _ M; exact ⟨M, rfl, by simp⟩
  | cons cp cps ih =>
    intro h M
    obtain ⟨hc1, hc2, hv1, hv2⟩ := h cp (by simp)
    obtain ⟨i, hi, -, hsi⟩ := node_index sub cs hn hc1 hv1.1 hv1.2
    obtain ⟨j, hj, -, hsj⟩ := node_index sub cs hn hc2 hv2.1 hv2.2
    have hstep : ∃ M1, addCouple sub cs M cp = .ok M1 ∧
        ∀ v, form (sysNodes sub cs) M1 (stack sub v cs)
          = form (sysNodes sub cs) M (stack sub v cs) + coupleForm v cp := by
      unfold addCouple coupleForm
      cases hcap : cp.cap with
      | none => exact ⟨M, rfl, by simp⟩
      | some c =>
        simp only [hi, hj]
        refine ⟨_, rfl, fun v => ?_⟩
        rw [form_incAt _ _ j.2 i.2, form_incAt _ _ i.2 j.2, form_incAt _ _ j.2 j.2,
          form_incAt _ _ i.2 i.2, hsi, hsj]
        ring
    obtain ⟨M1, hM1, hf1⟩ := hstep
    obtain ⟨M', hM', hf'⟩ := ih (fun cp' hcp' => h cp' (by simp [hcp'])) M1
    refine ⟨M', ?_, fun v => ?_⟩
    · simp only [addCouples, hM1, hM']
    · rw [hf', hf1, List.map_cons, List.sum_cons]; ring

theorem addCouple_symm {sub : CircId → SubCirc} {cs : List CircId} {M M' : ℕ → ℕ → ℝ} {cp : Couple}
    (hM : ∀ p q, M p q = M q p) (h : addCouple sub cs M cp = .ok M') : ∀ p q, M' p q = M' q p := by
  unfold addCouple at h
  split at h
  · cases h; exact hM
  · split at h
    · exact absurd h (by simp)
    · split at h
      · exact absurd h (by simp)
      · cases h
        intro p q
        unfold incAt
        rename_i i _ _ j _
        have := hM p q
        by_cases h1 : p = (i : ℕ) <;> by_cases h2 : q = (i : ℕ) <;> by_cases h3 : p = (j : ℕ) <;>
          by_cases h4 : q = (j : ℕ) <;> simp_all

theorem addCouples_symm {sub : CircId → SubCirc} {cs : List CircId} :
    ∀ {cps : List Couple} {M M' : ℕ → ℕ → ℝ}, (∀ p q, M p q = M q p) →
      addCouples sub cs cps M = .ok M' → ∀ p q, M' p q = M' q p := by
  intro cps
  induction cps with
  | nil => intro M M' hM h; cases h; exact hM
  | cons cp cps ih =>
    intro M M' hM h
    unfold addCouples at h
    split at h
    · exact absurd h (by simp)
    · rename_i hM1
      exact ih (addCouple_symm hM hM1) h

theorem bareCap_symm {sub : CircId → SubCirc} {cs : List CircId}
    (hC : ∀ c ∈ cs, ∀ p q, (sub c).C p q = (sub c).C q p) : ∀ p q, bareCap sub cs p q = bareCap sub cs q p := by
  induction cs with
  | nil => intro p q; rfl
  | cons c cs ih =>
    intro p q
    have := ih (fun c' hc' => hC c' (by simp [hc']))
    unfold bareCap at this ⊢
    simp only [List.map_cons, blockDiag]
    by_cases hp : p < (sub c).nodes <;> by_cases hq : q < (sub c).nodes <;> simp [hp, hq]
    · exact hC c (by simp) p q
    · exact this _ _

theorem addCouples_none {sub : CircId → SubCirc} {cs : List CircId} :
    ∀ {cps : List Couple}, (∀ cp ∈ cps, cp.cap = none) → ∀ M, addCouples sub cs cps M = .ok M := by
  intro cps
  induction cps with
  | nil => intro _ M; rfl
  | cons cp cps ih =>
    intro h M
    have : addCouple sub cs M cp = .ok M := by simp [addCouple, h cp (by simp)]
    simp only [addCouples, this]
    exact ih (fun cp' hcp' => h cp' (by simp [hcp'])) M

/-! ### operators -/

variable {k : ℕ} {d : Fin k → ℕ}

theorem opInSys_single (s : Fin k) (A : Matrix (Fin (d s)) (Fin (d s)) ℂ) : opInSys s A = single d s A := by
  unfold opInSys single
  congr 1

theorem opTimes_eq (s : Fin k) (A : Matrix (Fin (d s)) (Fin (d s)) ℂ) (t : Fin k)
    (B : Matrix (Fin (d t)) (Fin (d t)) ℂ) :
    opTimesOpInSys s A t B = opInSys s A * opInSys t B := by
  unfold opTimesOpInSys
  by_cases h : s = t
  · subst h
    simp only [dif_pos, opInSys_single, single_mul_self]
  · rw [dif_neg h, opInSys_single, opInSys_single, single_mul h, Function.update_comm h]
    congr 1

/-! ### modes of a system -/

theorem nodesBefore_get (sz : CircId → ℕ) (cs : List CircId) (hnd : cs.Nodup) (s : Fin cs.length) :
    nodesBefore sz (cs.get s) cs = ((cs.take s).map sz).sum := by
  induction cs with
  | nil => exact s.elim0
  | cons a cs ih =>
    obtain ⟨s, hs⟩ := s
    cases s with
    | zero => simp [nodesBefore]
    | succ s =>
      have hs' : s < cs.length := by simpa using hs
      have ha : a ≠ cs.get ⟨s, hs'⟩ := fun h => (List.nodup_cons.1 hnd).1 (h ▸ List.get_mem _ _)
      have := ih (List.nodup_cons.1 hnd).2 ⟨s, hs'⟩
      simp only [List.get_eq_getElem, List.getElem_cons_succ, nodesBefore] at this ha ⊢
      rw [if_neg ha, this]
      simp

theorem modeIdx_sub (sub : CircId → SubCirc) (cs : List CircId) (hnd : cs.Nodup) (x : ModeIx sub cs) :
    nodeIdxInSubSys (fun c => (sub c).n) cs (modeIdx sub cs x) = ((x.2 : ℤ) + 1, (x.1 : ℕ)) := by
  have h := subSysLoop_spec (fun c => (sub c).n) cs (cs.get x.1) ((x.2 : ℤ) + 1) cs 0
    (List.get_mem _ _) (by omega) (by have := x.2.2; omega)
  rw [nodesBefore_get _ cs hnd] at h
  unfold nodeIdxInSubSys
  rw [show ((modeIdx sub cs x : ℕ) : ℤ) = ((0 : ℕ) : ℤ)
      + (((cs.take x.1).map (fun c => (sub c).n)).sum : ℕ) + ((x.2 : ℤ) + 1) - 1 by
    unfold modeIdx; push_cast; ring, h]
  congr 1
  exact hnd.idxOf_getElem _ _

theorem modeIdx_lt (sub : CircId → SubCirc) (cs : List CircId) (hnd : cs.Nodup) (x : ModeIx sub cs) :
    modeIdx sub cs x < sysModes sub cs := by
  have := nodesBefore_le (fun c => (sub c).n) (cs.get x.1) cs (List.get_mem _ _)
  rw [nodesBefore_get _ cs hnd] at this
  have h2 := x.2.2
  unfold modeIdx sysModes
  omega

theorem modeIdx_inj (sub : CircId → SubCirc) (cs : List CircId) (hnd : cs.Nodup) :
    Function.Injective (modeIdx sub cs) := by
  intro x y h
  have hx := modeIdx_sub sub cs hnd x
  rw [h, modeIdx_sub sub cs hnd y] at hx
  obtain ⟨h1, h2⟩ := Prod.mk.inj hx
  obtain ⟨s, i⟩ := x
  obtain ⟨t, j⟩ := y
  simp only at h1 h2
  have hst : s = t := Fin.ext h2.symm
  subst hst
  congr 1
  exact Fin.ext (by omega)

theorem modeIdx_surj (sub : CircId → SubCirc) (cs : List CircId) (hnd : cs.Nodup) {g : ℕ}
    (hg : g < sysModes sub cs) : ∃ x : ModeIx sub cs, modeIdx sub cs x = g := by
  obtain ⟨c, hc, -, h2, h3, h4⟩ := subSysLoop_inv (fun c => (sub c).n) cs (g : ℤ) cs 0 hnd (by omega)
    (by rw [Nat.cast_zero, zero_add]; exact Nat.cast_lt.2 hg)
  obtain ⟨s, hs⟩ := List.get_of_mem hc
  subst hs
  refine ⟨⟨s, ⟨((subSysLoop (fun c => (sub c).n) cs (g : ℤ) cs 0).1 - 1).toNat, by omega⟩⟩, ?_⟩
  rw [nodesBefore_get _ cs hnd] at h4
  unfold modeIdx
  simp only
  omega

theorem sum_modes {β : Type*} [AddCommMonoid β] (sub : CircId → SubCirc) (cs : List CircId) (hnd : cs.Nodup)
    (f : ℕ → β) : ∑ g ∈ Finset.range (sysModes sub cs), f g = ∑ x : ModeIx sub cs, f (modeIdx sub cs x) := by
  symm
  refine Finset.sum_bij (fun x _ => modeIdx sub cs x) ?_ ?_ ?_ ?_
  · intro x _; exact Finset.mem_range.2 (modeIdx_lt sub cs hnd x)
  · intro x _ y _ h; exact modeIdx_inj sub cs hnd h
  · intro g hg
    obtain ⟨x, hx⟩ := modeIdx_surj sub cs hnd (Finset.mem_range.1 hg)
    exact ⟨x, Finset.mem_univ _, hx⟩
  · intro x _; rfl

theorem sysQQ_eq (sub : CircId → SubCirc) (cs : List CircId) (hnd : cs.Nodup) (x y : ModeIx sub cs) :
    sysQQ sub cs (modeIdx sub cs x) (modeIdx sub cs y) = modeCharge sub cs x * modeCharge sub cs y := by
  unfold sysQQ
  rw [modeIdx_sub sub cs hnd, modeIdx_sub sub cs hnd]
  unfold chargeProduct
  rw [dif_pos ⟨x.1.2, y.1.2⟩, opTimes_eq]
  have h : ∀ z : ModeIx sub cs, subCharge sub cs z.1 ((z.2 : ℤ) + 1) = (sub (cs.get z.1)).Q z.2 := by
    intro z
    have h0 : ((z.2 : ℤ) + 1 - 1).toNat = (z.2 : ℕ) := by omega
    show (sub (cs.get z.1)).Q ((z.2 : ℤ) + 1 - 1).toNat = _
    rw [h0]
  have hx := h x
  have hy := h y
  unfold modeCharge
  rw [← hx, ← hy]

theorem upper_sum {ι β : Type*} [LinearOrder ι] [AddCommGroup β] [Module ℂ β] (I : Finset ι) (h : ι → ι → β)
    (hs : ∀ i ∈ I, ∀ j ∈ I, h i j = h j i) :
    ∑ i ∈ I, ∑ j ∈ I, (if i = j then (1 / 2 : ℂ) • h i j else if i < j then h i j else 0)
      = (1 / 2 : ℂ) • ∑ i ∈ I, ∑ j ∈ I, h i j := by
  set S := ∑ i ∈ I, ∑ j ∈ I, (if i = j then (1 / 2 : ℂ) • h i j else if i < j then h i j else 0) with hS
  have h1 : S + S = ∑ i ∈ I, ∑ j ∈ I, h i j := by
    conv_lhs => arg 2; rw [hS, Finset.sum_comm]
    rw [hS, ← Finset.sum_add_distrib]
    refine Finset.sum_congr rfl (fun i hi => ?_)
    rw [← Finset.sum_add_distrib]
    refine Finset.sum_congr rfl (fun j hj => ?_)
    rcases lt_trichotomy i j with hij | hij | hij
    · rw [if_neg hij.ne, if_pos hij, if_neg hij.ne', if_neg (not_lt.2 hij.le), add_zero]
    · subst hij
      rw [if_pos rfl, ← add_smul]; norm_num
    · rw [if_neg hij.ne', if_neg (not_lt.2 hij.le), if_neg hij.ne, if_pos hij, zero_add, hs j hj i hi]
  rw [← h1, ← two_smul ℂ S, smul_smul]
  norm_num

theorem transCoef_symm {N : ℕ} (R : ℕ → ℕ → ℝ) {D : Matrix (Fin N) (Fin N) ℝ} (hD : Dᵀ = D) (a b : ℕ) :
    transCoef R D a b = transCoef R D b a := by
  unfold transCoef
  rw [Finset.sum_comm]
  refine Finset.sum_congr rfl (fun q _ => Finset.sum_congr rfl (fun p _ => ?_))
  have : D p q = D q p := by rw [← hD, Matrix.transpose_apply, hD]
  rw [this]; ring

theorem npInv_symm {N : ℕ} {M X : Matrix (Fin N) (Fin N) ℝ} (hM : Mᵀ = M) (h : npInv M = .ok X) : Xᵀ = X := by
  unfold npInv at h
  split at h
  · exact absurd h (by simp)
  · cases h
    rw [Matrix.transpose_nonsing_inv, hM]

end SQ
