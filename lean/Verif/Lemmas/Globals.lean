import Verif.Spec.Globals

namespace SQ
open SQ.Spec Real

theorem Table.get_cons (k : String) (v : ℝ) (t : Table) (u : String) :
    Table.get ((k, v) :: t) u = if k = u then .ok v else Table.get t u := by
  unfold Table.get
  by_cases h : k = u
  · simp [h]
  · simp [h]

theorem Table.get_nil (u : String) : Table.get [] u = .error .keyError := rfl

theorem Table.has_cons (k : String) (v : ℝ) (t : Table) (u : String) :
    Table.has ((k, v) :: t) u = (decide (k = u) || Table.has t u) := by
  unfold Table.has
  by_cases h : k = u <;> simp [h]

theorem Table.has_nil (u : String) : Table.has [] u = false := rfl

theorem Table.has_iff (t : Table) (u : String) : t.has u = true ↔ ∃ x, t.get u = .ok x := by
  induction t with
  | nil => simp [Table.has_nil, Table.get_nil]
  | cons p t ih =>
    obtain ⟨k, v⟩ := p
    rw [Table.has_cons, Table.get_cons]
    by_cases h : k = u <;> simp [h, ih]

theorem Table.get_error (t : Table) (u : String) (h : t.has u = false) :
    t.get u = .error .keyError := by
  induction t with
  | nil => rfl
  | cons p t ih =>
    obtain ⟨k, v⟩ := p
    rw [Table.has_cons] at h
    rw [Table.get_cons]
    by_cases hk : k = u
    · simp [hk] at h
    · rw [if_neg hk]; exact ih (by simpa [hk] using h)

theorem freq_get_iff (u : String) (x : ℝ) : freqList.get u = .ok x ↔ FreqUnit u x := by
  constructor
  · intro h
    simp only [freqList, Table.get_cons, Table.get_nil] at h
    split_ifs at h with h1 h2 h3 h4 h5 <;> simp only [Except.ok.injEq] at h <;>
      subst h <;> subst u <;> first
      | exact FreqUnit.Hz
      | (convert FreqUnit.kHz using 1; norm_num; done)
      | (convert FreqUnit.MHz using 1; norm_num; done)
      | (convert FreqUnit.GHz using 1; norm_num; done)
      | (convert FreqUnit.THz using 1; norm_num; done)
  · intro h
    cases h <;> simp [freqList, Table.get_cons] <;> norm_num

theorem farad_get_iff (u : String) (x : ℝ) : faradList.get u = .ok x ↔ FaradUnit u x := by
  constructor
  · intro h
    simp only [faradList, Table.get_cons, Table.get_nil] at h
    split_ifs at h <;> simp only [Except.ok.injEq] at h <;>
      subst h <;> subst u <;> first
      | exact FaradUnit.F
      | (convert FaradUnit.mF using 1; norm_num; done)
      | (convert FaradUnit.uF using 1; norm_num; done)
      | (convert FaradUnit.nF using 1; norm_num; done)
      | (convert FaradUnit.pF using 1; norm_num; done)
      | (convert FaradUnit.fF using 1; norm_num; done)
  · intro h
    cases h <;> simp [faradList, Table.get_cons] <;> norm_num

theorem henry_get_iff (u : String) (x : ℝ) : henryList.get u = .ok x ↔ HenryUnit u x := by
  constructor
  · intro h
    simp only [henryList, Table.get_cons, Table.get_nil] at h
    split_ifs at h <;> simp only [Except.ok.injEq] at h <;>
      subst h <;> subst u <;> first
      | exact HenryUnit.H
      | (convert HenryUnit.mH using 1; norm_num; done)
      | (convert HenryUnit.uH using 1; norm_num; done)
      | (convert HenryUnit.nH using 1; norm_num; done)
      | (convert HenryUnit.pH using 1; norm_num; done)
      | (convert HenryUnit.fH using 1; norm_num; done)
  · intro h
    cases h <;> simp [henryList, Table.get_cons] <;> norm_num

theorem time_get_iff (u : String) (x : ℝ) : timeList.get u = .ok x ↔ TimeUnit u x := by
  constructor
  · intro h
    simp only [timeList, Table.get_cons, Table.get_nil] at h
    split_ifs at h <;> simp only [Except.ok.injEq] at h <;>
      subst h <;> subst u <;> first
      | exact TimeUnit.s
      | (convert TimeUnit.ms using 1; norm_num; done)
      | (convert TimeUnit.us using 1; norm_num; done)
      | (convert TimeUnit.ns using 1; norm_num; done)
      | (convert TimeUnit.ps using 1; norm_num; done)
      | (convert TimeUnit.fs using 1; norm_num; done)
  · intro h
    cases h <;> simp [timeList, Table.get_cons] <;> norm_num

theorem freq_has_iff (u : String) : freqList.has u = true ↔ ∃ x, FreqUnit u x := by
  simp [Table.has_iff, freq_get_iff]
theorem farad_has_iff (u : String) : faradList.has u = true ↔ ∃ x, FaradUnit u x := by
  simp [Table.has_iff, farad_get_iff]
theorem henry_has_iff (u : String) : henryList.has u = true ↔ ∃ x, HenryUnit u x := by
  simp [Table.has_iff, henry_get_iff]
theorem time_has_iff (u : String) : timeList.has u = true ↔ ∃ x, TimeUnit u x := by
  simp [Table.has_iff, time_get_iff]

theorem runCalls_append (g : Globals) (h : List GCall) (c : GCall) :
    runCalls g (h ++ [c]) = (c.exec (runCalls g h)).2 := by
  simp [runCalls, List.foldl_append]

/-- a register that follows its write relation step by step obeys `LastWrite` on histories -/
theorem lastWrite_of_step {β : Type*} (f : Globals → β) (P : GCall → β → Prop)
    (hw : ∀ c g x, P c x → f (c.exec g).2 = x)
    (hs : ∀ c g, (∀ x, ¬ P c x) → f (c.exec g).2 = f g)
    (g : Globals) (h : List GCall) : LastWrite P (f g) h (f (runCalls g h)) := by
  induction h using List.reverseRecOn with
  | nil => exact LastWrite.none
  | append_singleton h c ih =>
    rw [runCalls_append]
    by_cases hc : ∃ x, P c x
    · obtain ⟨x, hx⟩ := hc
      rw [hw c _ x hx]
      exact LastWrite.write hx
    · have hc' : ∀ x, ¬ P c x := fun x hx => hc ⟨x, hx⟩
      rw [hs c _ hc']
      exact LastWrite.skip ih hc'

theorem engine_mem (s : String) :
    s ∈ supportedEnginesLower ↔ s = "numpy" ∨ s = "pytorch" := by
  have : supportedEnginesLower = ["numpy", "pytorch"] := by decide
  rw [this]; simp

end SQ
