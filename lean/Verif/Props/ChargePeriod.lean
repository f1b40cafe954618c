import Verif.Lemmas.ChargeShift
import Verif.Props.Truncation
import Verif.Spec.ChargePeriod

/-!
# C102: frequencies are periodic in the offset charges
-/

namespace SQ
open Matrix Complex SQ.Spec

section
variable {c : CircSpec} {eigs : EigsFn} {as : List ℂ → List ℕ}

theorem accepts_iff (w : World (circPhys c eigs as)) (a : List ℤ) : Accepts w a ↔
    a.length = w.circ.bd.M.keep.length ∧ (∀ i, i < w.circ.bd.M.keep.length → 1 ≤ a.getD i 0) ∧
    ∀ i, w.circ.bd.isCharge i = true → w.circ.ng i ≠ none := by
  have hdl := dimsOf_length (P := circPhys c eigs as) w.circ.bd a
  have hdl' : (dimsOf (circPhys c eigs as) w.circ.bd a).length = w.circ.bd.M.keep.length := hdl
  have hdims : ∀ i, i < w.circ.bd.M.keep.length →
      ((dimsOf (circPhys c eigs as) w.circ.bd a).getD i 0 < 1 ↔ a.getD i 0 < 1) := by
    intro i hi
    have hlen : i < (dimsOf (circPhys c eigs as) w.circ.bd a).length := by rw [hdl']; exact hi
    have e : (dimsOf (circPhys c eigs as) w.circ.bd a).getD i 0 =
        (dimsOf (circPhys c eigs as) w.circ.bd a)[i] := by simp [List.getD, hlen]
    rw [e]
    simp only [dimsOf, List.getElem_map, List.getElem_range]
    split
    · omega
    · rfl
  constructor
  · intro hA
    have hA' : (setTruncNums (.list a) w).1 = .ok () := hA
    rcases setTruncNums_cases (.list a) w with ⟨h1, -⟩ | ⟨nums, hn, hl, ⟨e, h1, -⟩ | ⟨mem, hmem, -, h2⟩⟩
    · rw [h1] at hA'; cases hA'
    · rw [h1] at hA'; cases hA'
    injection hn with hn
    subst hn
    have hmem' : w.circ.bd.memOps (dimsOf (circPhys c eigs as) w.circ.bd a) w.circ.ng = .ok mem := hmem
    unfold Build.memOps at hmem'
    split at hmem'
    · cases hmem'
    split at hmem'
    · cases hmem'
    split at hmem'
    · cases hmem'
    rename_i c2 c3
    refine ⟨hl, fun i hi => ?_, fun i hi hn => c3 ⟨i, hi, hn⟩⟩
    by_contra hlt
    exact c2 ⟨i, hi, (hdims i hi).2 (by omega)⟩
  · rintro ⟨h1, h2, h3⟩
    have hm : ∃ mem, (circPhys c eigs as).memOps w.circ.bd (dimsOf (circPhys c eigs as) w.circ.bd a) w.circ.ng =
        .ok mem := by
      change ∃ mem, Build.memOps w.circ.bd (dimsOf (circPhys c eigs as) w.circ.bd a) w.circ.ng = .ok mem
      unfold Build.memOps
      rw [if_neg, if_neg, if_neg]
      · exact ⟨_, rfl⟩
      · rintro ⟨i, h4, h5⟩; exact h3 i h4 h5
      · rintro ⟨i, h4, h5⟩
        have := (hdims i h4).1 h5
        have := h2 i h4
        omega
      · rw [hdl']; exact lt_irrefl _
    obtain ⟨mem, hmem⟩ := hm
    have h := setTruncNums_ok (w := w) (nums := a) h1 hmem
    unfold Accepts
    rw [h]

/-- the state after setting all offsets -/
theorem offsets_set {vals : ElemId → ℝ} {flux : LoopId → ℝ} {u : ℝ}
    {w0 : World (circPhys c eigs as)} (hw : construct (circPhys c eigs as) vals flux u = .ok w0)
    {h : List Act} (hh : Orderly w0 h) (hm : (run w0 h).circ.m ≠ []) (modes : List ℕ)
    (hmodes : ∀ i, (run w0 h).circ.bd.isCharge i = true → i ∈ modes) (g : ℕ → ℝ) :
    let w := run w0 (h ++ offsetCalls modes g)
    w.circ.bd = (run w0 h).circ.bd ∧ w.vals = (run w0 h).vals ∧ w.flux = (run w0 h).flux ∧
    w.unitFreq = (run w0 h).unitFreq ∧ Orderly w0 (h ++ offsetCalls modes g) ∧
    ∀ i, (run w0 h).circ.bd.isCharge i = true → w.circ.ng i = some (g i) := by
  obtain ⟨-, hops⟩ := coherent_run (P := circPhys c eigs as) (fun _ _ => True) h w0 vals
    (coherent_construct hw fun _ _ => trivial) hh (fun _ _ _ _ _ => trivial)
  obtain ⟨mem, hmem, -⟩ := hops.resolve_left hm
  have hmem' : (run w0 h).circ.bd.memOps (run w0 h).circ.m (run w0 h).circ.ng = .ok mem := hmem
  have hhas : ∀ i, (run w0 h).circ.bd.isCharge i = true → (run w0 h).circ.ng i ≠ none := by
    intro i hi hn
    unfold Build.memOps at hmem'
    split at hmem'
    · cases hmem'
    split at hmem'
    · cases hmem'
    split at hmem'
    · cases hmem'
    rename_i c3
    exact c3 ⟨i, hi, hn⟩
  obtain ⟨i1, i2, i3, i4, i5, i6, i7⟩ := offset_run g modes (run w0 h) hm ⟨mem, hmem'⟩
  rw [← run_append] at i1 i2 i3 i4 i5 i7
  exact ⟨i1, i3, i4, i5, orderly_append hh i6, fun i hi => i7 i (.inl (hmodes i hi)) (hhas i hi)⟩

theorem isCharge_iff_omega (bd : Build) (i : Fin bd.M.keep.length) : bd.isCharge i = true ↔ bd.M.omega i = 0 := by
  unfold Build.isCharge
  rw [dif_pos i.isLt]
  simp

theorem room_shifts {w : World (circPhys c eigs as)} {z : ℕ → ℤ} {a b : List ℤ}
    (hroom : Room w z a b) (hpa : ∀ i, i < w.circ.bd.M.keep.length → 1 ≤ a.getD i 0)
    {ng ng' : Fin w.circ.bd.M.keep.length → ℝ}
    (hng : ∀ i : Fin w.circ.bd.M.keep.length, w.circ.bd.isCharge i = true → ng' i = ng i + z i) :
    ∃ o, Shifts w.circ.bd.M.data (w.circ.bd.dims (dimsOf (circPhys c eigs as) w.circ.bd a))
      (w.circ.bd.dims (dimsOf (circPhys c eigs as) w.circ.bd b)) ng ng' o := by
  suffices h : ∀ i : Fin w.circ.bd.M.keep.length, ∃ o : ℕ,
      o + w.circ.bd.dims (dimsOf (circPhys c eigs as) w.circ.bd a) i ≤
        w.circ.bd.dims (dimsOf (circPhys c eigs as) w.circ.bd b) i ∧
      ((w.circ.bd.M.data.omega i = 0 ∧
        (o : ℝ) - ((w.circ.bd.dims (dimsOf (circPhys c eigs as) w.circ.bd b) i : ℝ) - 1) / 2 - ng' i =
          - (((w.circ.bd.dims (dimsOf (circPhys c eigs as) w.circ.bd a) i : ℝ) - 1) / 2) - ng i) ∨
      (w.circ.bd.M.data.omega i ≠ 0 ∧ w.circ.bd.dims (dimsOf (circPhys c eigs as) w.circ.bd b) i =
        w.circ.bd.dims (dimsOf (circPhys c eigs as) w.circ.bd a) i)) by
    choose o ho using h
    exact ⟨o, ho⟩
  intro i
  have hi : (i : ℕ) < (circPhys c eigs as).nModes w.circ.bd := i.isLt
  have hg : ∀ l : List ℤ, (dimsOf (circPhys c eigs as) w.circ.bd l).getD i 0 =
      if (circPhys c eigs as).isCharge w.circ.bd i = true then 2 * l.getD i 0 - 1 else l.getD i 0 := by
    intro l
    unfold dimsOf
    rw [List.getD_eq_getElem?_getD, List.getElem?_map, List.getElem?_range hi]
    rfl
  have hr := hroom i hi
  have ha' := hpa i i.isLt
  have hch : (circPhys c eigs as).isCharge w.circ.bd i = true ↔ w.circ.bd.M.data.omega i = 0 := by
    exact isCharge_iff_omega w.circ.bd i
  unfold Build.dims
  rw [hg, hg]
  by_cases hc : (circPhys c eigs as).isCharge w.circ.bd i = true
  · rw [if_pos hc] at hr
    rw [if_pos hc, if_pos hc]
    have h1 := neg_abs_le (z i)
    have h2 := le_abs_self (z i)
    have e1 : ((2 * a.getD i 0 - 1).toNat : ℤ) = 2 * a.getD i 0 - 1 := Int.toNat_of_nonneg (by omega)
    have e2 : ((2 * b.getD i 0 - 1).toNat : ℤ) = 2 * b.getD i 0 - 1 := Int.toNat_of_nonneg (by omega)
    have e3 : ((b.getD i 0 - a.getD i 0 + z i).toNat : ℤ) = b.getD i 0 - a.getD i 0 + z i :=
      Int.toNat_of_nonneg (by omega)
    refine ⟨(b.getD i 0 - a.getD i 0 + z i).toNat, by omega, .inl ⟨hch.1 hc, ?_⟩⟩
    have r1 : (((2 * a.getD i 0 - 1).toNat : ℕ) : ℝ) = 2 * (a.getD i 0 : ℝ) - 1 := by
      exact_mod_cast congrArg (fun x : ℤ => (x : ℝ)) e1
    have r2 : (((2 * b.getD i 0 - 1).toNat : ℕ) : ℝ) = 2 * (b.getD i 0 : ℝ) - 1 := by
      exact_mod_cast congrArg (fun x : ℤ => (x : ℝ)) e2
    have r3 : (((b.getD i 0 - a.getD i 0 + z i).toNat : ℕ) : ℝ) = (b.getD i 0 : ℝ) - a.getD i 0 + z i := by
      exact_mod_cast congrArg (fun x : ℤ => (x : ℝ)) e3
    rw [r1, r2, r3, hng i hc]
    ring
  · rw [if_neg hc] at hr
    have h0 : w.circ.bd.M.data.omega i ≠ 0 := fun h => hc (hch.2 h)
    rw [if_neg hc, if_neg hc]
    exact ⟨0, by rw [hr]; omega, .inr ⟨h0, by rw [hr]⟩⟩

theorem bracket_core (he : EigsLowest eigs) (ha : CArgsortSpec as) (hs : NoSelfLoops c.els)
    {vals : ElemId → ℝ} {flux : LoopId → ℝ} {u : ℝ}
    {w0 : World (circPhys c eigs as)} (hw : construct (circPhys c eigs as) vals flux u = .ok w0)
    {h h' : List Act} (hh : Orderly w0 h) (hh' : Orderly w0 h') (hu : 0 < (run w0 h).unitFreq)
    (hbd : (run w0 h').circ.bd = (run w0 h).circ.bd) (hva : (run w0 h').vals = (run w0 h).vals)
    (hfl : (run w0 h').flux = (run w0 h).flux) (huf : (run w0 h').unitFreq = (run w0 h).unitFreq) (z : ℕ → ℤ)
    (hng : ∀ i, (run w0 h).circ.bd.isCharge i = true →
      ((run w0 h').circ.ng i).getD 0 = ((run w0 h).circ.ng i).getD 0 + z i)
    {a b : List ℤ} (hA : Accepts (run w0 h) a) (hB : Accepts (run w0 h') b) (hab : Room (run w0 h) z a b)
    (num : ℕ) (h1 : 1 ≤ num) (hnum : num + 1 < spaceDim (run w0 h) a) :
    ∃ F F' v v', (diag (some num) (run w0 (h ++ [.setTruncNums (.list a)]))).1 = .ok (F, v) ∧
      (diag (some num) (run w0 (h' ++ [.setTruncNums (.list b)]))).1 = .ok (F', v') ∧
      F.length = num ∧ F'.length = num ∧ ∀ i, i < num → F'.getD i 0 ≤ F.getD i 0 := by
  obtain ⟨H, hH, hherm, hr, hm, hun, hbok, -⟩ := trunc_ham hs hw hh hA (dims_ne _ _ hnum)
  have hpa := ((accepts_iff _ _).1 hA).2.1
  obtain ⟨o, hsh⟩ := room_shifts hab hpa (ng := fun i => ((run w0 h).circ.ng i).getD 0)
    (ng' := fun i => ((run w0 h').circ.ng i).getD 0) fun i hi => hng i hi
  have hcard : spaceDim (run w0 h) a ≤ spaceDim (run w0 h) b := by
    rw [← card_dims, ← card_dims]
    exact Fintype.card_le_of_injective _ (shIdx_inj hsh)
  have hsd : spaceDim (run w0 h') b = spaceDim (run w0 h) b := by
    unfold spaceDim
    rw [hbd]
  have key : ∀ bd, bd = (run w0 h').circ.bd → ∃ H' : Op (Build.dims bd (dimsOf (circPhys c eigs as) bd b)),
      fullHamiltonian bd.C bd.M _ (fun i => ((run w0 h').circ.ng i).getD 0) (run w0 h').vals
        (bd.fluxes (run w0 h').flux) bd.inds bd.juns = .ok H' ∧
      H'.IsHermitian ∧ (hamiltonian (run w0 (h' ++ [.setTruncNums (.list b)]))).1 = .ok ⟨_, _, H'⟩ ∧
      (run w0 (h' ++ [.setTruncNums (.list b)])).circ.m ≠ [] ∧
      (run w0 (h' ++ [.setTruncNums (.list b)])).unitFreq = (run w0 h').unitFreq := by
    rintro _ rfl
    obtain ⟨H', q1, q2, q3, q4, q5, -⟩ := trunc_ham hs hw hh' hB (dims_ne (num := num) _ _ (by omega))
    exact ⟨H', q1, q2, q3, q4, q5⟩
  obtain ⟨H', hH', hherm', hr', hm', hun'⟩ := key _ hbd.symm
  rw [hva, hfl] at hH'
  obtain ⟨vs, ws, ev, w1, hlev, hd, -⟩ := diag_lowest he ha hm hr hherm num h1 (by rw [card_dims]; exact hnum)
  obtain ⟨vs', ws', ev', w1', hlev', hd', -⟩ := diag_lowest he ha hm' hr' hherm' num h1 (by rw [card_dims]; omega)
  have hl : ws.length = spaceDim (run w0 h) a := by rw [← card_dims]; exact hlev.len.trans hlev.card
  have hl' : ws'.length = spaceDim (run w0 h) b := by rw [← card_dims]; exact hlev'.len.trans hlev'.card
  obtain ⟨g1, g2⟩ := getD_take_map (ws := ws) (num := num) (by omega)
    (fun f => f / (2 * Real.pi * (run w0 h).unitFreq))
  obtain ⟨g1', g2'⟩ := getD_take_map (ws := ws') (num := num) (by omega)
    (fun f => f / (2 * Real.pi * (run w0 h).unitFreq))
  refine ⟨_, _, _, _, by rw [hd, hun], by rw [hd', hun', huf], g1, g1', fun i hi => ?_⟩
  rw [g2 i hi, g2' i hi]
  have hsub := shComp_ham _ _ hbok.1 hsh _ _ _ _ hbok.2 hH hH'
  rw [hsub] at hlev
  have := levels_compress (shIdx_inj hsh) hlev' hlev (m := i) (by omega)
  gcongr

/-- C102: adding a whole number of Cooper pairs to the offset charges does not raise any frequency if the charge basis
is enlarged by as many pairs on either side.  (The numbers may be negative, so that the frequencies for either offset
are bracketed by those for the other.) -/
theorem C102_bracket (he : EigsLowest eigs) (ha : CArgsortSpec as) (hs : NoSelfLoops c.els)
    (vals : ElemId → ℝ) (flux : LoopId → ℝ) (u : ℝ)
    (w0 : World (circPhys c eigs as)) (hw : construct (circPhys c eigs as) vals flux u = .ok w0)
    (h : List Act) (hh : Orderly w0 h) (hm : (run w0 h).circ.m ≠ []) (hu : 0 < (run w0 h).unitFreq) (modes : List ℕ)
    (hmodes : ∀ i, (circPhys c eigs as).isCharge (run w0 h).circ.bd i = true → i ∈ modes) (g : ℕ → ℝ) (z : ℕ → ℤ)
    (a b : List ℤ) (hA : Accepts (run w0 h) a) (hB : Accepts (run w0 h) b) (hab : Room (run w0 h) z a b)
    (num : ℕ) (h1 : 1 ≤ num) (hnum : num + 1 < spaceDim (run w0 h) a) :
    ∃ F F' v v',
      (diag (some num) (run w0 (h ++ offsetCalls modes g ++ [.setTruncNums (.list a)]))).1 = .ok (F, v) ∧
      (diag (some num) (run w0 (h ++ offsetCalls modes (fun i => g i + z i) ++ [.setTruncNums (.list b)]))).1 =
        .ok (F', v') ∧
      F.length = num ∧ F'.length = num ∧ ∀ i, i < num → F'.getD i 0 ≤ F.getD i 0 := by
  obtain ⟨b1, v1, f1, u1, o1, n1⟩ := offsets_set hw hh hm modes hmodes g
  obtain ⟨b2, v2, f2, u2, o2, n2⟩ := offsets_set hw hh hm modes hmodes (fun i => g i + z i)
  have hacc : ∀ {w : World (circPhys c eigs as)} {l : List ℤ}, Accepts (run w0 h) l →
      w.circ.bd = (run w0 h).circ.bd → (∀ i, (run w0 h).circ.bd.isCharge i = true → w.circ.ng i ≠ none) →
      Accepts w l := by
    intro w l hl hb hn
    have := (accepts_iff _ _).1 hl
    rw [accepts_iff, hb]
    exact ⟨this.1, this.2.1, hn⟩
  have hA' := hacc hA b1 fun i hi => by rw [n1 i hi]; exact nofun
  have hB' := hacc hB b2 fun i hi => by rw [n2 i hi]; exact nofun
  refine bracket_core he ha hs hw o1 o2 (u1.symm ▸ hu) (b2.trans b1.symm) (v2.trans v1.symm) (f2.trans f1.symm)
    (u2.trans u1.symm) z ?_ hA' hB' ?_ num h1 ?_
  · intro i hi
    rw [b1] at hi
    rw [n1 i hi, n2 i hi]
    rfl
  · unfold Room
    rw [b1]
    exact hab
  · unfold spaceDim
    rw [b1]
    exact hnum

/-- `t` more on each charge mode -/
noncomputable def moreCharge (w : World (circPhys c eigs as)) (t : ℤ) (a : List ℤ) : List ℤ :=
  (List.range w.circ.bd.M.keep.length).map fun i => if w.circ.bd.isCharge i = true then a.getD i 0 + t else a.getD i 0

theorem moreCharge_length (w : World (circPhys c eigs as)) (t : ℤ) (a : List ℤ) :
    (moreCharge w t a).length = w.circ.bd.M.keep.length := by simp [moreCharge]

theorem moreCharge_getD (w : World (circPhys c eigs as)) (t : ℤ) (a : List ℤ) (i : ℕ) (hi : i < w.circ.bd.M.keep.length) :
    (moreCharge w t a).getD i 0 = if w.circ.bd.isCharge i = true then a.getD i 0 + t else a.getD i 0 := by
  unfold moreCharge
  rw [List.getD_eq_getElem?_getD, List.getElem?_map, List.getElem?_range hi]
  rfl

theorem moreCharge_accepts {w : World (circPhys c eigs as)} {t : ℤ} {a : List ℤ} (hA : Accepts w a)
    (ht : ∀ i, i < w.circ.bd.M.keep.length → w.circ.bd.isCharge i = true → 1 ≤ a.getD i 0 + t) :
    Accepts w (moreCharge w t a) := by
  obtain ⟨-, h2, h3⟩ := (accepts_iff _ _).1 hA
  refine (accepts_iff _ _).2 ⟨moreCharge_length .., fun i hi => ?_, h3⟩
  rw [moreCharge_getD _ _ _ _ hi]
  split
  · rename_i hc; exact ht i hi hc
  · exact h2 i hi

theorem room_spaceDim {w : World (circPhys c eigs as)} {z : ℕ → ℤ} {a b : List ℤ}
    (hroom : Room w z a b) (hpa : ∀ i, i < w.circ.bd.M.keep.length → 1 ≤ a.getD i 0) : spaceDim w a ≤ spaceDim w b := by
  obtain ⟨o, hsh⟩ := room_shifts hroom hpa (ng := fun _ => 0) (ng' := fun i => 0 + z i) fun i hi => rfl
  rw [← card_dims, ← card_dims]
  exact Fintype.card_le_of_injective _ (shIdx_inj hsh)

theorem spaceDim_ge {w : World (circPhys c eigs as)} {a : List ℤ}
    (hpa : ∀ i, i < w.circ.bd.M.keep.length → 1 ≤ a.getD i 0) {i : ℕ} (hi : i < w.circ.bd.M.keep.length) :
    a.getD i 0 ≤ spaceDim w a := by
  have hg : ∀ j : Fin w.circ.bd.M.keep.length, (dimsOf (circPhys c eigs as) w.circ.bd a).getD j 0 =
      if (circPhys c eigs as).isCharge w.circ.bd j = true then 2 * a.getD j 0 - 1 else a.getD j 0 := by
    intro j
    unfold dimsOf
    rw [List.getD_eq_getElem?_getD, List.getElem?_map, List.getElem?_range (show (j : ℕ) < (circPhys c eigs as).nModes w.circ.bd from j.isLt)]
    rfl
  have hge : ∀ j : Fin w.circ.bd.M.keep.length,
      a.getD j 0 ≤ (w.circ.bd.dims (dimsOf (circPhys c eigs as) w.circ.bd a) j : ℤ) := by
    intro j
    have := hpa j j.isLt
    unfold Build.dims
    rw [hg j]
    split <;> omega
  rw [← card_dims, Fintype.card_pi]
  simp only [Fintype.card_fin]
  have h1 := Finset.single_le_prod' (f := w.circ.bd.dims (dimsOf (circPhys c eigs as) w.circ.bd a))
    (s := Finset.univ) (fun j _ => by have := hge j; have := hpa j j.isLt; omega) (Finset.mem_univ (⟨i, hi⟩ : Fin _))
  have h2 := hge ⟨i, hi⟩
  exact h2.trans (by exact_mod_cast h1)

/-- C102, continued: in the limit of many charge states the frequencies are periodic in every offset charge, with
period one (a Cooper pair).  For offsets `g` there is a limit `E` of the `p`-th frequency which is also the limit for
all offsets `g + z`, `z` whole numbers. -/
theorem C102_periodic (he : EigsLowest eigs) (ha : CArgsortSpec as) (vals : ElemId → ℝ) (hc : GoodCircuit c vals)
    (flux : LoopId → ℝ) (u : ℝ)
    (w0 : World (circPhys c eigs as)) (hw : construct (circPhys c eigs as) vals flux u = .ok w0)
    (h : List Act) (hh : Orderly w0 h) (hup : ∀ x ∈ h, x ≠ .update) (hm : (run w0 h).circ.m ≠ [])
    (hu : 0 < (run w0 h).unitFreq) (modes : List ℕ)
    (hmodes : ∀ i, (circPhys c eigs as).isCharge (run w0 h).circ.bd i = true → i ∈ modes) (g : ℕ → ℝ)
    (a0 : List ℤ) (p : ℕ) :
    ∃ E : ℝ, ∀ (z : ℕ → ℤ) (ε : ℝ) (num : ℕ), 0 < ε → p < num → ∃ N : ℤ,
      ∀ a, Accepts (run w0 h) a → ChargeAtLeast (run w0 h) a0 N a → num + 1 < spaceDim (run w0 h) a →
      ∃ F v,
        (diag (some num) (run w0 (h ++ offsetCalls modes (fun i => g i + z i) ++ [.setTruncNums (.list a)]))).1 =
          .ok (F, v) ∧ F.length = num ∧ |F.getD p 0 - E| < ε := by
  have hs := hc.noSelf
  obtain ⟨b1, v1, f1, u1, o1, n1⟩ := offsets_set hw hh hm modes hmodes g
  have hup1 : ∀ x ∈ h ++ offsetCalls modes g, x ≠ .update := by
    intro x hx
    rcases List.mem_append.1 hx with hx | hx
    · exact hup x hx
    · obtain ⟨i, -, rfl⟩ := List.mem_map.1 hx; exact nofun
  obtain ⟨E, hE⟩ := C98_convergence he ha vals hc flux u w0 hw _ o1 hup1 (u1.symm ▸ hu) a0 p
  refine ⟨E, fun z ε num hε hp => ?_⟩
  obtain ⟨N1, hN1⟩ := hE ε hε
  let k := (run w0 h).circ.bd.M.keep.length
  let Z : ℤ := ∑ i ∈ Finset.range k, |z i|
  have hZ : ∀ i, i < k → |z i| ≤ Z := fun i hi =>
    Finset.single_le_sum (f := fun i => |z i|) (fun j _ => abs_nonneg _) (Finset.mem_range.2 hi)
  have hZ0 : 0 ≤ Z := Finset.sum_nonneg fun j _ => abs_nonneg _
  refine ⟨max N1 0 + Z + num + 3, fun a hA hca hnum => ?_⟩
  obtain ⟨-, hpa, -⟩ := (accepts_iff _ _).1 hA
  have hbig : ∀ i, i < k → (run w0 h).circ.bd.isCharge i = true → max N1 0 + Z + num + 3 ≤ a.getD i 0 := by
    intro i hi hch
    have := hca i hi
    rwa [if_pos (show (circPhys c eigs as).isCharge (run w0 h).circ.bd i = true from hch)] at this
  have hmax := le_max_right N1 0
  have hmax' := le_max_left N1 0
  have hacc1 : ∀ {l : List ℤ}, Accepts (run w0 h) l → Accepts (run w0 (h ++ offsetCalls modes g)) l := by
    intro l hl
    have := (accepts_iff _ _).1 hl
    rw [accepts_iff, b1]
    exact ⟨this.1, this.2.1, fun i hi => by rw [n1 i hi]; exact nofun⟩
  have hca1 : ∀ {N l}, ChargeAtLeast (run w0 h) a0 N l → ChargeAtLeast (run w0 (h ++ offsetCalls modes g)) a0 N l := by
    intro N l hl
    unfold ChargeAtLeast
    rw [b1]
    exact hl
  have hsd1 : ∀ l, spaceDim (run w0 (h ++ offsetCalls modes g)) l = spaceDim (run w0 h) l := by
    intro l
    unfold spaceDim
    rw [b1]
  -- lower bound: offsets `g` on a larger space
  have hroom1 : Room (run w0 h) (fun i => - z i) a (moreCharge (run w0 h) Z a) := by
    intro i hi
    rw [moreCharge_getD _ _ _ _ hi]
    have hz := hZ i hi
    split
    · rename_i hch
      rw [if_pos (show (run w0 h).circ.bd.isCharge i = true from hch), abs_neg]
      omega
    · rename_i hch
      rw [if_neg (show ¬ (run w0 h).circ.bd.isCharge i = true from hch)]
  have hA1 : Accepts (run w0 h) (moreCharge (run w0 h) Z a) :=
    moreCharge_accepts hA fun i hi hch => by have := hbig i hi hch; omega
  have hC1 : ChargeAtLeast (run w0 h) a0 0 (moreCharge (run w0 h) Z a) := by
    intro i hi
    rw [moreCharge_getD _ _ _ _ hi]
    have h1 := hca i hi
    split
    · rename_i hch
      rw [if_pos (show (run w0 h).circ.bd.isCharge i = true from hch)]
      have := hbig i hi hch
      omega
    · rename_i hch
      rw [if_neg hch] at h1
      rw [if_neg (show ¬ (run w0 h).circ.bd.isCharge i = true from hch)]
      exact h1
  obtain ⟨F, F', v, v', hF, hF', hFl, hFl', hle⟩ := C102_bracket he ha hs vals flux u w0 hw h hh hm hu modes hmodes
    (fun i => g i + z i) (fun i => - z i) a (moreCharge (run w0 h) Z a) hA hA1 hroom1 num (by omega) hnum
  have hgz : (fun i => (g i + (z i : ℝ)) + ((- z i : ℤ) : ℝ)) = g := by funext i; push_cast; ring
  rw [hgz] at hF'
  have hs1 : num + 1 < spaceDim (run w0 (h ++ offsetCalls modes g)) (moreCharge (run w0 h) Z a) := by
    rw [hsd1]
    exact lt_of_lt_of_le hnum (room_spaceDim hroom1 hpa)
  obtain ⟨G, vG, hG, -, hElow, -⟩ := hN1 0 _ (hacc1 hA1) (hca1 hC1) num hp hs1
  have eG : G = F' := by
    have := hF'.symm.trans hG
    injection this with this
    exact (congrArg Prod.fst this).symm
  -- upper bound: offsets `g` on a smaller space
  have hA2 : Accepts (run w0 h) (moreCharge (run w0 h) (-Z) a) :=
    moreCharge_accepts hA fun i hi hch => by have := hbig i hi hch; omega
  have hpa2 := ((accepts_iff _ _).1 hA2).2.1
  have hroom2 : Room (run w0 h) z (moreCharge (run w0 h) (-Z) a) a := by
    intro i hi
    rw [moreCharge_getD _ _ _ _ hi]
    have hz := hZ i hi
    split
    · rename_i hch
      rw [if_pos (show (run w0 h).circ.bd.isCharge i = true from hch)]
      omega
    · rename_i hch
      rw [if_neg (show ¬ (run w0 h).circ.bd.isCharge i = true from hch)]
  have hC2 : ChargeAtLeast (run w0 h) a0 N1 (moreCharge (run w0 h) (-Z) a) := by
    intro i hi
    rw [moreCharge_getD _ _ _ _ hi]
    have h1 := hca i hi
    split
    · rename_i hch
      rw [if_pos (show (run w0 h).circ.bd.isCharge i = true from hch)]
      have := hbig i hi hch
      omega
    · rename_i hch
      rw [if_neg hch] at h1
      rw [if_neg (show ¬ (run w0 h).circ.bd.isCharge i = true from hch)]
      exact h1
  have hs2 : num + 1 < spaceDim (run w0 h) (moreCharge (run w0 h) (-Z) a) := by
    by_cases hex : ∃ i, i < k ∧ (run w0 h).circ.bd.isCharge i = true
    · obtain ⟨i, hi, hch⟩ := hex
      have h1 := spaceDim_ge hpa2 hi
      rw [moreCharge_getD _ _ _ _ hi, if_pos hch] at h1
      have := hbig i hi hch
      omega
    · have : moreCharge (run w0 h) (-Z) a = a := by
        apply List.ext_getElem
        · rw [moreCharge_length]; exact ((accepts_iff _ _).1 hA).1.symm
        · intro i hi1 hi2
          have hi : i < k := by rw [moreCharge_length] at hi1; exact hi1
          have e := moreCharge_getD (run w0 h) (-Z) a i hi
          rw [if_neg fun hch => hex ⟨i, hi, hch⟩] at e
          simpa [List.getD, hi1, hi2] using e
      rw [this]
      exact hnum
  obtain ⟨K, K', w, w', hK, hK', -, -, hle2⟩ := C102_bracket he ha hs vals flux u w0 hw h hh hm hu modes hmodes
    g z (moreCharge (run w0 h) (-Z) a) a hA2 hA hroom2 num (by omega) hs2
  obtain ⟨G2, vG2, hG2, -, -, hEup⟩ := hN1 N1 _ (hacc1 hA2) (hca1 hC2) num hp (by rw [hsd1]; exact hs2)
  have eG2 : G2 = K := by
    have := hK.symm.trans hG2
    injection this with this
    exact (congrArg Prod.fst this).symm
  have eK' : K' = F := by
    have := hF.symm.trans hK'
    injection this with this
    exact (congrArg Prod.fst this).symm
  refine ⟨F, v, hF, hFl, ?_⟩
  have i1 := hle p hp
  have i2 := hle2 p hp
  have i3 := hEup le_rfl
  rw [eG] at hElow
  rw [eG2] at i3
  rw [eK'] at i2
  rw [abs_lt]
  constructor <;> linarith

end

/-- A Cooper pair box meets the hypotheses of C102: offsets 3/10 and 13/10 on its island, truncation numbers 3 and 7,
three levels. -/
theorem C102_example : ∃ (c : CircSpec) (eigs : EigsFn) (as : List ℂ → List ℕ) (w0 : World (circPhys c eigs as)),
    EigsLowest eigs ∧ CArgsortSpec as ∧ GoodCircuit c (fun _ => 1) ∧
    construct (circPhys c eigs as) (fun _ => 1) (fun _ => 0) 1 = .ok w0 ∧
    Orderly w0 [.setTruncNums (.list [2])] ∧ (run w0 [.setTruncNums (.list [2])]).circ.m ≠ [] ∧
    0 < (run w0 [.setTruncNums (.list [2])]).unitFreq ∧
    (∀ i, (circPhys c eigs as).isCharge (run w0 [.setTruncNums (.list [2])]).circ.bd i = true ↔ i ∈ [0]) ∧
    (∀ N : ℤ, 1 ≤ N → Accepts (run w0 [.setTruncNums (.list [2])]) [N] ∧
      ChargeAtLeast (run w0 [.setTruncNums (.list [2])]) [] N [N] ∧
      spaceDim (run w0 [.setTruncNums (.list [2])]) [N] = (2 * N - 1).toNat) ∧
    Room (run w0 [.setTruncNums (.list [2])]) (fun _ => 1) [3] [7] ∧
    ∃ F F' v v',
      (diag (some 3) (run w0 ([.setTruncNums (.list [2]), .setChargeOffset (some 1) (3 / 10),
        .setTruncNums (.list [3])]))).1 = .ok (F, v) ∧
      (diag (some 3) (run w0 ([.setTruncNums (.list [2]), .setChargeOffset (some 1) (13 / 10),
        .setTruncNums (.list [7])]))).1 = .ok (F', v') ∧
      F.length = 3 ∧ F'.length = 3 ∧ ∀ i, i < 3 → F'.getD i 0 ≤ F.getD i 0 := by
  choose lib hlib using exists_lib
  choose argmax hm using exists_argmax
  obtain ⟨argsort, hsrt⟩ := exists_argsort
  obtain ⟨eigs, he⟩ := exists_eigs_lowest
  obtain ⟨as, ha⟩ := exists_cargsort
  obtain ⟨w0, hw, -⟩ := C97_transmon false .junctions boxObjs [0] box_junctions box_caps (by simp [boxObjs])
    (fun _ => LoopObj.init 0 0) lib hlib exSv exSv_spec argsort hsrt argmax hm (fun _ _ => 0) eigs as he ha (fun _ => 1)
    box_values (fun _ => 0) 1
  have hgood := oe_good (vals := fun _ => 1) (torch := false) (fd := .junctions) (h := fun _ => LoopObj.init 0 0)
    (sv := exSv) (argsort := argsort) (draws := fun _ _ => 0) box_junctions hlib hm box_values
  have hb : buildCirc _ _ = .ok w0.circ.bd := (construct_build hw).1
  obtain ⟨hk, -, -, hom, -⟩ := oe_facts (fd := .junctions) (torch := false) box_junctions hlib exSv_spec hsrt hm box_values hb
  have hu : w0.unitFreq = 1 := by
    have hw' := hw
    unfold construct at hw'
    split at hw'
    · cases hw'
    · injection hw' with hw'
      rw [← hw']
  have hok : (setTruncNums (.list [2]) w0).1 = .ok () := (C42_constructed hw [2] hk.symm (by simp)).1
  have hng0 := ((accepts_iff w0 [2]).1 hok).2.2
  have hbd : (run w0 [.setTruncNums (.list [2])]).circ.bd = w0.circ.bd :=
    run_bd _ w0 (by simp)
  have hst : (run w0 [.setTruncNums (.list [2])]).circ.ng = w0.circ.ng ∧
      (run w0 [.setTruncNums (.list [2])]).circ.m = dimsOf _ w0.circ.bd [2] ∧
      (run w0 [.setTruncNums (.list [2])]).unitFreq = w0.unitFreq := by
    show (setTruncNums (.list [2]) w0).2.circ.ng = _ ∧ (setTruncNums (.list [2]) w0).2.circ.m = _ ∧
      (setTruncNums (.list [2]) w0).2.unitFreq = _
    rcases setTruncNums_cases (.list [2]) w0 with ⟨h1, -⟩ | ⟨nums, hn, -, ⟨e, h1, -⟩ | ⟨mem, hmem, -, h2⟩⟩
    · rw [h1] at hok; cases hok
    · rw [h1] at hok; cases hok
    injection hn with hn
    subst hn
    rw [h2]
    exact ⟨rfl, rfl, rfl⟩
  have ho : Orderly w0 [.setTruncNums (.list [2])] := ⟨fun _ => Or.inl hok, trivial⟩
  have hn1 : (circPhys _ eigs as).nModes w0.circ.bd = 1 := hk
  have hnc : (circPhys _ eigs as).isCharge w0.circ.bd 0 = true := by
    show Build.isCharge w0.circ.bd 0 = true
    unfold Build.isCharge
    rw [dif_pos (by omega)]
    simp [hom]
  have hm : (run w0 [.setTruncNums (.list [2])]).circ.m ≠ [] := by
    rw [hst.2.1]
    unfold dimsOf
    rw [hn1]
    simp
  have hmodes : ∀ i, (circPhys _ eigs as).isCharge w0.circ.bd i = true ↔ i ∈ [0] := by
    intro i
    rw [List.mem_singleton]
    constructor
    · intro h
      by_contra h0
      have h' : Build.isCharge w0.circ.bd i = true := h
      unfold Build.isCharge at h'
      rw [dif_neg (by omega)] at h'
      cases h'
    · rintro rfl; exact hnc
  have hall : ∀ N : ℤ, 1 ≤ N → Accepts (run w0 [.setTruncNums (.list [2])]) [N] ∧
      ChargeAtLeast (run w0 [.setTruncNums (.list [2])]) [] N [N] ∧
      spaceDim (run w0 [.setTruncNums (.list [2])]) [N] = (2 * N - 1).toNat := by
    intro N hN
    refine ⟨?_, ?_, ?_⟩
    · rw [accepts_iff, hbd, hst.1]
      refine ⟨hk.symm, fun i hi => ?_, hng0⟩
      obtain rfl : i = 0 := by omega
      simpa using hN
    · unfold ChargeAtLeast
      rw [hbd]
      intro i hi
      rw [hn1] at hi
      obtain rfl : i = 0 := by omega
      rw [if_pos hnc]
      simp
    · unfold spaceDim dimsOf
      rw [hbd, hn1]
      simp [hnc]
  have hroom : Room (run w0 [.setTruncNums (.list [2])]) (fun _ => 1) [3] [7] := by
    unfold Room
    rw [hbd]
    intro i hi
    rw [hn1] at hi
    obtain rfl : i = 0 := by omega
    rw [if_pos hnc]
    simp
  have hu' : 0 < (run w0 [.setTruncNums (.list [2])]).unitFreq := by rw [hst.2.2, hu]; norm_num
  refine ⟨_, eigs, as, w0, he, ha, hgood, hw, ho, hm, hu', by rw [hbd]; exact hmodes, hall, hroom, ?_⟩
  have key := C102_bracket he ha hgood.noSelf (fun _ => 1) (fun _ => 0) 1 w0 hw [.setTruncNums (.list [2])] ho hm hu' [0]
    (by rw [hbd]; exact fun i hi => (hmodes i).1 hi) (fun _ => 3 / 10) (fun _ => 1) [3] [7] (hall 3 (by norm_num)).1
    (hall 7 (by norm_num)).1 hroom 3 (by norm_num) (by rw [(hall 3 (by norm_num)).2.2]; decide)
  have e1 : ((3 : ℝ) / 10 + ((1 : ℤ) : ℝ)) = 13 / 10 := by norm_num
  simp only [e1] at key
  exact key

end SQ
