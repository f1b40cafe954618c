import Verif.Lemmas.Weyl
import Verif.Props.Truncation
import Verif.Props.Transmon
import Verif.Spec.Stability
import Verif.Spec.Reversal

/-!
# C103: frequencies depend continuously on junction energies and fluxes
-/

namespace SQ
open Matrix Complex SQ.Spec

/-- the recorded junctions are those of the dictionary -/
def JunsPlaced (c : CircSpec) (b : Build) : Prop :=
  (b.juns.map fun key => (key.edge, key.el)).Sublist (junctionPlacements c.O c.els)

theorem filterMap_sublist {α β γ : Type*} (f : α → Option β) (g : β → γ) (k : α → γ)
    (h : ∀ a y, f a = some y → g y = k a) : ∀ l : List α, ((l.filterMap f).map g).Sublist (l.map k)
  | [] => .slnil
  | a :: l => by
    cases hf : f a with
    | none => rw [List.filterMap_cons_none hf]; exact (filterMap_sublist f g k h l).cons _
    | some y =>
      rw [List.filterMap_cons_some hf, List.map_cons, List.map_cons, h a y hf]
      exact (filterMap_sublist f g k h l).cons₂ _

theorem filter_zipIdx_fst {α : Type*} (p : α → Bool) : ∀ (l : List α) (n : ℕ),
    ((l.zipIdx n).filter (fun q => p q.1)).map Prod.fst = l.filter p
  | [], _ => rfl
  | a :: l, n => by
    rw [List.zipIdx_cons]
    by_cases hp : p a = true
    · rw [List.filter_cons_of_pos (by exact hp), List.filter_cons_of_pos hp, List.map_cons, filter_zipIdx_fst p l]
    · rw [List.filter_cons_of_neg (by exact hp), List.filter_cons_of_neg hp, filter_zipIdx_fst p l]

theorem placed_juns (O : Objs) (els : Elements) :
    ((numbered O els).filter (fun q => decide ((O.elem q.1.2).kind = .jj))).map (fun q => (q.1.1, q.1.2)) =
      junctionPlacements O els := by
  have h := filter_zipIdx_fst (fun q : Edge × ElemId => decide ((O.elem q.2).kind = .jj)) (inductivePlacements O els) 0
  refine h.trans ?_
  unfold inductivePlacements junctionPlacements
  rw [List.filter_filter]
  refine List.filter_congr fun q _ => ?_
  cases hk : (O.elem q.2).kind <;> simp

theorem buildWith_juns {c : CircSpec} (hs : NoSelfLoops c.els) {n : ℕ} {v : ElemId → ℝ}
    {finish : ∀ {nJ : ℕ}, Trans nJ n → Modes nJ n} {b : Build}
    (h : buildWith c n v finish = .ok b) : JunsPlaced c b := by
  rw [buildWith_eq] at h
  split at h
  · cases h
  · rename_i a htr
    have hv : ValidElements n c.els := by
      intro p hp
      have := buildEdges_nodes_le htr p hp
      exact ⟨hs p hp, this.1, this.2⟩
    have hj := (C18_branch_numbering _ _ _ _ _ _ hv a htr).2.1
    have hj' : a.st.junKeys.map (fun k => (k.1, k.2.1)) = junctionPlacements (c.O.withVals v) c.els := by
      have := congrArg (List.map fun q : Edge × ElemId × ℕ => (q.1, q.2.1)) hj
      rw [List.map_map, List.map_map] at this
      exact this.trans (placed_juns _ _)
    unfold afterTraverse afterFields at h
    split at h
    · cases h
    · split at h
      · cases h
      · split at h
        · cases h
        · cases h
        · rename_i t _
          injection h with h
          subst h
          show ((junKeysOf _ _ a.st.junKeys).map fun key => (key.edge, key.el)).Sublist _
          have hp : junctionPlacements (c.O.withVals v) c.els = junctionPlacements c.O c.els := by
            unfold junctionPlacements
            refine List.filter_congr fun q _ => ?_
            have : ((c.O.withVals v).elem q.2).kind = (c.O.elem q.2).kind := rfl
            rw [this]
          rw [← hp, ← hj']
          unfold junKeysOf
          refine filterMap_sublist _ _ _ ?_ _
          intro k y hy
          split at hy
          · injection hy with hy; subst hy; rfl
          · cases hy

theorem build_juns {c : CircSpec} (hs : NoSelfLoops c.els) {v : ElemId → ℝ} {b : Build}
    (h : buildCirc c v = .ok b) : JunsPlaced c b := by
  unfold buildCirc at h
  cases hn : numNodes c.els with
  | error e => rw [hn] at h; cases h
  | ok n => rw [hn] at h; exact buildWith_juns hs h

section
variable {c : CircSpec} {eigs : EigsFn} {as : List ℂ → List ℕ}

theorem juns_now (hs : NoSelfLoops c.els) {vals : ElemId → ℝ} {flux : LoopId → ℝ} {u : ℝ}
    {w0 : World (circPhys c eigs as)} (hw : construct (circPhys c eigs as) vals flux u = .ok w0)
    {h : List Act} (hh : Orderly w0 h) : JunsPlaced c (run w0 h).circ.bd :=
  (coherent_run (P := circPhys c eigs as) (fun _ (bd : Build) => JunsPlaced c bd) h w0 vals
    (coherent_construct hw fun _ hb => build_juns hs hb) hh
    (fun _ _ _ _ hbd => buildWith_juns hs (show rebuildCirc c _ _ = .ok _ from hbd))).1

/-- what calls do that change neither the structure nor the operators -/
theorem stability_core (he : EigsLowest eigs) (ha : CArgsortSpec as) (hs : NoSelfLoops c.els)
    {vals : ElemId → ℝ} {flux : LoopId → ℝ} {u : ℝ}
    {w0 : World (circPhys c eigs as)} (hw : construct (circPhys c eigs as) vals flux u = .ok w0)
    {h : List Act} (hh : Orderly w0 h) (hm : (run w0 h).circ.m ≠ []) (hu : 0 < (run w0 h).unitFreq)
    {w w' : World (circPhys c eigs as)} (hc : w.circ = (run w0 h).circ) (hc' : w'.circ = (run w0 h).circ)
    (hun : w.unitFreq = (run w0 h).unitFreq) (hun' : w'.unitFreq = (run w0 h).unitFreq)
    (hi : ∀ key ∈ (run w0 h).circ.bd.inds, (run w0 h).circ.bd.fluxes w.flux key.bId / w.vals key.el =
      (run w0 h).circ.bd.fluxes w'.flux key.bId / w'.vals key.el)
    (num : ℕ) (h1 : 1 ≤ num)
    (hnum : num + 1 < Fintype.card (Idx ((run w0 h).circ.bd.dims (run w0 h).circ.m))) :
    ∃ F F' v v', (diag (some num) w).1 = .ok (F, v) ∧ (diag (some num) w').1 = .ok (F', v') ∧
      F.length = num ∧ F'.length = num ∧ ∀ i, i < num → F.getD i 0 ≤ F'.getD i 0 +
        ((run w0 h).circ.bd.juns.map fun key => |w.vals key.el - w'.vals key.el| + |w'.vals key.el| *
          |(run w0 h).circ.bd.fluxes w.flux key.bId - (run w0 h).circ.bd.fluxes w'.flux key.bId|).sum /
            (2 * Real.pi * (run w0 h).unitFreq) := by
  obtain ⟨hbok, -, -, hham⟩ := ham_now hs hw hh hm
  obtain ⟨H, hH, hherm⟩ := C40_hermitian (run w0 h).circ.bd.C (run w0 h).circ.bd.M hbok.1
    ((run w0 h).circ.bd.dims (run w0 h).circ.m)
    (fun i => ((run w0 h).circ.ng i).getD 0) w.vals ((run w0 h).circ.bd.fluxes w.flux)
    (run w0 h).circ.bd.inds (run w0 h).circ.bd.juns hbok.2
  obtain ⟨H', hH', hherm'⟩ := C40_hermitian (run w0 h).circ.bd.C (run w0 h).circ.bd.M hbok.1
    ((run w0 h).circ.bd.dims (run w0 h).circ.m)
    (fun i => ((run w0 h).circ.ng i).getD 0) w'.vals ((run w0 h).circ.bd.fluxes w'.flux)
    (run w0 h).circ.bd.inds (run w0 h).circ.bd.juns hbok.2
  have hr := (hham w hc).trans (congrArg _ hH)
  have hr' := (hham w' hc').trans (congrArg _ hH')
  obtain ⟨vs, ws, ev, w1, hlev, hd, -⟩ := diag_lowest he ha (by rw [hc]; exact hm) hr hherm num h1 hnum
  obtain ⟨vs', ws', ev', w1', hlev', hd', -⟩ := diag_lowest he ha (by rw [hc']; exact hm) hr' hherm' num h1 hnum
  have hl : ws.length = _ := hlev.len.trans hlev.card
  have hl' : ws'.length = _ := hlev'.len.trans hlev'.card
  obtain ⟨g1, g2⟩ := getD_take_map (ws := ws) (num := num) (by omega)
    (fun f => f / (2 * Real.pi * (run w0 h).unitFreq))
  obtain ⟨g1', g2'⟩ := getD_take_map (ws := ws') (num := num) (by omega)
    (fun f => f / (2 * Real.pi * (run w0 h).unitFreq))
  refine ⟨_, _, _, _, by rw [hd, hun], by rw [hd', hun'], g1, g1', fun i hi' => ?_⟩
  rw [g2 i hi', g2' i hi', ← add_div]
  have := levels_weyl (ham_change _ _ hbok.1 _ _ _ _ _ _ _ _ hbok.2 hi hH hH') hlev hlev' (m := i) (by omega)
  gcongr

theorem junctionCalls_run {O : Objs} : ∀ {l : List Act}, JunctionCalls O l → ∀ w : World (circPhys c eigs as),
    (run w l).circ = w.circ ∧ (run w l).flux = w.flux ∧ (run w l).unitFreq = w.unitFreq ∧
    ∀ i, (O.elem i).kind ≠ .jj → (run w l).vals i = w.vals i
  | [], _, w => ⟨rfl, rfl, rfl, fun _ _ => rfl⟩
  | x :: l, hl, w => by
    obtain ⟨i, v, rfl, hk⟩ := hl x (List.mem_cons_self ..)
    obtain ⟨h1, h2, h3, h4⟩ := junctionCalls_run (fun y hy => hl y (List.mem_cons_of_mem _ hy))
      ({ w with vals := Function.update w.vals i v } : World (circPhys c eigs as))
    refine ⟨h1, h2, h3, fun j hj => (h4 j hj).trans ?_⟩
    exact Function.update_of_ne (fun h : j = i => hj (by rw [h]; exact hk)) _ _

/-- C103, junction energies: changing the energies of junctions moves no frequency by more than the sum of the changes,
taken over all places in the circuit dictionary where junctions stand. -/
theorem C103_energies (he : EigsLowest eigs) (ha : CArgsortSpec as) (hs : NoSelfLoops c.els)
    (vals : ElemId → ℝ) (flux : LoopId → ℝ) (u : ℝ)
    (w0 : World (circPhys c eigs as)) (hw : construct (circPhys c eigs as) vals flux u = .ok w0)
    (h : List Act) (hh : Orderly w0 h) (hm : (run w0 h).circ.m ≠ []) (hu : 0 < (run w0 h).unitFreq)
    (l l' : List Act) (hl : JunctionCalls c.O l) (hl' : JunctionCalls c.O l')
    (num : ℕ) (h1 : 1 ≤ num) (hnum : num + 1 < Fintype.card (Idx ((run w0 h).circ.bd.dims (run w0 h).circ.m))) :
    ∃ F F' v v', (diag (some num) (run w0 (h ++ l))).1 = .ok (F, v) ∧
      (diag (some num) (run w0 (h ++ l'))).1 = .ok (F', v') ∧ F.length = num ∧ F'.length = num ∧
      ∀ i, i < num → |F.getD i 0 - F'.getD i 0| ≤
        ((junctionPlacements c.O c.els).map fun q =>
          |(run w0 (h ++ l)).vals q.2 - (run w0 (h ++ l')).vals q.2|).sum / (2 * Real.pi * (run w0 h).unitFreq) := by
  obtain ⟨-, hkeys, -, -⟩ := ham_now hs hw hh hm
  have hplaced := juns_now hs hw hh
  obtain ⟨a1, a2, a3, a4⟩ := junctionCalls_run hl (run w0 h)
  obtain ⟨b1, b2, b3, b4⟩ := junctionCalls_run hl' (run w0 h)
  rw [← run_append] at a1 a2 a3 a4 b1 b2 b3 b4
  have hind : ∀ key ∈ (run w0 h).circ.bd.inds,
      (run w0 (h ++ l)).vals key.el = (run w0 (h ++ l')).vals key.el := by
    intro key hkey
    have hk : (c.O.elem key.el).kind ≠ .jj := by rw [hkeys.indKind key hkey]; exact nofun
    rw [a4 _ hk, b4 _ hk]
  have hfl : (run w0 (h ++ l)).flux = (run w0 (h ++ l')).flux := a2.trans b2.symm
  have hsum : ∀ x y : ElemId → ℝ, ((run w0 h).circ.bd.juns.map fun key => |x key.el - y key.el|).sum ≤
      ((junctionPlacements c.O c.els).map fun q => |x q.2 - y q.2|).sum := by
    intro x y
    have hsub := List.Sublist.map (fun q : Edge × ElemId => |x q.2 - y q.2|) hplaced
    rw [List.map_map] at hsub
    exact List.Sublist.sum_le_sum hsub fun r hr => by
      obtain ⟨q, -, rfl⟩ := List.mem_map.1 hr
      exact abs_nonneg _
  obtain ⟨F, F', v, v', hF, hF', hFl, hFl', hle⟩ := stability_core he ha hs hw hh hm hu a1 b1 a3 b3
    (fun key hkey => by rw [hind key hkey, hfl]) num h1 hnum
  obtain ⟨G, G', x, x', hG, hG', -, -, hle'⟩ := stability_core he ha hs hw hh hm hu b1 a1 b3 a3
    (fun key hkey => by rw [hind key hkey, hfl]) num h1 hnum
  have e1 : G = F' := by
    have := hF'.symm.trans hG
    injection this with this
    exact (congrArg Prod.fst this).symm
  have e2 : G' = F := by
    have := hF.symm.trans hG'
    injection this with this
    exact (congrArg Prod.fst this).symm
  refine ⟨F, F', v, v', hF, hF', hFl, hFl', fun i hi => ?_⟩
  have i1 := hle i hi
  have i2 := hle' i hi
  rw [e1, e2] at i2
  rw [hfl] at i1 i2
  simp only [sub_self, abs_zero, mul_zero, add_zero] at i1 i2
  have hpos : 0 < 2 * Real.pi * (run w0 h).unitFreq := by positivity
  have j1 := div_le_div_of_nonneg_right (hsum (run w0 (h ++ l)).vals (run w0 (h ++ l')).vals) hpos.le
  have j2 := div_le_div_of_nonneg_right (hsum (run w0 (h ++ l')).vals (run w0 (h ++ l)).vals) hpos.le
  have hsym : ((junctionPlacements c.O c.els).map fun q =>
      |(run w0 (h ++ l')).vals q.2 - (run w0 (h ++ l)).vals q.2|) = ((junctionPlacements c.O c.els).map fun q =>
      |(run w0 (h ++ l)).vals q.2 - (run w0 (h ++ l')).vals q.2|) := List.map_congr_left fun q _ => abs_sub_comm _ _
  rw [hsym] at j2
  rw [abs_le]
  constructor <;> linarith

theorem fluxCalls_run (g : LoopId → ℝ) : ∀ (ls : List LoopId) (w : World (circPhys c eigs as)),
    (run w (fluxCalls ls g)).circ = w.circ ∧ (run w (fluxCalls ls g)).vals = w.vals ∧
    (run w (fluxCalls ls g)).unitFreq = w.unitFreq ∧
    ∀ l, (l ∈ ls ∨ w.flux l = g l * 2 * Real.pi) → (run w (fluxCalls ls g)).flux l = g l * 2 * Real.pi
  | [], w => ⟨rfl, rfl, rfl, fun l hl => by simpa [fluxCalls, run] using hl⟩
  | a :: t, w => by
    obtain ⟨i1, i2, i3, i4⟩ := fluxCalls_run g t { w with flux := Function.update w.flux a (g a * 2 * Real.pi) }
    refine ⟨i1, i2, i3, fun l hl => ?_⟩
    refine i4 l ?_
    by_cases hla : l = a
    · subst hla; right; simp
    · rcases hl with hl | hl
      · left; simpa [hla] using hl
      · right; simpa [Function.update_of_ne hla] using hl

/-- C103, fluxes: in a circuit whose inductors see no external flux (for instance without inductors), changing the
fluxes of the loops moves no frequency by more than the sum over the junctions of energy times change of the flux at
the junction (in radians). -/
theorem C103_fluxes (he : EigsLowest eigs) (ha : CArgsortSpec as) (hs : NoSelfLoops c.els)
    (vals : ElemId → ℝ) (flux : LoopId → ℝ) (u : ℝ)
    (w0 : World (circPhys c eigs as)) (hw : construct (circPhys c eigs as) vals flux u = .ok w0)
    (h : List Act) (hh : Orderly w0 h) (hm : (run w0 h).circ.m ≠ []) (hu : 0 < (run w0 h).unitFreq) (f f' : LoopId → ℝ)
    (num : ℕ) (h1 : 1 ≤ num) :
    let bd := (run w0 h).circ.bd
    num + 1 < Fintype.card (Idx (bd.dims (run w0 h).circ.m)) →
    (∀ key ∈ bd.inds, ∀ l, bd.B key.bId l = 0) →
    ∃ F F' v v', (diag (some num) (run w0 (h ++ fluxCalls bd.loops f))).1 = .ok (F, v) ∧
      (diag (some num) (run w0 (h ++ fluxCalls bd.loops f'))).1 = .ok (F', v') ∧ F.length = num ∧ F'.length = num ∧
      ∀ i, i < num → |F.getD i 0 - F'.getD i 0| ≤
        (bd.juns.map fun key => |(run w0 h).vals key.el| *
          |2 * Real.pi * ∑ l, bd.B key.bId l * (f (bd.loops.get l) - f' (bd.loops.get l))|).sum /
            (2 * Real.pi * (run w0 h).unitFreq) := by
  intro bd hnum hB
  have hfl : ∀ g : LoopId → ℝ, bd.fluxes (run w0 (h ++ fluxCalls bd.loops g)).flux =
      extFlux bd.B fun i => g (bd.loops.get i) * 2 * Real.pi := by
    intro g
    rw [run_append]
    unfold Build.fluxes
    congr 1
    funext i
    exact (fluxCalls_run g bd.loops (run w0 h)).2.2.2 _ (Or.inl (List.get_mem _ _))
  have hzero : ∀ g : LoopId → ℝ, ∀ key ∈ bd.inds,
      bd.fluxes (run w0 (h ++ fluxCalls bd.loops g)).flux key.bId = 0 := by
    intro g key hkey
    rw [hfl, extFlux_sum]
    exact Finset.sum_eq_zero fun l _ => by rw [hB key hkey l, mul_zero]
  have hdiff : ∀ (g g' : LoopId → ℝ) (j : Fin bd.nB), bd.fluxes (run w0 (h ++ fluxCalls bd.loops g)).flux j -
      bd.fluxes (run w0 (h ++ fluxCalls bd.loops g')).flux j =
        2 * Real.pi * ∑ l, bd.B j l * (g (bd.loops.get l) - g' (bd.loops.get l)) := by
    intro g g' j
    rw [hfl, hfl, extFlux_sum, extFlux_sum, ← Finset.sum_sub_distrib, Finset.mul_sum]
    exact Finset.sum_congr rfl fun l _ => by ring
  have hst : ∀ g : LoopId → ℝ, (run w0 (h ++ fluxCalls bd.loops g)).circ = (run w0 h).circ ∧
      (run w0 (h ++ fluxCalls bd.loops g)).vals = (run w0 h).vals ∧
      (run w0 (h ++ fluxCalls bd.loops g)).unitFreq = (run w0 h).unitFreq := by
    intro g
    rw [run_append]
    obtain ⟨i1, i2, i3, -⟩ := fluxCalls_run g bd.loops (run w0 h)
    exact ⟨i1, i2, i3⟩
  have key := fun g g' => stability_core he ha hs hw hh hm hu (w := run w0 (h ++ fluxCalls bd.loops g))
    (w' := run w0 (h ++ fluxCalls bd.loops g')) (hst g).1 (hst g').1 (hst g).2.2 (hst g').2.2
    (fun key hkey => by rw [hzero g key hkey, hzero g' key hkey, zero_div, zero_div]) num h1 hnum
  obtain ⟨F, F', v, v', hF, hF', hFl, hFl', hle⟩ := key f f'
  obtain ⟨G, G', x, x', hG, hG', -, -, hle'⟩ := key f' f
  have e1 : G = F' := by
    have := hF'.symm.trans hG
    injection this with this
    exact (congrArg Prod.fst this).symm
  have e2 : G' = F := by
    have := hF.symm.trans hG'
    injection this with this
    exact (congrArg Prod.fst this).symm
  refine ⟨F, F', v, v', hF, hF', hFl, hFl', fun i hi => ?_⟩
  have i1 := hle i hi
  have i2 := hle' i hi
  rw [e1, e2] at i2
  simp only [(hst f).2.1, (hst f').2.1, sub_self, abs_zero, zero_add] at i1 i2
  have q1 : (bd.juns.map fun key => |(run w0 h).vals key.el| *
      |bd.fluxes (run w0 (h ++ fluxCalls bd.loops f)).flux key.bId -
        bd.fluxes (run w0 (h ++ fluxCalls bd.loops f')).flux key.bId|) = (bd.juns.map fun key => |(run w0 h).vals key.el| *
          |2 * Real.pi * ∑ l, bd.B key.bId l * (f (bd.loops.get l) - f' (bd.loops.get l))|) :=
    List.map_congr_left fun key _ => by rw [hdiff]
  have q2 : (bd.juns.map fun key => |(run w0 h).vals key.el| *
      |bd.fluxes (run w0 (h ++ fluxCalls bd.loops f')).flux key.bId -
        bd.fluxes (run w0 (h ++ fluxCalls bd.loops f)).flux key.bId|) = (bd.juns.map fun key => |(run w0 h).vals key.el| *
          |2 * Real.pi * ∑ l, bd.B key.bId l * (f (bd.loops.get l) - f' (bd.loops.get l))|) :=
    List.map_congr_left fun key _ => by rw [abs_sub_comm, hdiff]
  have i1' := i1.trans_eq (congrArg (fun z : List ℝ => F'.getD i 0 + z.sum / (2 * Real.pi * (run w0 h).unitFreq)) q1)
  have i2' := i2.trans_eq (congrArg (fun z : List ℝ => F.getD i 0 + z.sum / (2 * Real.pi * (run w0 h).unitFreq)) q2)
  rw [abs_le]
  constructor <;> linarith

end

/-- the hypotheses can be met: a SQUID with truncation number 4 (7 charge states), one junction raised from 1 to 3, and
loop fluxes 0 and 1/4 -/
theorem C103_example : ∃ (c : CircSpec) (eigs : EigsFn) (as : List ℂ → List ℕ) (w0 : World (circPhys c eigs as)),
    EigsLowest eigs ∧ CArgsortSpec as ∧ NoSelfLoops c.els ∧
    construct (circPhys c eigs as) (fun _ => 1) (fun _ => 0) 1 = .ok w0 ∧
    Orderly w0 [.setTruncNums (.list [4])] ∧ (run w0 [.setTruncNums (.list [4])]).circ.m ≠ [] ∧
    0 < (run w0 [.setTruncNums (.list [4])]).unitFreq ∧ JunctionCalls c.O [.setValue 0 3] ∧
    (∃ F F' v v', (diag (some 3) (run w0 [.setTruncNums (.list [4]), .setValue 0 3])).1 = .ok (F, v) ∧
      (diag (some 3) (run w0 [.setTruncNums (.list [4])])).1 = .ok (F', v') ∧ F.length = 3 ∧ F'.length = 3 ∧
      ∀ i, i < 3 → |F.getD i 0 - F'.getD i 0| ≤ 1 / Real.pi) ∧
    ∃ F F' v v', (diag (some 3) (run w0 [.setTruncNums (.list [4]), .setFlux 0 0])).1 = .ok (F, v) ∧
      (diag (some 3) (run w0 [.setTruncNums (.list [4]), .setFlux 0 (1 / 4)])).1 = .ok (F', v') := by
  choose lib hlib using exists_lib
  choose argmax hm using exists_argmax
  obtain ⟨argsort, hsrt⟩ := exists_argsort
  obtain ⟨eigs, he⟩ := exists_eigs_lowest
  obtain ⟨as, ha⟩ := exists_cargsort
  have hj : OnlyJunctions squidObjs [4, 0, 2] := by
    refine ⟨?_, 0, by simp, rfl⟩
    intro i hi
    simp at hi
    rcases hi with rfl | rfl | rfl <;> decide
  obtain ⟨b, hb0, hk0, hl0, -⟩ := C92_squid false .junctions squidObjs [4, 0, 2] 0 2 0 (by decide) rfl rfl rfl rfl
    (fun _ => LoopObj.init 0 0) lib hlib exSv exSv_spec argsort hsrt argmax hm (fun _ _ => 0) _ squid_values
  have hcon : ∃ w0, construct (circPhys (parallelSpec false .junctions squidObjs [4, 0, 2] (fun _ => LoopObj.init 0 0) lib exSv
      argsort argmax (fun _ _ => 0)) eigs as) (fun _ => 1) (fun _ => 0) 1 = .ok w0 := by
    unfold construct
    rw [show (circPhys (parallelSpec false .junctions squidObjs [4, 0, 2] (fun _ => LoopObj.init 0 0) lib exSv
      argsort argmax (fun _ _ => 0)) eigs as).build (fun _ => 1) = .ok b from hb0]
    exact ⟨_, rfl⟩
  obtain ⟨w0, hw⟩ := hcon
  have hgood := oe_good (vals := fun _ => 1) (torch := false) (fd := .junctions) (h := fun _ => LoopObj.init 0 0)
    (sv := exSv) (argsort := argsort) (draws := fun _ _ => 0) hj hlib hm squid_values
  have hb : buildCirc _ _ = .ok w0.circ.bd := (construct_build hw).1
  obtain rfl : b = w0.circ.bd := Except.ok.inj (hb0.symm.trans hb)
  obtain ⟨hk, -, -, hom, -⟩ := oe_facts (fd := .junctions) (torch := false) hj hlib exSv_spec hsrt hm squid_values hb
  have hinds := (oe_juns (fd := .junctions) (torch := false) hj hgood.noSelf hb).1
  have hu : w0.unitFreq = 1 := by
    have hw' := hw
    unfold construct at hw'
    split at hw'
    · cases hw'
    · injection hw' with hw'
      rw [← hw']
  have hok : (setTruncNums (.list [4]) w0).1 = .ok () := (C42_constructed hw [4] hk.symm (by simp)).1
  have hbd : (run w0 [.setTruncNums (.list [4])]).circ.bd = w0.circ.bd := run_bd _ w0 (by simp)
  have hst : (run w0 [.setTruncNums (.list [4])]).circ.m = dimsOf _ w0.circ.bd [4] ∧
      (run w0 [.setTruncNums (.list [4])]).unitFreq = w0.unitFreq ∧ (run w0 [.setTruncNums (.list [4])]).vals = w0.vals := by
    show (setTruncNums (.list [4]) w0).2.circ.m = _ ∧
      (setTruncNums (.list [4]) w0).2.unitFreq = _ ∧ (setTruncNums (.list [4]) w0).2.vals = _
    rcases setTruncNums_cases (.list [4]) w0 with ⟨h1, -⟩ | ⟨nums, hn, -, ⟨e, h1, -⟩ | ⟨mem, hmem, -, h2⟩⟩
    · rw [h1] at hok; cases hok
    · rw [h1] at hok; cases hok
    injection hn with hn
    subst hn
    rw [h2]
    exact ⟨rfl, rfl, rfl⟩
  have ho : Orderly w0 [.setTruncNums (.list [4])] := ⟨fun _ => Or.inl hok, trivial⟩
  have hn1 : (circPhys _ eigs as).nModes w0.circ.bd = 1 := hk
  have hnc : (circPhys _ eigs as).isCharge w0.circ.bd 0 = true := by
    show Build.isCharge w0.circ.bd 0 = true
    unfold Build.isCharge
    rw [dif_pos (by omega)]
    simp [hom]
  have hm0 : (run w0 [.setTruncNums (.list [4])]).circ.m ≠ [] := by
    rw [hst.1]
    unfold dimsOf
    rw [hn1]
    simp
  have hu' : 0 < (run w0 [.setTruncNums (.list [4])]).unitFreq := by rw [hst.2.1, hu]; norm_num
  have hcard : Fintype.card (Idx ((run w0 [.setTruncNums (.list [4])]).circ.bd.dims
      (run w0 [.setTruncNums (.list [4])]).circ.m)) = 7 := by
    have h1 := card_dims (run w0 [.setTruncNums (.list [4])]) [4]
    rw [hbd] at h1
    rw [hst.1, hbd]
    refine h1.trans ?_
    unfold spaceDim dimsOf
    rw [hbd, hn1]
    simp [hnc]
  have hvals : w0.vals = fun _ => 1 := by
    have hw' := hw
    unfold construct at hw'
    split at hw'
    · cases hw'
    · injection hw' with hw'
      rw [← hw']
  have hJC : JunctionCalls squidObjs [.setValue 0 3] := by
    intro x hx
    rw [List.mem_singleton] at hx
    exact ⟨0, 3, hx, rfl⟩
  refine ⟨_, eigs, as, w0, he, ha, hgood.noSelf, hw, ho, hm0, hu', hJC, ?_, ?_⟩
  · obtain ⟨F, F', v, v', h1, h2, h3, h4, h5⟩ := C103_energies he ha hgood.noSelf (fun _ => 1) (fun _ => 0) 1 w0 hw
      [.setTruncNums (.list [4])] ho hm0 hu' [.setValue 0 3] [] hJC (by intro x hx; cases hx) 3 (by norm_num)
      (by rw [hcard]; norm_num)
    refine ⟨F, F', v, v', h1, h2, h3, h4, fun i hi => (h5 i hi).trans (le_of_eq ?_)⟩
    have e1 : (run w0 ([.setTruncNums (.list [4])] ++ [.setValue 0 3])).vals = fun i => if i = 0 then 3 else 1 := by
      rw [run_append]
      show Function.update (run w0 [.setTruncNums (.list [4])]).vals 0 3 = _
      rw [hst.2.2, hvals]
      funext i
      rw [Function.update_apply]
    have e2 : (run w0 ([.setTruncNums (.list [4])] ++ [])).vals = fun _ => 1 := by
      rw [List.append_nil, hst.2.2, hvals]
    have e3 : junctionPlacements squidObjs (oneEdge [4, 0, 2]) = [((0, 1), 0), ((0, 1), 2)] := by
      decide
    rw [e1, e2, hst.2.1, hu]
    show ((junctionPlacements squidObjs (oneEdge [4, 0, 2])).map _).sum / _ = _
    rw [e3]
    have hpi := Real.pi_pos
    norm_num
    field_simp
  · obtain ⟨F, F', v, v', h1, h2, -⟩ := C103_fluxes he ha hgood.noSelf (fun _ => 1) (fun _ => 0) 1 w0 hw
      [.setTruncNums (.list [4])] ho hm0 hu' (fun _ => 0) (fun _ => 1 / 4) 3 (by norm_num) (by rw [hcard]; norm_num)
      (by rw [hbd, hinds]; intro key hkey; cases hkey)
    rw [hbd, hl0] at h1 h2
    exact ⟨F, F', v, v', h1, h2⟩

end SQ
