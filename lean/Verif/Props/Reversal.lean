import Verif.Lemmas.Reversal
import Verif.Spec.Reversal
import Verif.Props.DephasingLevels
import Verif.Props.LevelsSession

/-!
# C94, C95: reversing fluxes and charge offsets; sweet spots
-/

namespace SQ
open Matrix Complex SQ.Spec Filter Topology

section
variable {nJ n b nl : ℕ}

theorem phase_neg (x : ℝ) : phase (-x) = (starRingEnd ℂ) (phase x) := by
  unfold phase
  rw [← Complex.exp_conj]
  congr 1
  simp

theorem phase_add_int (x : ℝ) (z : ℤ) : phase (x + 2 * Real.pi * z) = phase x := by
  unfold phase
  have : I * ((x + 2 * Real.pi * z : ℝ) : ℂ) = I * x + ((z : ℤ) : ℂ) * (2 * Real.pi * I) := by push_cast; ring
  rw [this, Complex.exp_add, Complex.exp_int_mul_two_pi_mul_I, mul_one]

/-- transition frequencies are determined by the Hamiltonian -/
theorem isTransition_unique {ι : Type*} [Fintype ι] [DecidableEq ι] {H : Matrix ι ι ℂ} {p q : ℕ} {f f' : ℝ}
    (h : IsTransition H p q f) (h' : IsTransition H p q f') : f = f' := by
  obtain ⟨vs, ws, hl, rfl⟩ := h
  obtain ⟨vs', ws', hl', rfl⟩ := h'
  rw [levels_unique hl hl']

theorem isTransition_shift {ι : Type*} [Fintype ι] [DecidableEq ι] {H : Matrix ι ι ℂ} {p q : ℕ} {f : ℝ}
    (h : IsTransition H p q f) (hp : p < Fintype.card ι) (hq : q < Fintype.card ι) (d : ℝ) :
    IsTransition (H + (d : ℂ) • 1) p q f := by
  obtain ⟨vs, ws, hl, rfl⟩ := h
  refine ⟨vs, ws.map (· + d), levels_shift hl d, ?_⟩
  have hlen : ws.length = Fintype.card ι := hl.len.trans hl.card
  have e : ∀ i, i < Fintype.card ι → (ws.map (· + d)).getD i 0 = ws.getD i 0 + d := by
    intro i hi
    rw [List.getD_eq_getElem?_getD, List.getElem?_map, List.getD_eq_getElem?_getD,
      List.getElem?_eq_getElem (by omega)]
    rfl
  rw [e p hp, e q hq]
  ring

end

section
variable {c : CircSpec} {eigs : EigsFn} {as : List ℂ → List ℕ}

/-- frequencies returned by `diag` in two states whose Hamiltonians have spectra that differ by a constant -/
theorem diag_two (he : EigsLowest eigs) (ha : CArgsortSpec as) {w w' : World (circPhys c eigs as)}
    (hm : w.circ.m ≠ []) (hm' : w'.circ.m ≠ []) (hu : w'.unitFreq = w.unitFreq) {k : ℕ} {d : Fin k → ℕ} {H H' : Op d}
    (hH : (hamiltonian w).1 = .ok ⟨k, d, H⟩) (hH' : (hamiltonian w').1 = .ok ⟨k, d, H'⟩)
    (hherm : H.IsHermitian) (hherm' : H'.IsHermitian) (x : ℝ)
    (hl : ∀ vs ws, Levels H vs ws → ∃ vs', Levels H' vs' (ws.map (· + x)))
    (num : ℕ) (h1 : 1 ≤ num) (hnum : num + 1 < Fintype.card (Idx d)) :
    ∃ F v v', (diag (some num) w).1 = .ok (F, v) ∧
      (diag (some num) w').1 = .ok (F.map (· + x / (2 * Real.pi * w.unitFreq)), v') := by
  obtain ⟨vs, ws, ev, w1, hlev, hd, -⟩ := diag_lowest he ha hm hH hherm num h1 hnum
  obtain ⟨vs', ws', ev', w1', hlev', hd', -⟩ := diag_lowest he ha hm' hH' hherm' num h1 hnum
  obtain ⟨vs2, hlev2⟩ := hl vs ws hlev
  have e := levels_unique hlev' hlev2
  subst e
  refine ⟨(ws.take num).map (fun f => f / (2 * Real.pi * w.unitFreq)), ev.map (fun v => ⟨k, d, v⟩),
    ev'.map (fun v => ⟨k, d, v⟩), by rw [hd], ?_⟩
  rw [hd', hu]
  refine congrArg Except.ok (Prod.ext ?_ rfl)
  simp only [← List.map_take, List.map_map]
  refine List.map_congr_left fun f _ => ?_
  simp [add_div]

/-- C94: in every reachable state, setting the loops of the circuit to the fluxes `f` or to the opposite fluxes gives
frequencies from `diag` that differ by one constant: all transition frequencies agree. The constant is zero when no
external flux is attributed to inductors. -/
theorem C94_flux_reversal (he : EigsLowest eigs) (ha : CArgsortSpec as) (hs : NoSelfLoops c.els)
    (vals : ElemId → ℝ) (flux : LoopId → ℝ) (u : ℝ)
    (w0 : World (circPhys c eigs as)) (hw : construct (circPhys c eigs as) vals flux u = .ok w0)
    (h : List Act) (hh : Orderly w0 h) (hm : (run w0 h).circ.m ≠ []) (f : LoopId → ℝ) (num : ℕ) (h1 : 1 ≤ num) :
    let bd := (run w0 h).circ.bd
    num + 1 < Fintype.card (Idx (bd.dims (run w0 h).circ.m)) →
    ∃ F v v' s, (diag (some num) (run w0 (h ++ fluxCalls bd.loops f))).1 = .ok (F, v) ∧
      (diag (some num) (run w0 (h ++ fluxCalls bd.loops (fun l => -f l)))).1 = .ok (F.map (· + s), v') ∧
      ((∀ key ∈ bd.inds, ∀ l, bd.B key.bId l = 0) → s = 0) := by
  intro bd hnum
  obtain ⟨hbok, -, -, hham⟩ := ham_now hs hw hh hm
  -- what the flux calls do
  have hrun : ∀ (g : LoopId → ℝ) (ls : List LoopId) (w : World (circPhys c eigs as)),
      (run w (fluxCalls ls g)).circ = w.circ ∧ (run w (fluxCalls ls g)).vals = w.vals ∧
      (run w (fluxCalls ls g)).unitFreq = w.unitFreq ∧
      ∀ l, (l ∈ ls ∨ w.flux l = g l * 2 * Real.pi) → (run w (fluxCalls ls g)).flux l = g l * 2 * Real.pi := by
    intro g ls
    induction ls with
    | nil => intro w; exact ⟨rfl, rfl, rfl, fun l hl => by simpa [fluxCalls, run] using hl⟩
    | cons a t ih =>
      intro w
      obtain ⟨i1, i2, i3, i4⟩ := ih { w with flux := Function.update w.flux a (g a * 2 * Real.pi) }
      refine ⟨i1, i2, i3, fun l hl => ?_⟩
      refine i4 l ?_
      by_cases hla : l = a
      · subst hla; right; simp
      · rcases hl with hl | hl
        · left; simpa [hla] using hl
        · right; simpa [Function.update_of_ne hla] using hl
  have key : ∀ g : LoopId → ℝ, ∃ H : Op (bd.dims (run w0 h).circ.m),
      fullHamiltonian bd.C bd.M (bd.dims (run w0 h).circ.m) (fun i => ((run w0 h).circ.ng i).getD 0) (run w0 h).vals
        (extFlux bd.B fun i => g (bd.loops.get i) * 2 * Real.pi) bd.inds bd.juns = .ok H ∧ H.IsHermitian ∧
      (hamiltonian (run w0 (h ++ fluxCalls bd.loops g))).1 = .ok ⟨_, _, H⟩ := by
    intro g
    obtain ⟨H, hH, hherm⟩ := C40_hermitian bd.C bd.M hbok.1 (bd.dims (run w0 h).circ.m)
      (fun i => ((run w0 h).circ.ng i).getD 0) (run w0 h).vals (extFlux bd.B fun i => g (bd.loops.get i) * 2 * Real.pi)
      bd.inds bd.juns hbok.2
    refine ⟨H, hH, hherm, ?_⟩
    rw [run_append]
    obtain ⟨i1, i2, i3, i4⟩ := hrun g bd.loops (run w0 h)
    refine (hham (run (run w0 h) (fluxCalls bd.loops g)) i1).trans ?_
    have hfl : bd.fluxes (run (run w0 h) (fluxCalls bd.loops g)).flux =
        extFlux bd.B fun i => g (bd.loops.get i) * 2 * Real.pi := by
      unfold Build.fluxes
      congr 1
      funext i
      exact i4 _ (Or.inl (List.get_mem _ _))
    rw [i2]
    exact congrArg (Except.map fun H => (⟨_, _, H⟩ : Σ (k : ℕ) (d : Fin k → ℕ), Op d))
      ((congrArg (fun z => fullHamiltonian bd.C bd.M (bd.dims (run w0 h).circ.m)
        (fun i => ((run w0 h).circ.ng i).getD 0) (run w0 h).vals z bd.inds bd.juns) hfl).trans hH)
  obtain ⟨H, hH, hherm, hr⟩ := key f
  obtain ⟨H', hH', hherm', hr'⟩ := key fun l => -f l
  have hneg : (extFlux bd.B fun i => -f (bd.loops.get i) * 2 * Real.pi) =
      fun i => -extFlux bd.B (fun i => f (bd.loops.get i) * 2 * Real.pi) i := by
    funext i
    rw [extFlux_sum, extFlux_sum, ← Finset.sum_neg_distrib]
    exact Finset.sum_congr rfl fun l _ => by ring
  have hrev := fluxRev_ham bd.C bd.M hbok.1 (bd.dims (run w0 h).circ.m) (fun i => ((run w0 h).circ.ng i).getD 0)
    (run w0 h).vals _ _ bd.inds bd.juns hbok.2 (fun key _ => congrFun hneg key.bId)
    (fun key _ => by rw [hneg, phase_neg]) hH hH'
  set x : ℝ := (bd.inds.map fun key => -(1 / (run w0 h).vals key.el *
    extFlux bd.B (fun i => f (bd.loops.get i) * 2 * Real.pi) key.bId * (Phi0 / 2 / Real.pi) / √hbar *
      (2 * placeholder bd.M hbok.1 key.edge))).sum with hx
  have hci : ∀ g, (run w0 (h ++ fluxCalls bd.loops g)).circ = (run w0 h).circ := fun g => by
    rw [run_append]; exact (hrun g bd.loops (run w0 h)).1
  have hun : ∀ g, (run w0 (h ++ fluxCalls bd.loops g)).unitFreq = (run w0 h).unitFreq := fun g => by
    rw [run_append]; exact (hrun g bd.loops (run w0 h)).2.2.1
  obtain ⟨F, v, v', r1, r2⟩ := diag_two he ha (w := run w0 (h ++ fluxCalls bd.loops f))
    (w' := run w0 (h ++ fluxCalls bd.loops (fun l => -f l))) (by rw [hci]; exact hm) (by rw [hci]; exact hm)
    (by rw [hun, hun]) hr hr' hherm hherm' x (fun vs ws hl => by
      rw [hrev]; exact ⟨_, levels_shift (levels_anti _ _ _ hl) x⟩) num h1 hnum
  refine ⟨F, v, v', _, r1, r2, fun h0 => ?_⟩
  have hx0 : x = 0 := by
    rw [hx]
    apply List.sum_eq_zero
    intro y hy
    obtain ⟨key, hkey, rfl⟩ := List.mem_map.1 hy
    have : extFlux bd.B (fun i => f (bd.loops.get i) * 2 * Real.pi) key.bId = 0 := by
      rw [extFlux_sum]
      exact Finset.sum_eq_zero fun l _ => by rw [h0 key hkey l, mul_zero]
    rw [this]; simp
  rw [hx0, zero_div]

theorem orderly_append {P : Phys} : ∀ {h : List Act} {w : World P} {h' : List Act}, Orderly w h →
    Orderly (run w h) h' → Orderly w (h ++ h')
  | [], _, _, _, h2 => h2
  | _ :: _, _, _, h1, h2 => ⟨h1.1, orderly_append h1.2 h2⟩

/-- what `set_charge_offset` calls do in a state with truncation numbers -/
theorem offset_run (g : ℕ → ℝ) (ms : List ℕ) : ∀ (w : World (circPhys c eigs as)), w.circ.m ≠ [] →
    (∃ mem, w.circ.bd.memOps w.circ.m w.circ.ng = .ok mem) →
    (run w (offsetCalls ms g)).circ.bd = w.circ.bd ∧ (run w (offsetCalls ms g)).circ.m = w.circ.m ∧
    (run w (offsetCalls ms g)).vals = w.vals ∧ (run w (offsetCalls ms g)).flux = w.flux ∧
    (run w (offsetCalls ms g)).unitFreq = w.unitFreq ∧ Orderly w (offsetCalls ms g) ∧
    ∀ i, (i ∈ ms ∨ w.circ.ng i = some (g i)) → w.circ.ng i ≠ none →
      (run w (offsetCalls ms g)).circ.ng i = some (g i) := by
  induction ms with
  | nil =>
    intro w _ _
    exact ⟨rfl, rfl, rfl, rfl, rfl, trivial, fun i hi _ => by simpa [offsetCalls, run] using hi⟩
  | cons a t ih =>
    intro w hm ⟨mem, hmem⟩
    have hisl : islandOf w.circ (some ((a : ℤ) + 1)) = (w.circ.islands a).map (fun o => (a, o)) := by
      unfold islandOf
      simp
    rcases ho : w.circ.islands a with _ | o
    · -- not a charge mode: rejected
      have he : setChargeOffset (some ((a : ℤ) + 1)) (g a) w = (.error .valueError, w) := by
        unfold setChargeOffset
        rw [hisl, ho]; rfl
      have hrun : run w (offsetCalls (a :: t) g) = run w (offsetCalls t g) := by
        show run ((Act.exec (.setChargeOffset (some ((a : ℤ) + 1)) (g a)) w).2) (offsetCalls t g) = _
        simp only [Act.exec, he]
      obtain ⟨i1, i2, i3, i4, i5, i6, i7⟩ := ih w hm ⟨mem, hmem⟩
      rw [hrun]
      refine ⟨i1, i2, i3, i4, i5, ⟨fun _ => Or.inr (by simp only [Act.exec, he]), by simp only [Act.exec, he]; exact i6⟩, ?_⟩
      intro i hi hne
      refine i7 i ?_ hne
      rcases hi with hi | hi
      · rcases List.mem_cons.1 hi with rfl | hi
        · exact absurd (by simp [Circ.ng, ho]) hne
        · exact Or.inl hi
      · exact Or.inr hi
    · have hok : ∃ mem', w.circ.bd.memOps w.circ.m (w.circ.setIsland a (o.setOffset (g a))).ng = .ok mem' := by
        unfold Build.memOps at hmem ⊢
        split at hmem
        · cases hmem
        rename_i c1
        rw [if_neg c1]
        split at hmem
        · cases hmem
        rename_i c2
        rw [if_neg c2]
        split at hmem
        · cases hmem
        rename_i c3
        rw [if_neg]
        · exact ⟨_, rfl⟩
        · rintro ⟨i, hi, hn⟩
          refine c3 ⟨i, hi, ?_⟩
          by_cases hia : i = a
          · subst hia
            simp [Circ.ng, Circ.setIsland] at hn
          · simpa [Circ.ng, Circ.setIsland, Function.update_of_ne hia] using hn
      obtain ⟨mem', hmem'⟩ := hok
      have he : setChargeOffset (some ((a : ℤ) + 1)) (g a) w = (.ok (), { w with circ :=
          { w.circ.setIsland a (o.setOffset (g a)) with mem := some mem',
                                                          lc := some ((circPhys c eigs as).lc w.circ.bd mem') } }) := by
        unfold setChargeOffset
        rw [hisl, ho]
        simp only [Option.map_some]
        rw [if_neg (by rw [List.length_eq_zero_iff]; exact hm)]
        have hmem2 : (circPhys c eigs as).memOps w.circ.bd w.circ.m (w.circ.setIsland a (o.setOffset (g a))).ng =
          .ok mem' := hmem'
        rw [hmem2]
      set w1 : World (circPhys c eigs as) := { w with circ :=
          { w.circ.setIsland a (o.setOffset (g a)) with mem := some mem',
                                                          lc := some ((circPhys c eigs as).lc w.circ.bd mem') } } with hw1
      have hrun : run w (offsetCalls (a :: t) g) = run w1 (offsetCalls t g) := by
        show run ((Act.exec (.setChargeOffset (some ((a : ℤ) + 1)) (g a)) w).2) (offsetCalls t g) = _
        simp only [Act.exec, he]
      obtain ⟨i1, i2, i3, i4, i5, i6, i7⟩ := ih w1 hm ⟨mem', hmem'⟩
      rw [hrun]
      refine ⟨i1, i2, i3, i4, i5, ⟨fun _ => Or.inl (by simp only [Act.exec, he]), by simp only [Act.exec, he]; exact i6⟩, ?_⟩
      intro i hi hne
      have hng : ∀ j, w1.circ.ng j = if j = a then some (g a) else w.circ.ng j := by
        intro j
        by_cases hja : j = a
        · subst hja
          simp [hw1, Circ.ng, Circ.setIsland, ChargeObj.setOffset]
        · simp [hw1, Circ.ng, Circ.setIsland, hja]
      refine i7 i ?_ ?_
      · by_cases hia : i = a
        · subst hia
          right; rw [hng, if_pos rfl]
        · rcases hi with hi | hi
          · left; simpa [hia] using hi
          · right; rw [hng, if_neg hia]; exact hi
      · rw [hng]; split
        · simp
        · exact hne

/-- C95: in every reachable state, setting the offsets of the charge modes to `g` or to the opposite offsets gives
the same frequencies from `diag`. -/
theorem C95_charge_reversal (he : EigsLowest eigs) (ha : CArgsortSpec as) (hs : NoSelfLoops c.els)
    (vals : ElemId → ℝ) (flux : LoopId → ℝ) (u : ℝ)
    (w0 : World (circPhys c eigs as)) (hw : construct (circPhys c eigs as) vals flux u = .ok w0)
    (h : List Act) (hh : Orderly w0 h) (hm : (run w0 h).circ.m ≠ []) (modes : List ℕ) (g : ℕ → ℝ) (num : ℕ)
    (h1 : 1 ≤ num) :
    let bd := (run w0 h).circ.bd
    (∀ i, bd.isCharge i = true → i ∈ modes) →
    num + 1 < Fintype.card (Idx (bd.dims (run w0 h).circ.m)) →
    ∃ F v v', (diag (some num) (run w0 (h ++ offsetCalls modes g))).1 = .ok (F, v) ∧
      (diag (some num) (run w0 (h ++ offsetCalls modes (fun i => -g i)))).1 = .ok (F, v') := by
  intro bd hmodes hnum
  obtain ⟨-, hops⟩ := coherent_run (P := circPhys c eigs as) (fun _ _ => True) h w0 vals
    (coherent_construct hw fun _ _ => trivial) hh (fun _ _ _ _ _ => trivial)
  obtain ⟨mem, hmem, -⟩ := hops.resolve_left hm
  have hmem' : (run w0 h).circ.bd.memOps (run w0 h).circ.m (run w0 h).circ.ng = .ok mem := hmem
  have hhas : ∀ i, bd.isCharge i = true → (run w0 h).circ.ng i ≠ none := by
    intro i hi hn
    unfold Build.memOps at hmem'
    split at hmem'
    · cases hmem'
    split at hmem'
    · cases hmem'
    split at hmem'
    · cases hmem'
    rename_i c3
    exact c3 ⟨i, hi, hn⟩
  obtain ⟨hbok, -, -, -⟩ := ham_now hs hw hh hm
  have key : ∀ g : ℕ → ℝ, ∃ (ng : Fin bd.M.keep.length → ℝ) (H : Op (bd.dims (run w0 h).circ.m)),
      (∀ i, bd.M.omega i = 0 → ng i = g i) ∧
      fullHamiltonian bd.C bd.M (bd.dims (run w0 h).circ.m) ng (run w0 h).vals
        (bd.fluxes (run w0 h).flux) bd.inds bd.juns = .ok H ∧ H.IsHermitian ∧
      (hamiltonian (run w0 (h ++ offsetCalls modes g))).1 = .ok ⟨_, _, H⟩ ∧
      (run w0 (h ++ offsetCalls modes g)).circ.m ≠ [] ∧
      (run w0 (h ++ offsetCalls modes g)).unitFreq = (run w0 h).unitFreq := by
    intro g
    obtain ⟨i1, i2, i3, i4, i5, i6, i7⟩ := offset_run g modes (run w0 h) hm ⟨mem, hmem'⟩
    rw [← run_append] at i1 i2 i3 i4 i5 i7
    have hord : Orderly w0 (h ++ offsetCalls modes g) := orderly_append hh i6
    have hm2 : (run w0 (h ++ offsetCalls modes g)).circ.m ≠ [] := by rw [i2]; exact hm
    obtain ⟨-, -, -, hham⟩ := ham_now hs hw hord hm2
    have e := hham _ rfl
    rw [i2, i3, i4] at e
    obtain ⟨H, hH, hherm⟩ := C40_hermitian bd.C bd.M hbok.1 (bd.dims (run w0 h).circ.m)
      (fun i => ((run w0 (h ++ offsetCalls modes g)).circ.ng i).getD 0) (run w0 h).vals (bd.fluxes (run w0 h).flux)
      bd.inds bd.juns hbok.2
    refine ⟨_, H, ?_, hH, hherm, ?_, hm2, i5⟩
    · intro i hi
      have hc : bd.isCharge i = true := by
        unfold Build.isCharge
        rw [dif_pos i.isLt]
        exact decide_eq_true hi
      rw [i7 i (Or.inl (hmodes i hc)) (hhas i hc)]
      rfl
    · have gen : ∀ bd' : Build, bd' = bd → ∀ (X : Except PyErr (Σ (k : ℕ) (d : Fin k → ℕ), Op d)),
          X = (fullHamiltonian bd'.C bd'.M (bd'.dims (run w0 h).circ.m)
            (fun i => ((run w0 (h ++ offsetCalls modes g)).circ.ng i).getD 0) (run w0 h).vals
            (bd'.fluxes (run w0 h).flux) bd'.inds bd'.juns).map
              (fun H => (⟨_, _, H⟩ : Σ (k : ℕ) (d : Fin k → ℕ), Op d)) → X = .ok ⟨_, _, H⟩ := by
        rintro _ rfl X rfl
        exact congrArg (Except.map fun H => (⟨_, _, H⟩ : Σ (k : ℕ) (d : Fin k → ℕ), Op d)) hH
      exact gen _ i1 _ e
  obtain ⟨ng, H, hng, hH, hherm, hr, hm1, hu1⟩ := key g
  obtain ⟨ng', H', hng', hH', hherm', hr', hm2, hu2⟩ := key fun i => -g i
  have hrev := chargeRev_ham bd.C bd.M hbok.1 (bd.dims (run w0 h).circ.m) ng ng' (run w0 h).vals _ bd.inds bd.juns
    hbok.2 (fun i hi => by rw [hng i hi, hng' i hi]) hH hH'
  obtain ⟨F, v, v', r1, r2⟩ := diag_two he ha (w := run w0 (h ++ offsetCalls modes fun i => -g i))
    (w' := run w0 (h ++ offsetCalls modes g)) hm2 hm1
    (by rw [hu1, hu2]) hr' hr hherm' hherm 0 (fun vs ws hl => by
      rw [hrev, show (fun x : ℝ => x + 0) = id from funext fun x => add_zero x, List.map_id]
      exact ⟨_, levels_anti _ _ _ hl⟩) num h1 hnum
  refine ⟨F, v', v, ?_, r1⟩
  rw [r2]
  simp

end

section build
variable (c : CircSpec) (v0 : ElemId → ℝ) (bd : Build) (m : Fin bd.M.keep.length → ℕ)
    (ng : Fin bd.M.keep.length → ℝ) (val : ElemId → ℝ) (fluxes : Fin bd.loops.length → ℝ)
    (P : ElemId → Matrix (Fin bd.n) (Fin bd.n) ℝ) (noise : NoiseSpec bd.loops.length) (env : NoiseEnv)
    (ef : List ℝ) (ev : List (Idx m → ℂ)) (p q : ℕ) (psi psi' : Idx m → ℂ) (H : Op m)

theorem isLevel_lt {ι : Type*} [Fintype ι] {H : Matrix ι ι ℂ} {p : ℕ} {psi : ι → ℂ} (h : IsLevel H p psi) :
    p < Fintype.card ι := by
  obtain ⟨-, vs, ws, hl, hs, -⟩ := h
  have := hs.1
  rw [hl.len.trans hl.card] at this
  exact this

/-- a function that takes the same values on both sides of a point has slope zero there -/
theorem deriv_even {f : ℝ → ℝ} {x : ℝ} (hd : DifferentiableAt ℝ f x) (h : ∀ s, f (x + s) = f (x - s)) :
    deriv f x = 0 := by
  have h1 : HasDerivAt (fun s => f (x + s)) (deriv f x) 0 := by
    have : HasDerivAt f (deriv f x) (x + 0) := by rw [add_zero]; exact hd.hasDerivAt
    simpa using this.comp_const_add x 0
  have h2 : HasDerivAt (fun s => f (x - s)) (-deriv f x) 0 := by
    have : HasDerivAt f (deriv f x) (x - 0) := by rw [sub_zero]; exact hd.hasDerivAt
    simpa using this.comp_const_sub x 0
  have h3 : (fun s => f (x + s)) = fun s => f (x - s) := funext h
  rw [h3] at h1
  have := h1.unique h2
  linarith

/-- the external fluxes of fluxes symmetric about half quanta -/
theorem halfQuanta_ext {b nl nJ : ℕ} {B : Matrix (Fin b) (Fin nl) ℝ} {inds : List (IndKey b)} {juns : List (JunKey b nJ)}
    {φ : Fin nl → ℝ} (h : HalfQuanta B inds juns φ) {φ1 φ2 : Fin nl → ℝ} (hs : ∀ l, φ1 l + φ2 l = 2 * φ l) :
    (∀ key ∈ inds, extFlux B φ2 key.bId = -extFlux B φ1 key.bId) ∧
    ∀ key ∈ juns, phase (extFlux B φ2 key.bId) = (starRingEnd ℂ) (phase (extFlux B φ1 key.bId)) := by
  have hsum : ∀ i, extFlux B φ2 i = -extFlux B φ1 i + ∑ l, 2 * φ l * B i l := by
    intro i
    rw [extFlux_sum, extFlux_sum, ← Finset.sum_neg_distrib, ← Finset.sum_add_distrib]
    refine Finset.sum_congr rfl fun l _ => ?_
    rw [← hs l]; ring
  choose z hz hz0 using h
  constructor
  · intro key hkey
    rw [hsum, Finset.sum_eq_zero, add_zero]
    intro l _
    rcases hz0 l with h0 | h0
    · rw [hz l, h0]; simp
    · rw [h0.1 key hkey]; simp
  · intro key hkey
    have hq : ∀ l, ∃ q : ℤ, z l * B key.bId l = q := by
      intro l
      rcases hz0 l with h0 | h0
      · exact ⟨0, by rw [h0]; simp⟩
      · obtain ⟨q, hq⟩ := h0.2 key hkey
        exact ⟨z l * q, by rw [hq]; push_cast; ring⟩
    choose q hq using hq
    have : ∑ l, 2 * φ l * B key.bId l = 2 * Real.pi * ((∑ l, q l : ℤ) : ℝ) := by
      push_cast
      rw [Finset.mul_sum]
      refine Finset.sum_congr rfl fun l _ => ?_
      rw [← hq l, hz l]; ring
    rw [hsum, this, phase_add_int, phase_neg]

/-- C96, flux: when every loop of a constructed circuit is at a multiple of half a flux quantum (zero if a flux
quantum in the loop reaches an inductor or is a fraction of a quantum at a junction), `dec_rate("flux", (p, q))`
is zero for every pair of non-degenerate levels and all noise amplitudes. -/
theorem C96_flux_sweet_spot (hs : NoSelfLoops c.els) (hb : buildCirc c v0 = .ok bd)
    (hH : fullHamiltonian bd.C bd.M m ng val (extFlux bd.B fluxes) bd.inds bd.juns = .ok H)
    (hp : ev[p]? = some psi) (hq : ev[q]? = some psi') (hpf : p < ef.length) (hqf : q < ef.length)
    (hlp : IsLevel H p psi) (hlq : IsLevel H q psi') (total : Bool)
    (hsweet : HalfQuanta bd.B bd.inds bd.juns fluxes) :
    (bd.noise c m ng val fluxes P noise env ef ev).decRate "flux" (p, q) total = .ok (.val 0) := by
  obtain ⟨f, hf, hd, hr⟩ := C88_flux c v0 bd m ng val fluxes P noise env ef ev p q psi psi' H hs hb hH hp hq hpf hqf
    hlp hlq total
  obtain ⟨hk, hv⟩ := build_valid hs hb
  rw [hr]
  congr 2
  refine Finset.sum_eq_zero fun l _ => ?_
  rw [deriv_even (hd l), mul_zero, abs_zero, zero_mul]
  intro s
  obtain ⟨H1, hH1, ht1⟩ := hf l (fluxes l + s)
  obtain ⟨H2, hH2, ht2⟩ := hf l (fluxes l - s)
  obtain ⟨hi, hj⟩ := halfQuanta_ext hsweet (φ1 := Function.update fluxes l (fluxes l + s))
    (φ2 := Function.update fluxes l (fluxes l - s)) (by
      intro l'
      by_cases h : l' = l
      · subst h; simp; ring
      · simp [Function.update_of_ne h]; ring)
  have hrev := fluxRev_ham bd.C bd.M hk m ng val _ _ bd.inds bd.juns hv hi hj hH1 hH2
  obtain ⟨vs, ws, hl, h1⟩ := ht1
  have ht1' : IsTransition (fluxRev bd.M.data m H1) p q (f l (fluxes l + s)) := ⟨_, ws, levels_anti _ _ _ hl, h1⟩
  rw [hrev] at ht2
  exact isTransition_unique (isTransition_shift ht1' (isLevel_lt hlp) (isLevel_lt hlq) _) ht2

/-- C96, charge: when the offset of every charge mode is zero, `dec_rate("charge", (p, q))` is zero for every pair
of non-degenerate levels and all noise amplitudes. -/
theorem C96_charge_sweet_spot (hc : GoodCircuit c v0) (hb : buildCirc c v0 = .ok bd)
    (hH : fullHamiltonian bd.C bd.M m ng val (extFlux bd.B fluxes) bd.inds bd.juns = .ok H)
    (hp : ev[p]? = some psi) (hq : ev[q]? = some psi') (hpf : p < ef.length) (hqf : q < ef.length)
    (hlp : IsLevel H p psi) (hlq : IsLevel H q psi') (total : Bool)
    (hsweet : ∀ i, bd.M.omega i = 0 → ng i = 0) :
    (bd.noise c m ng val fluxes P noise env ef ev).decRate "charge" (p, q) total = .ok (.val 0) := by
  obtain ⟨f, hf, hd, hr⟩ := C88_charge c v0 bd m ng val fluxes P noise env ef ev p q psi psi' H hc hb hH hp hq hpf hqf
    hlp hlq total
  obtain ⟨hk, hv⟩ := build_valid hc.noSelf hb
  rw [hr]
  congr 2
  refine Finset.sum_eq_zero fun i _ => ?_
  by_cases hi : bd.M.omega i = 0
  swap
  · rw [if_neg hi]
  rw [if_pos hi, deriv_even (hd i hi), mul_zero, abs_zero, zero_mul]
  intro s
  obtain ⟨H1, hH1, vs, ws, hl, h1⟩ := hf i hi (ng i + s)
  obtain ⟨H2, hH2, ht2⟩ := hf i hi (ng i - s)
  have hrev := chargeRev_ham bd.C bd.M hk m (Function.update ng i (ng i - s)) (Function.update ng i (ng i + s)) val _
    bd.inds bd.juns hv (by
      intro j hj
      by_cases h : j = i
      · subst h; simp [hsweet j hi]
      · simp [Function.update_of_ne h, hsweet j hj]) hH2 hH1
  have ht1' : IsTransition (chargeRev bd.M.data m H1) p q (f i (ng i + s)) := ⟨_, ws, levels_anti _ _ _ hl, h1⟩
  rw [← hrev] at ht1'
  exact isTransition_unique ht1' ht2

end build

end SQ
