import Verif.Props.Stability
import Verif.Lemmas.KyFan

/-!
# C138: the lowest frequency, and every sum of the lowest frequencies, is concave in the Josephson energies
-/

namespace SQ
open Matrix Complex SQ.Spec

/-- C138: In every reachable state, set the Josephson energies to `x`, to `y` and to the mixture `t x + (1 - t) y`.  The sum of
the `m` lowest frequencies of the mixture is at least the mixture of the two sums, for every `m`; for `m = 1` this is the
lowest frequency. -/
theorem C138_concave {c : CircSpec} {eigs : EigsFn} {as : List ℂ → List ℕ} (he : EigsLowest eigs) (ha : CArgsortSpec as)
    (hs : NoSelfLoops c.els) (vals : ElemId → ℝ) (flux : LoopId → ℝ) (u : ℝ)
    (w0 : World (circPhys c eigs as)) (hw : construct (circPhys c eigs as) vals flux u = .ok w0)
    (h : List Act) (hh : Orderly w0 h) (hm : (run w0 h).circ.m ≠ []) (hu : 0 < (run w0 h).unitFreq)
    (l l1 l2 : List Act) (hl : JunctionCalls c.O l) (hl1 : JunctionCalls c.O l1) (hl2 : JunctionCalls c.O l2)
    (t : ℝ) (h0 : 0 ≤ t) (h1 : t ≤ 1)
    (hmix : ∀ i, (c.O.elem i).kind = .jj → (run w0 (h ++ l)).vals i =
      t * (run w0 (h ++ l1)).vals i + (1 - t) * (run w0 (h ++ l2)).vals i)
    (num : ℕ) (hnum1 : 1 ≤ num) (hnum : num + 1 < Fintype.card (Idx ((run w0 h).circ.bd.dims (run w0 h).circ.m))) :
    ∃ F F1 F2 v v1 v2, (diag (some num) (run w0 (h ++ l))).1 = .ok (F, v) ∧
      (diag (some num) (run w0 (h ++ l1))).1 = .ok (F1, v1) ∧ (diag (some num) (run w0 (h ++ l2))).1 = .ok (F2, v2) ∧
      F.length = num ∧ F1.length = num ∧ F2.length = num ∧
      ∀ m ≤ num, t * ∑ i ∈ Finset.range m, F1.getD i 0 + (1 - t) * ∑ i ∈ Finset.range m, F2.getD i 0 ≤
        ∑ i ∈ Finset.range m, F.getD i 0 := by
  obtain ⟨hbok, hkeys, -, hham⟩ := ham_now hs hw hh hm
  have hone : ∀ l : List Act, JunctionCalls c.O l → ∃ (H : Op ((run w0 h).circ.bd.dims (run w0 h).circ.m)) (vs : _) (ws : List ℝ) (ev : _),
      fullHamiltonian (run w0 h).circ.bd.C (run w0 h).circ.bd.M ((run w0 h).circ.bd.dims (run w0 h).circ.m)
        (fun i => ((run w0 h).circ.ng i).getD 0) (run w0 (h ++ l)).vals ((run w0 h).circ.bd.fluxes (run w0 h).flux)
        (run w0 h).circ.bd.inds (run w0 h).circ.bd.juns = .ok H ∧ Levels H vs ws ∧
      (diag (some num) (run w0 (h ++ l))).1 = .ok ((ws.take num).map (fun f => f / (2 * Real.pi * (run w0 h).unitFreq)), ev) := by
    intro l hl
    obtain ⟨a1, a2, a3, -⟩ := junctionCalls_run hl (run w0 h)
    rw [← run_append] at a1 a2 a3
    obtain ⟨H, hH, hherm⟩ := C40_hermitian (run w0 h).circ.bd.C (run w0 h).circ.bd.M hbok.1
      ((run w0 h).circ.bd.dims (run w0 h).circ.m)
      (fun i => ((run w0 h).circ.ng i).getD 0) (run w0 (h ++ l)).vals ((run w0 h).circ.bd.fluxes (run w0 h).flux)
      (run w0 h).circ.bd.inds (run w0 h).circ.bd.juns hbok.2
    have hr := hham (run w0 (h ++ l)) a1
    rw [a2] at hr
    have hr := hr.trans (congrArg _ hH)
    obtain ⟨vs, ws, ev, w1, hlev, hd, -⟩ := diag_lowest he ha (by rw [a1]; exact hm) hr hherm num hnum1 hnum
    exact ⟨H, vs, ws, _, hH, hlev, by rw [hd, a3]⟩
  obtain ⟨H, vs, ws, ev, hH, hlev, hd⟩ := hone l hl
  obtain ⟨H1, vs1, ws1, ev1, hH1, hlev1, hd1⟩ := hone l1 hl1
  obtain ⟨H2, vs2, ws2, ev2, hH2, hlev2, hd2⟩ := hone l2 hl2
  have hlen : ∀ {H : Op ((run w0 h).circ.bd.dims (run w0 h).circ.m)} {vs ws}, Levels H vs ws → num ≤ ws.length := by
    intro H vs ws hlev
    have : ws.length = _ := hlev.len.trans hlev.card
    omega
  obtain ⟨g1, g2⟩ := getD_take_map (hlen hlev) (fun f => f / (2 * Real.pi * (run w0 h).unitFreq))
  obtain ⟨g11, g21⟩ := getD_take_map (hlen hlev1) (fun f => f / (2 * Real.pi * (run w0 h).unitFreq))
  obtain ⟨g12, g22⟩ := getD_take_map (hlen hlev2) (fun f => f / (2 * Real.pi * (run w0 h).unitFreq))
  refine ⟨_, _, _, _, _, _, hd, hd1, hd2, g1, g11, g12, fun m hmn => ?_⟩
  have hsum : ∀ {ws : List ℝ}, (∀ i, i < num → ((ws.take num).map (fun f => f / (2 * Real.pi * (run w0 h).unitFreq))).getD i 0 =
      ws.getD i 0 / (2 * Real.pi * (run w0 h).unitFreq)) → ∑ i ∈ Finset.range m,
        ((ws.take num).map (fun f => f / (2 * Real.pi * (run w0 h).unitFreq))).getD i 0 =
      (∑ i ∈ Finset.range m, ws.getD i 0) / (2 * Real.pi * (run w0 h).unitFreq) := by
    intro ws hws
    rw [Finset.sum_div]
    exact Finset.sum_congr rfl fun i hi => hws i (by have := Finset.mem_range.1 hi; omega)
  rw [hsum g2, hsum g21, hsum g22, ← mul_div_assoc, ← mul_div_assoc, ← add_div]
  have hb : ∀ l : List Act, JunctionCalls c.O l → ∀ i, (c.O.elem i).kind ≠ .jj →
      (run w0 (h ++ l)).vals i = (run w0 h).vals i := by
    intro l hl i hi
    rw [run_append]
    exact (junctionCalls_run hl (run w0 h)).2.2.2 i hi
  have hconc := levels_concave h0 h1 (ham_mix _ _ hbok.1 _ _ _ _ _ _ _ _ hbok.2 (fun key hkey => by
      have hk : (c.O.elem key.el).kind ≠ .jj := by rw [hkeys.indKind key hkey]; exact nofun
      rw [hb l hl _ hk, hb l1 hl1 _ hk, hb l2 hl2 _ hk]
      exact ⟨rfl, rfl⟩) (fun key hkey => hmix _ (hkeys.junKind key hkey)) hH hH1 hH2) hlev hlev1 hlev2 (m := m) (by omega)
  gcongr

end SQ
