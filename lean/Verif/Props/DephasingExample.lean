import Verif.Props.DephasingLevels
import Verif.Props.LevelsExample

/-!
# C88: circuits that meet the hypotheses
-/

namespace SQ
open Matrix Complex SQ.Spec Filter Topology

theorem getD_lt {l : List ℝ} {i : ℕ} (h : i < l.length) : l.getD i 0 = l[i] := by
  rw [List.getD_eq_getElem?_getD, List.getElem?_eq_getElem h]; rfl

/-- the spectrum has no repetition -/
theorem simple_of_nodup {ws : List ℝ} (h : ws.Nodup) {m : ℕ} (hm : m < ws.length) : SimpleLevel ws m := by
  refine ⟨hm, fun n hn hne he => hne ?_⟩
  exact (List.Nodup.getElem_inj_iff h).1 (by
    rw [List.getElem?_eq_getElem hn, List.getElem?_eq_getElem hm] at he
    exact Option.some.inj he)

/-- diagonal operators with distinct entries have no degenerate level -/
theorem diagonal_nodup {ι : Type*} [Fintype ι] [DecidableEq ι] {g : ι → ℝ} (hg : Function.Injective g)
    {vs : List (ι → ℂ)} {ws : List ℝ} (hl : Levels (diagonal fun x => (g x : ℂ)) vs ws) : ws.Nodup := by
  rw [List.nodup_iff_injective_get]
  intro i j hij
  by_contra hne
  have hi : (i : ℕ) < vs.length := hl.len ▸ i.isLt
  have hj : (j : ℕ) < vs.length := hl.len ▸ j.isLt
  have e1 := hl.eigen i hi
  have e2 := hl.eigen j hj
  have hij' : ws[(i : ℕ)] = ws[(j : ℕ)] := hij
  have n1 := hl.orth ⟨i, hi⟩ ⟨i, hi⟩
  have n2 := hl.orth ⟨j, hj⟩ ⟨j, hj⟩
  have n3 := hl.orth ⟨i, hi⟩ ⟨j, hj⟩
  rw [if_pos rfl] at n1 n2
  rw [if_neg (by simpa [Fin.ext_iff] using hne)] at n3
  simp only [List.get_eq_getElem] at n1 n2 n3
  have sup : ∀ (v : ι → ℂ) (w : ℝ), (diagonal fun x => (g x : ℂ)) *ᵥ v = (w : ℂ) • v → ∀ x, v x ≠ 0 → g x = w := by
    intro v w h x hx
    have := congrFun h x
    rw [mulVec_diagonal, Pi.smul_apply, smul_eq_mul] at this
    exact_mod_cast mul_right_cancel₀ hx this
  obtain ⟨x, hx⟩ : ∃ x, vs[(i : ℕ)] x ≠ 0 := by
    by_contra h
    push Not at h
    simp [h] at n1
  obtain ⟨y, hy⟩ : ∃ y, vs[(j : ℕ)] y ≠ 0 := by
    by_contra h
    push Not at h
    simp [h] at n2
  have gx := sup _ _ e1 x hx
  have gy := sup _ _ e2 y hy
  have hxy : x = y := hg (by rw [gx, gy, hij'])
  subst hxy
  rw [Finset.sum_eq_single x] at n3
  · rcases mul_eq_zero.1 n3 with h | h
    · exact hx (by simpa using h)
    · exact hy h
  · intro z _ hz
    have : vs[(j : ℕ)] z = 0 := by
      by_contra h
      exact hz (hg (by rw [sup _ _ e2 z h, gy]))
    rw [this, mul_zero]
  · simp

/-- a spectrum without repetition stays so under small changes -/
theorem nodup_near {ι : Type*} [Fintype ι] [DecidableEq ι] {H : ℝ → Matrix ι ι ℂ} {dH : Matrix ι ι ℂ} {x : ℝ}
    (hherm : ∀ t, (H t).IsHermitian) (hd : HasDerivOp H dH x) (vs : ℝ → List (ι → ℂ)) (ws : ℝ → List ℝ)
    (hl : ∀ t, Levels (H t) (vs t) (ws t)) (hn : (ws x).Nodup) : ∀ᶠ t in 𝓝 x, (ws t).Nodup := by
  have hlen : ∀ t, (ws t).length = Fintype.card ι := fun t => (hl t).len.trans (hl t).card
  have hcont : ∀ m, m < Fintype.card ι → ContinuousAt (fun t => (ws t).getD m 0) x := by
    intro m hm
    have hv : m < (vs x).length := by rw [(hl x).card]; exact hm
    obtain ⟨r, -, hr⟩ := C90_level (Eventually.of_forall hherm) hd vs ws (Eventually.of_forall hl) m
      (simple_of_nodup hn (by rw [hlen]; exact hm)) (vs x) (vs x)[m] (List.getElem?_eq_getElem hv) (by
        have := (hl x).orth ⟨m, hv⟩ ⟨m, hv⟩
        rw [if_pos rfl] at this
        exact this) (by
        have := (hl x).eigen m hv
        rw [this, List.getD_eq_getElem?_getD, List.getElem?_eq_getElem (by rw [hlen]; exact hm)]
        rfl)
    exact hr.continuousAt
  have hall : ∀ p : Fin (Fintype.card ι) × Fin (Fintype.card ι), ∀ᶠ t in 𝓝 x, p.1 ≠ p.2 →
      (ws t).getD p.1 0 ≠ (ws t).getD p.2 0 := by
    rintro ⟨i, j⟩
    by_cases hij : i = j
    · exact Eventually.of_forall fun t h => absurd hij h
    · have hne : (ws x).getD i 0 ≠ (ws x).getD j 0 := by
        have hi : (i : ℕ) < (ws x).length := by rw [hlen]; exact i.isLt
        have hj : (j : ℕ) < (ws x).length := by rw [hlen]; exact j.isLt
        rw [getD_lt hi, getD_lt hj]
        intro h
        exact hij (Fin.ext ((List.Nodup.getElem_inj_iff hn).1 h))
      filter_upwards [(hcont i i.isLt).ne_iff_eventually_ne (hcont j j.isLt) |>.1 hne] with t ht _
      exact ht
  filter_upwards [eventually_all.2 hall] with t ht
  rw [List.nodup_iff_injective_get]
  intro i j hij
  by_contra hne
  have h := ht (⟨i, by rw [← hlen t]; exact i.isLt⟩, ⟨j, by rw [← hlen t]; exact j.isLt⟩) (by
    intro h
    rw [Fin.mk.injEq] at h
    exact hne (Fin.ext h))
  simp only at h
  rw [getD_lt i.isLt, getD_lt j.isLt] at h
  exact h hij

/-- with a spectrum without repetition every level has its eigenvector -/
theorem isLevel_of_nodup {ι : Type*} [Fintype ι] {H : Matrix ι ι ℂ} {vs : List (ι → ℂ)} {ws : List ℝ}
    (hl : Levels H vs ws) (hn : ws.Nodup) {m : ℕ} {psi : ι → ℂ} (hp : vs[m]? = some psi) : IsLevel H m psi := by
  obtain ⟨hm, rfl⟩ := List.getElem?_eq_some_iff.1 hp
  have hw : m < ws.length := by rw [hl.len]; exact hm
  refine ⟨?_, vs, ws, hl, simple_of_nodup hn hw, ?_⟩
  · have := hl.orth ⟨m, hm⟩ ⟨m, hm⟩
    rw [if_pos rfl] at this
    exact this
  · rw [hl.eigen m hm, getD_lt hw]

/-- A fluxonium truncated to five levels, with a small Josephson energy and any flux, meets the hypotheses of
C88. -/
theorem C88_example (flux : LoopId → ℝ) : ∃ (c : CircSpec) (v0 : ElemId → ℝ) (bd : Build) (val : ElemId → ℝ) (e : ElemId)
    (H : Op (fun _ : Fin bd.M.keep.length => 5)) (ev : List (Idx (fun _ : Fin bd.M.keep.length => 5) → ℂ))
    (psi psi' : Idx (fun _ : Fin bd.M.keep.length => 5) → ℂ),
    GoodCircuit c v0 ∧ buildCirc c v0 = .ok bd ∧ 0 < val 2 ∧ bd.loops.length = 1 ∧ (bd.juns.map (·.el)) = [2] ∧
    (∀ l, (∀ k ∈ bd.inds, bd.B k.bId l = 0) ∧ ∀ k ∈ bd.juns, bd.B k.bId l = -1) ∧
    (∀ k ∈ bd.inds, k.el ≠ e) ∧ (∀ k ∈ bd.juns, k.el ≠ e) ∧
    fullHamiltonian bd.C bd.M _ (fun _ => 0) val (extFlux bd.B fun l => flux (bd.loops.get l)) bd.inds bd.juns = .ok H ∧
    ev[0]? = some psi ∧ ev[1]? = some psi' ∧ IsLevel H 0 psi ∧ IsLevel H 1 psi' := by
  choose lib hlib using exists_lib
  choose argmax hm using exists_argmax
  obtain ⟨argsort, -⟩ := exists_argsort
  set v0 : ElemId → ℝ := fun i => if i = 0 then 2 else if i = 2 then 0 else 1 with hv0
  have hL : (0 : ℝ) < v0 0 := by norm_num [hv0]
  have h1 : (0 : ℝ) < v0 1 := by norm_num [hv0]
  have h3 : (0 : ℝ) < v0 3 := by norm_num [hv0]
  have hz : 1e-11 ≤ lcPhaseZp (v0 0) (v0 1 + v0 3) := fx_example_values.2.2.2
  have h20 : v0 2 = 0 := by norm_num [hv0]
  obtain ⟨b, hb, hk, hlo, s, hs, hH⟩ := C80_fluxonium false (fun _ => LoopObj.init 0 0) lib hlib exSv exSv_spec argsort
    argmax hm (fun _ _ => 0) v0 hL h1 h3 hz
  have hgood := fx_good false (fun _ => LoopObj.init 0 0) hlib exSv argsort hm (fun _ _ => 0) hL h1 h3
  obtain ⟨-, -, -, hB, -⟩ := fx_facts hlib exSv_spec hm hL h1 h3 hz hb
  obtain ⟨hin, hju, hBk⟩ : (b.inds.map (·.el)) = [0] ∧ (b.juns.map (·.el)) = [2] ∧
      ∀ l, (∀ k ∈ b.inds, b.B k.bId l = 0) ∧ ∀ k ∈ b.juns, b.B k.bId l = -1 := by
    obtain ⟨-, hin, hju, -⟩ := build_pairs hgood.noSelf hb
    obtain ⟨ki, hki, hki'⟩ := singleton_keys (p := (0, 0)) (hin.trans rfl)
    obtain ⟨kj, hkj, hkj'⟩ := singleton_keys (p := (1, 2)) (hju.trans rfl)
    rw [hki, hkj]
    refine ⟨congrArg (fun x => [x]) (congrArg Prod.snd hki'), congrArg (fun x => [x]) (congrArg Prod.snd hkj'), ?_⟩
    intro l
    have e1 : (ki.bId : ℕ) = 0 := congrArg Prod.fst hki'
    have e2 : (kj.bId : ℕ) = 1 := congrArg Prod.fst hkj'
    constructor
    · intro k hk
      obtain rfl := List.mem_singleton.1 hk
      rw [hB, if_pos e1]
    · intro k hk
      obtain rfl := List.mem_singleton.1 hk
      rw [hB, if_neg (by rw [e2]; decide)]
  have hin' : ∀ k ∈ b.inds, k.el = 0 := fun k hk => by
    have := List.mem_map_of_mem (f := (·.el)) hk
    rw [hin] at this
    simpa using this
  have hju' : ∀ k ∈ b.juns, k.el = 2 := fun k hk => by
    have := List.mem_map_of_mem (f := (·.el)) hk
    rw [hju] at this
    simpa using this
  obtain ⟨hb1, hb2⟩ := build_valid hgood.noSelf hb
  obtain ⟨G, hG, hd⟩ := C57_junction b.C b.M hb1 (buildMem b.M.data (fun _ => 5) (fun _ => 0))
    (lcHamil b.M.data (buildMem b.M.data (fun _ => 5) (fun _ => 0))) v0 b.B
    (fun l => flux (b.loops.get l)) (fun _ => 0) b.inds b.juns hb2 2 (fun k hk => by rw [hin' k hk]; decide)
  have hGh : ∀ t, (G t).IsHermitian := by
    intro t
    obtain ⟨X, hX, hXh⟩ := C40_hermitian b.C b.M hb1 (fun _ => 5) (fun _ => 0) (Function.update v0 2 t)
      (extFlux b.B fun l => flux (b.loops.get l)) b.inds b.juns hb2
    rw [← Except.ok.inj (hX.symm.trans (hG t))]; exact hXh
  have i : Fin b.M.keep.length := ⟨0, by omega⟩
  have hG0 : G 0 = ((lcFrequency (v0 0) (v0 1 + v0 3) : ℝ) : ℂ) • (onMode (fun _ => 5) i (qCreate 5) *
      onMode (fun _ => 5) i (qDestroy 5)) := by
    have h0 := hH flux (fun _ => 5) (fun _ => 0) i
    have h2 := hG 0
    rw [show Function.update v0 2 0 = v0 by rw [← h20, Function.update_eq_self]] at h2
    have h4 := Except.ok.inj (h2.symm.trans h0)
    rw [h4]
    unfold fluxoniumHamiltonian
    simp only [h20, Complex.ofReal_zero, zero_smul, sub_zero]
  have hom : 0 < lcFrequency (v0 0) (v0 1 + v0 3) := by
    unfold lcFrequency
    exact one_div_pos.2 (Real.sqrt_pos.2 (mul_pos hL (add_pos h1 h3)))
  obtain ⟨vs0, hl0⟩ := osc_levels hk (fun _ => 5) i _ hom.le
  choose vs ws hl using fun t => levels_exists (hGh t)
  have hn0 : (ws 0).Nodup := by
    have := hl 0
    rw [hG0] at this
    rw [levels_unique this hl0]
    refine List.Nodup.map ?_ List.nodup_range
    intro a c h
    have : (a : ℝ) = c := mul_left_cancel₀ hom.ne' h
    exact_mod_cast this
  rw [h20] at hd
  have hev := nodup_near hGh hd vs ws hl hn0
  obtain ⟨t, ht, htn⟩ := (((hev.filter_mono nhdsWithin_le_nhds).and self_mem_nhdsWithin :
    ∀ᶠ t in 𝓝[>] (0 : ℝ), _)).exists
  have hlen : (vs t).length = 5 := by
    have : ∀ k, k = 1 → Fintype.card (Idx (fun _ : Fin k => 5)) = 5 := by rintro _ rfl; rfl
    rw [(hl t).card]
    exact this _ hk
  have hlt0 : 0 < (vs t).length := by omega
  have hlt1 : 1 < (vs t).length := by omega
  refine ⟨_, v0, b, Function.update v0 2 t, 4, G t, vs t, (vs t)[0], (vs t)[1], hgood, hb, ?_, ?_, hju, hBk, ?_, ?_, hG t,
    List.getElem?_eq_getElem hlt0, List.getElem?_eq_getElem hlt1,
    isLevel_of_nodup (hl t) ht (List.getElem?_eq_getElem hlt0), isLevel_of_nodup (hl t) ht (List.getElem?_eq_getElem hlt1)⟩
  · rw [Function.update_self]; exact htn
  · rw [hlo]; rfl
  · exact fun k hk => by rw [hin' k hk]; decide
  · exact fun k hk => by rw [hju' k hk]; decide

end SQ
