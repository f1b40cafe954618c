import Verif.Lemmas.LoopSigns
import Verif.Props.Grounded

/-!
# C134: the flux shares of a circuit written down in two ways
-/

namespace SQ
open Matrix Spec Real

/-- C21, the entries: the loop vector of every loop of a dictionary counts each of its elements at most once, along its edge or
against it. -/
theorem C21_signs {sv : SvdFn} (hsv : SvdSpec sv) (torch : Bool) (fd : FluxDist) (O : Objs) (n : ℕ) (h : LoopId → LoopObj)
    (els : Elements) (hv : ValidElements n els) (a : Acc n) (ha : traverse torch fd O n h els = .ok a) (l : LoopId)
    (hl : l ∈ a.st.loops) (g : Fin (a.st.loopHeap l).kMat.length → ℝ) (hg : getG sv n (a.st.loopHeap l).kMat = .ok g) (b) :
    g b = 0 ∨ g b = 1 ∨ g b = -1 := by
  refine getG_signs hsv hg (fun w hw => ?_) b
  obtain ⟨-, -, h3, -⟩ := C19_loop_membership torch fd O n h els hv a ha
  rw [(h3 l hl).2] at hw
  obtain ⟨u, hu, rfl⟩ := List.mem_map.1 hw
  refine ⟨u.2, ?_, rfl⟩
  unfold usesOf loopUses at hu
  simp only [List.mem_map, List.mem_filter, List.mem_flatMap] at hu
  obtain ⟨x, ⟨⟨q, hq, hx⟩, -⟩, rfl⟩ := hu
  obtain ⟨l', -, rfl⟩ := hx
  have hq2 : q.1 ∈ inductivePlacements O els := by
    have := List.mem_map_of_mem (f := Prod.fst) hq
    simpa [numbered] using this
  obtain ⟨p, hp, i, -, he⟩ : ∃ p ∈ els, ∃ i ∈ p.2, (p.1, i) = q.1 := by
    have := List.mem_of_mem_filter hq2
    unfold placements at this
    simpa only [List.mem_flatMap, List.mem_map] using this
  show q.1.1.1 ≠ q.1.1.2
  rw [← he]
  exact (hv p hp).1

/-- loop vectors and shares of a constructed circuit -/
theorem build_shares {c : CircSpec} {vals : ElemId → ℝ} {b : Build} {n : ℕ} (hs : NoSelfLoops c.els)
    (ho : LoopsListedOnce c.O) (hsv : SvdSpec c.sv) (hn : numNodes c.els = .ok n) (hb : buildCirc c vals = .ok b) :
    ∃ G B0, LoopShares n c.O (inductivePlacements c.O c.els) (fun l => ((usesOf c.O c.els l).map Prod.fst).head?) (fluxCap (c.O.withVals vals) c.fd)
        (firstUses ((loopUses c.O c.els).map Prod.fst)) G B0 ∧
      ∀ flux (i : Fin (inductivePlacements c.O c.els).length), branchPhase b flux i =
        ((firstUses ((loopUses c.O c.els).map Prod.fst)).map fun l => flux l * round5 (B0 i l)).sum := by
  obtain ⟨n', a, B, t, hn', htr, hB, ht, rfl⟩ := buildCirc_stages hb
  obtain rfl : n' = n := Except.ok.inj (hn'.symm.trans hn)
  have hv : ValidElements n' c.els := by
    intro p hp
    have := buildEdges_nodes_le htr p hp
    exact ⟨hs p hp, this.1, this.2⟩
  obtain ⟨-, -, -, -, -, hk⟩ := C18_branch_numbering _ _ _ _ _ _ hv a htr
  obtain ⟨l1, l2, l3, -⟩ := C19_loop_membership _ _ _ _ _ _ hv a htr
  have hce := traverse_cEdge hv htr
  have hcon := traverse_loopsConsistent (O := c.O.withVals vals) hv ho htr
  have hlen : a.st.kMat.length = (inductivePlacements c.O c.els).length := by
    rw [hk, List.length_map]; rfl
  have l1' : a.st.loops = firstUses ((loopUses c.O c.els).map Prod.fst) := l1
  have key : ∃ G B0, LoopShares n' c.O (inductivePlacements c.O c.els) (fun l => ((usesOf c.O c.els l).map Prod.fst).head?) (fluxCap (c.O.withVals vals) c.fd) a.st.loops G B0 ∧
      ∀ (i : ℕ) (hi : i < a.st.kMat.length) (hi' : i < (inductivePlacements c.O c.els).length) (l : Fin a.st.loops.length),
        fluxTable B ⟨i, hi⟩ l = round5 (B0 ⟨i, hi'⟩ (a.st.loops.get l)) := by
    cases B with
    | some B => exact loopShares_of hsv (O := c.O) (els := c.els) ho hv rfl hk hce l2 (fun l hl => (l3 l hl).1) hcon hB
    | none =>
      have h0 : a.st.loops = [] := by
        by_contra hne
        have hne : (a.st.loops.map a.st.loopHeap).length ≠ 0 := by
          rw [List.length_map]
          exact fun h => hne (List.length_eq_zero_iff.1 h)
        unfold fluxMatrix at hB
        simp only at hB
        cases hr : loopRows c.sv n' a.st.kMat.length (a.st.loops.map a.st.loopHeap) with
        | error e => rw [hr] at hB; cases e <;> simp at hB
        | ok gRows =>
          rw [hr] at hB
          simp only [hne, if_false] at hB
          split at hB
          · rename_i heq
            split at heq
            · cases heq
            · split at heq
              · cases heq
              · split at heq <;> cases heq
          · cases hB
          · cases hB
          · cases hB
          · cases hB
      refine ⟨fun _ _ => 0, fun _ _ => 0, ⟨?_, ?_, ?_, ?_, ?_, ?_, ?_⟩, ?_⟩ <;>
        first
        | (intro l hl; rw [h0] at hl; cases hl)
        | (intro i hi hi' l; exact absurd l.2 (by simp [h0]))
  obtain ⟨G, B0, hsh, htab⟩ := key
  refine ⟨G, B0, l1' ▸ hsh, fun flux i => ?_⟩
  rw [← l1']
  unfold branchPhase
  have hi : (i : ℕ) < a.st.kMat.length := by rw [hlen]; exact i.2
  rw [dif_pos hi]
  unfold Build.fluxes
  rw [extFlux_sum]
  show ∑ l : Fin a.st.loops.length, flux (a.st.loops.get l) * fluxTable B ⟨i, hi⟩ l = _
  rw [← List.sum_ofFn]
  congr 1
  refine List.ext_getElem (by simp) fun k h1 h2 => ?_
  rw [List.getElem_ofFn, List.getElem_map, htab i hi i.2]
  rfl

/-- the loops in use are those of the inductive elements -/
theorem mem_usedLoops {O : Objs} (l : LoopId) (els : Elements) : l ∈ firstUses ((loopUses O els).map Prod.fst) ↔
    ∃ i : Fin (inductivePlacements O els).length, l ∈ (O.elem ((inductivePlacements O els).get i).2).loops := by
  rw [mem_firstUses]
  unfold loopUses numbered
  simp only [List.mem_map, List.mem_flatMap]
  constructor
  · rintro ⟨u, ⟨q, hq, l', hl', rfl⟩, rfl⟩
    rw [List.mem_zipIdx_iff_getElem?] at hq
    obtain ⟨hlt, hq⟩ := List.getElem?_eq_some_iff.1 hq
    exact ⟨⟨q.2, hlt⟩, by rw [List.get_eq_getElem, hq]; exact hl'⟩
  · rintro ⟨i, hi⟩
    refine ⟨(l, i, ((inductivePlacements O els).get i).1), ⟨((inductivePlacements O els).get i, i), ?_, l, hi, rfl⟩, rfl⟩
    rw [List.mem_zipIdx_iff_getElem?]
    simp

/-- loops in use do not depend on the notation -/
theorem loops_renumbered {n : ℕ} {σ : Equiv.Perm (Fin n)} {O : Objs} {els els' : Elements} {τ a}
    (hm : Matching σ (inductivePlacements O els) (inductivePlacements O els') τ a) (l : LoopId) :
    l ∈ firstUses ((loopUses O els').map Prod.fst) ↔ l ∈ firstUses ((loopUses O els).map Prod.fst) := by
  rw [mem_usedLoops, mem_usedLoops]
  constructor
  · rintro ⟨i, hi⟩
    exact ⟨τ i, by rw [← hm.elem]; exact hi⟩
  · rintro ⟨i, hi⟩
    exact ⟨τ.symm i, by rw [hm.elem, Equiv.apply_symm_apply]; exact hi⟩

theorem two_valid {c c' : CircSpec} {n : ℕ} {σ : Equiv.Perm (Fin n)} (h : TwoNotations c c' n σ) {vals : ElemId → ℝ} {b : Build}
    (hb : buildCirc c vals = .ok b) : ValidElements n c.els := by
  obtain ⟨n', a, B, t, hn', htr, -⟩ := buildCirc_stages hb
  obtain rfl : n' = n := Except.ok.inj (hn'.symm.trans h.nodes)
  intro p hp
  have := buildEdges_nodes_le htr p hp
  exact ⟨h.noSelf p hp, this.1, this.2⟩

/-- C134: a circuit written down in two ways has the same external phase at every element, up to the direction in which its
edge is written and up to a sign for every loop. The signs depend on the dictionaries alone, not on the values. -/
theorem C134_phases {c c' : CircSpec} {n : ℕ} {σ : Equiv.Perm (Fin n)} (h : TwoNotations c c' n σ) (hv : ValidElements n c.els) :
    ∃ (τ : Fin (inductivePlacements c.O c'.els).length ≃ Fin (inductivePlacements c.O c.els).length)
      (a : Fin (inductivePlacements c.O c'.els).length → ℝ) (ε : LoopId → ℝ),
      Matching σ (inductivePlacements c.O c.els) (inductivePlacements c.O c'.els) τ a ∧ (∀ l, ε l = 1 ∨ ε l = -1) ∧
      ∀ (vals : ElemId → ℝ) (b b' : Build), buildCirc c vals = .ok b → buildCirc c' vals = .ok b' →
        ∀ (flux : LoopId → ℝ) (i : Fin (inductivePlacements c.O c'.els).length),
          branchPhase b' flux i = a i * branchPhase b (fun l => ε l * flux l) (τ i) := by
  obtain ⟨τ, a, hm⟩ := renumbered_matching hv h.renumbered c.O
  by_cases hex : ∃ vals b b', buildCirc c vals = .ok b ∧ buildCirc c' vals = .ok b'
  swap
  · exact ⟨τ, a, fun _ => 1, hm, fun _ => Or.inl rfl, fun vals b b' hb hb' => absurd ⟨vals, b, b', hb, hb'⟩ hex⟩
  obtain ⟨vals0, b0, b0', hb0, hb0'⟩ := hex
  have hL := loops_renumbered hm
  have hsh' : ∀ {vals b'}, buildCirc c' vals = .ok b' → ∃ G B0, LoopShares n c.O (inductivePlacements c.O c'.els) (fun l => ((usesOf c.O c'.els l).map Prod.fst).head?)
      (fluxCap (c.O.withVals vals) c.fd) (firstUses ((loopUses c.O c'.els).map Prod.fst)) G B0 ∧
      ∀ flux (i : Fin (inductivePlacements c.O c'.els).length), branchPhase b' flux i =
        ((firstUses ((loopUses c.O c'.els).map Prod.fst)).map fun l => flux l * round5 (B0 i l)).sum := by
    intro vals b' hb'
    have := build_shares h.noSelf' (by rw [h.objects]; exact h.once) h.svd' h.nodes' hb'
    rw [h.objects, h.fluxDist] at this
    exact this
  obtain ⟨G, B0, hs, -⟩ := build_shares h.noSelf h.once h.svd h.nodes hb0
  obtain ⟨G', B0', hs', -⟩ := hsh' hb0'
  have hε : ∀ l, ∃ ε : ℝ, (ε = 1 ∨ ε = -1) ∧ (l ∈ firstUses ((loopUses c.O c.els).map Prod.fst) → ∀ i, G' l i = ε * a i * G l (τ i)) := by
    intro l
    by_cases hl : l ∈ firstUses ((loopUses c.O c.els).map Prod.fst)
    · obtain ⟨ε, h1, h2⟩ := one_sign hm hs hs' hl ((hL l).2 hl)
      exact ⟨ε, h1, fun _ => h2⟩
    · exact ⟨1, Or.inl rfl, fun h => absurd h hl⟩
  choose ε hε1 hε2 using hε
  refine ⟨τ, a, ε, hm, hε1, fun vals b b' hb hb' flux i => ?_⟩
  obtain ⟨G2, B2, hs2, hp2⟩ := build_shares h.noSelf h.once h.svd h.nodes hb
  obtain ⟨G2', B2', hs2', hp2'⟩ := hsh' hb'
  -- the loop vectors do not depend on the values
  have hGG : ∀ {els : Elements} {cap cap1 : ElemId → ℝ} {L : List LoopId} {G1 B1 G3 B3},
      LoopShares n c.O (inductivePlacements c.O els) (fun l => ((usesOf c.O els l).map Prod.fst).head?) cap L G1 B1 → LoopShares n c.O (inductivePlacements c.O els) (fun l => ((usesOf c.O els l).map Prod.fst).head?) cap1 L G3 B3 →
      ∀ l ∈ L, G3 l = G1 l := by
    intro els cap cap1 L G1 B1 G3 B3 h1 h3 l hl
    obtain ⟨i1, e1, -, u1⟩ := h1.first l hl
    obtain ⟨i3, e3, g3, -⟩ := h3.first l hl
    have hi : i3 = i1 := Fin.ext (Option.some.inj (e3.symm.trans e1))
    subst hi
    exact u1 _ g3 (h3.support l hl) (h3.closes l hl)
  have hG2 : ∀ l ∈ firstUses ((loopUses c.O c.els).map Prod.fst), ∀ i, G2' l i = ε l * a i * G2 l (τ i) := by
    intro l hl i
    rw [hGG hs hs2 l hl, hGG hs' hs2' l ((hL l).2 hl), hε2 l hl]
  have hB2 := fun l hl i => shares_sign hm hs2 hs2' hL hε1 hG2 (l := l) hl i
  rw [hp2' flux i, hp2 _ (τ i)]
  have hperm : (firstUses ((loopUses c.O c'.els).map Prod.fst)).Perm (firstUses ((loopUses c.O c.els).map Prod.fst)) :=
    (List.perm_ext_iff_of_nodup (nodup_firstUses _) (nodup_firstUses _)).2 hL
  rw [(hperm.map _).sum_eq, ← List.sum_map_mul_left]
  congr 1
  refine List.map_congr_left fun l hl => ?_
  rw [hB2 l hl i, mul_assoc, round5_sgn (hε1 l), round5_sgn (hm.sgn i)]
  ring

end SQ
