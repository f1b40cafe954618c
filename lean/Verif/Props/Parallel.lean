import Verif.Lemmas.LoopFree
import Verif.Props.TransmonExample

/-!
# C108: elements in parallel
-/

namespace SQ
open Matrix Spec

theorem numNodes_congr {els els' : Elements} {R : Edge × List ElemId → Edge × List ElemId → Prop}
    (h : List.Forall₂ R els els') (hR : ∀ p q, R p q → q.1 = p.1) : numNodes els' = numNodes els := by
  have : els'.map Prod.fst = els.map Prod.fst := by
    induction h with
    | nil => rfl
    | cons hpq _ ih => rw [List.map_cons, List.map_cons, ih, hR _ _ hpq]
  unfold numNodes
  rw [this]

theorem same_parallel {fd : FluxDist} {O O' : Objs} {v v' : ElemId → ℝ} {els els' : Elements}
    (h : List.Forall₂ (SameUpToCapacitors fd O O' v v') els els') :
    List.Forall₂ (fun p q : Edge × List ElemId => q.1 = p.1 ∧
      branchesOf (O'.withVals v') q.2 = branchesOf (O.withVals v) p.2 ∧
      (∀ i ∈ branchesOf (O.withVals v) p.2, ((O'.withVals v').elem i).kind = ((O.withVals v).elem i).kind ∧
        ((O'.withVals v').elem i).loops = ((O.withVals v).elem i).loops ∧
        ((O'.withVals v').elem i).value = ((O.withVals v).elem i).value ∧
        capForFluxDist (O'.withVals v') fd ((O'.withVals v').elem i) =
          capForFluxDist (O.withVals v) fd ((O.withVals v).elem i)) ∧
      effCap (O'.withVals v') q.2 = effCap (O.withVals v) p.2) els els' := by
  refine h.imp fun p q hpq => ⟨hpq.edge, hpq.branches, fun i hi => ?_, ?_⟩
  · obtain ⟨h1, h2, h3⟩ := hpq.same i hi
    refine ⟨h1, h2, h3, ?_⟩
    cases fd with
    | all => exact hpq.attached rfl i hi
    | junctions => unfold capForFluxDist; simp only [Objs.withVals, h1]; congr
    | inductors => unfold capForFluxDist; simp only [Objs.withVals, h1]; congr
  · rw [effCap_eq, effCap_eq]; exact hpq.total

/-- C108, capacitors: capacitors enter a circuit only through the total capacitance of every edge. For every dictionary,
replacing the capacitors of the edges by others — any number, standing alone or attached to the inductors and junctions —
of the same total on every edge leaves the whole constructed circuit (or the exception) the same. -/
theorem C108_capacitors (c : CircSpec) (O' : Objs) (els' : Elements) (v v' : ElemId → ℝ)
    (h : List.Forall₂ (SameUpToCapacitors c.fd c.O O' v v') c.els els') :
    buildCirc { c with O := O', els := els' } v' = buildCirc c v ∧
    ∀ n, rebuildCirc { c with O := O', els := els' } n v' = rebuildCirc c n v := by
  constructor
  · unfold buildCirc
    simp only
    rw [numNodes_congr h (fun _ _ hpq => hpq.edge)]
    cases numNodes c.els with
    | error e => rfl
    | ok n => exact buildWith_parallel c O' els' n v v' (same_parallel h) _
  · intro n
    exact buildWith_parallel c O' els' n v v' (same_parallel h) _

theorem indTerms_congr {n b nJ : ℕ} (C : Matrix (Fin n) (Fin n) ℝ) (M : Modes nJ n)
    {m : Fin M.keep.length → ℕ} (mem : OpMem nJ m) {v v' : ElemId → ℝ} (phi : Fin b → ℝ) (inds : List (IndKey b))
    (h : ∀ key ∈ inds, v' key.el = v key.el) (acc : Op m) :
    indTerms C M mem v' phi inds acc = indTerms C M mem v phi inds acc := by
  induction inds generalizing acc with
  | nil => rfl
  | cons key ks ih =>
    simp only [indTerms, h key (by simp)]
    cases couplingOp "inductive" C M mem.Q mem.phi key.edge with
    | error e => rfl
    | ok op => exact ih (fun k hk => h k (by simp [hk])) _

theorem fullHamiltonian_congr {n b nJ : ℕ} (C : Matrix (Fin n) (Fin n) ℝ) (M : Modes nJ n)
    (m : Fin M.keep.length → ℕ) (ng : Fin M.keep.length → ℝ) {v v' : ElemId → ℝ} (phi : Fin b → ℝ)
    (inds : List (IndKey b)) (juns : List (JunKey b nJ)) (hi : ∀ key ∈ inds, v' key.el = v key.el)
    (hj : ∀ key ∈ juns, v' key.el = v key.el) :
    fullHamiltonian C M m ng v' phi inds juns = fullHamiltonian C M m ng v phi inds juns := by
  unfold fullHamiltonian hamiltonianOf indHamil
  simp only [indTerms_congr C M (buildMem M.data m ng) phi inds hi]
  cases indTerms C M (buildMem M.data m ng) v phi inds 0 with
  | error e => rfl
  | ok H =>
    simp only [junTerms_eq]
    have : (juns.map (fun key => (-(v' key.el : ℂ)) • cosOp (buildMem M.data m ng) key.wId (phi key.bId))) =
        juns.map (fun key => (-(v key.el : ℂ)) • cosOp (buildMem M.data m ng) key.wId (phi key.bId)) :=
      List.map_congr_left fun key hk => by rw [hj key hk]
    rw [this]

/-- the element of every key is placed somewhere -/
theorem build_el_mem {c : CircSpec} {v : ElemId → ℝ} {b : Build} (hs : NoSelfLoops c.els) (hb : buildCirc c v = .ok b) :
    (∀ key ∈ b.inds, ∃ p ∈ c.els, key.el ∈ branchesOf c.O p.2) ∧
    (∀ key ∈ b.juns, ∃ p ∈ c.els, key.el ∈ branchesOf c.O p.2) := by
  obtain ⟨-, h1, h2, -⟩ := build_pairs hs hb
  have key : ∀ (k : Kind), k ≠ .cap → ∀ x : ℕ × ElemId,
      x ∈ ((numbered c.O c.els).filter (fun q => decide ((c.O.elem q.1.2).kind = k))).map (fun q => (q.2, q.1.2)) →
      ∃ p ∈ c.els, x.2 ∈ branchesOf c.O p.2 := by
    intro k hk x hx
    obtain ⟨q, hq, rfl⟩ := List.mem_map.1 hx
    obtain ⟨hq1, hq2⟩ := List.mem_filter.1 hq
    have hq3 : q.1 ∈ inductivePlacements c.O c.els := by
      have := List.mem_map_of_mem (f := Prod.fst) hq1
      unfold numbered at this
      rwa [List.zipIdx_map_fst] at this
    obtain ⟨hq4, hq5⟩ := List.mem_filter.1 hq3
    obtain ⟨p, hp, hq6⟩ := List.mem_flatMap.1 hq4
    obtain ⟨i, hi, hq7⟩ := List.mem_map.1 hq6
    refine ⟨p, hp, List.mem_filter.2 ⟨?_, hq5⟩⟩
    rw [← hq7]; exact hi
  constructor
  · intro k hk
    exact key .ind (by simp) ((k.bId : ℕ), k.el) (h1 ▸ List.mem_map.2 ⟨k, hk, rfl⟩)
  · intro k hk
    exact key .jj (by simp) ((k.bId : ℕ), k.el) (h2 ▸ List.mem_map.2 ⟨k, hk, rfl⟩)

/-- C108, capacitors, what a user sees: frequencies of the modes and Hamiltonian stay the same. -/
theorem C108_observed (c : CircSpec) (hs : NoSelfLoops c.els) (O' : Objs) (els' : Elements) (v v' : ElemId → ℝ)
    (h : List.Forall₂ (SameUpToCapacitors c.fd c.O O' v v') c.els els') (m : ℕ → ℕ) (ng : ℕ → ℝ) (flux : LoopId → ℝ) :
    observed { c with O := O', els := els' } v' m ng flux = observed c v m ng flux := by
  unfold observed
  rw [(C108_capacitors c O' els' v v' h).1]
  cases hb : buildCirc c v with
  | error e => rfl
  | ok b =>
    simp only
    have hv : ∀ i, (∃ p ∈ c.els, i ∈ branchesOf c.O p.2) → v' i = v i := by
      rintro i ⟨p, hp, hi⟩
      clear hs hb
      generalize c.els = els at h hp
      induction h with
      | nil => simp at hp
      | cons hpq _ ih =>
        rcases List.mem_cons.1 hp with rfl | hp
        · exact (hpq.same i hi).2.2
        · exact ih hp
    obtain ⟨h1, h2⟩ := build_el_mem hs hb
    rw [fullHamiltonian_congr b.C b.M _ _ (b.fluxes flux) b.inds b.juns (fun key hk => hv _ (h1 key hk))
      (fun key hk => hv _ (h2 key hk))]

theorem loopfree_ham {n nJ nB nB' : ℕ} (C : Matrix (Fin n) (Fin n) ℝ) (M : Modes nJ n) (hk : M.keep.length ≤ n)
    (m : Fin M.keep.length → ℕ) (ng : Fin M.keep.length → ℝ) {v v' : ElemId → ℝ} (phi : Fin nB → ℝ) (phi' : Fin nB' → ℝ)
    (hp : ∀ i, phi i = 0) (hp' : ∀ i, phi' i = 0)
    {inds : List (IndKey nB)} {juns : List (JunKey nB nJ)} {inds' : List (IndKey nB')} {juns' : List (JunKey nB' nJ)}
    (hv : ∀ key ∈ inds, ValidEdge n key.edge) (hv' : ∀ key ∈ inds', ValidEdge n key.edge)
    (hj : ∀ f : ℕ → Op m, (juns'.map (fun k => (v' k.el : ℂ) • f k.wId)).sum = (juns.map (fun k => (v k.el : ℂ) • f k.wId)).sum) :
    fullHamiltonian C M m ng v' phi' inds' juns' = fullHamiltonian C M m ng v phi inds juns := by
  unfold fullHamiltonian
  simp only
  rw [hamiltonianOf_eq C M hk _ _ v' phi' inds' juns' hv', hamiltonianOf_eq C M hk _ _ v phi inds juns hv]
  have e1 : ∀ {nb : ℕ} (w : ElemId → ℝ) (ph : Fin nb → ℝ) (l : List (IndKey nb)), (∀ i, ph i = 0) →
      (l.map (fun key => ((1 / w key.el * ph key.bId * (Phi0 / 2 / Real.pi) / √hbar : ℝ) : ℂ) •
        indOpOf C M (buildMem M.data m ng) key)).sum = 0 := by
    intro nb w ph l h0
    apply List.sum_eq_zero
    intro x hx
    obtain ⟨key, -, rfl⟩ := List.mem_map.1 hx
    simp [h0]
  rw [e1 v' phi' inds' hp', e1 v phi inds hp]
  have e2 : ∀ {nb : ℕ} (w : ElemId → ℝ) (ph : Fin nb → ℝ) (l : List (JunKey nb nJ)), (∀ i, ph i = 0) →
      (l.map (fun key => (-(w key.el : ℂ)) • cosOp (buildMem M.data m ng) key.wId (ph key.bId))).sum =
      -(l.map (fun key => (w key.el : ℂ) • (fun i : ℕ => if h : i < nJ then
        cosOp (buildMem M.data m ng) ⟨i, h⟩ 0 else 0) key.wId)).sum := by
    intro nb w ph l h0
    induction l with
    | nil => simp
    | cons key l ih =>
      rw [List.map_cons, List.map_cons, List.sum_cons, List.sum_cons, ih, neg_add]
      simp [h0, neg_smul]
  rw [e2 v' phi' juns' hp', e2 v phi juns hp]
  have e3 := hj (fun i : ℕ => if h : i < nJ then cosOp (buildMem M.data m ng) ⟨i, h⟩ 0 else 0)
  simp only at e3 ⊢
  rw [e3]

theorem fluxes_zero (b : Build) (h : b.B = 0) (flux : LoopId → ℝ) (i : Fin b.nB) : b.fluxes flux i = 0 := by
  unfold Build.fluxes
  rw [extFlux_sum, h]
  simp

/-- C108, loop-free circuits: without loops, the elements of an edge matter only through their total capacitance, inverse
inductance and Josephson energy. Modes and Hamiltonian of a circuit stay the same if parallel elements are replaced by
others with the same totals. -/
theorem C108_parallel (c : CircSpec) (hs : NoSelfLoops c.els) (O' : Objs) (els' : Elements) (v v' : ElemId → ℝ)
    (h : List.Forall₂ (SameTotals c.O O' v v') c.els els') (m : ℕ → ℕ) (ng : ℕ → ℝ) (flux flux' : LoopId → ℝ) :
    observed { c with O := O', els := els' } v' m ng flux' = observed c v m ng flux := by
  have hs' : NoSelfLoops els' := by
    clear m ng
    generalize c.els = els at h hs
    induction h with
    | nil => intro p hp; simp at hp
    | cons hpq _ ih =>
      intro p hp
      rcases List.mem_cons.1 hp with rfl | hp
      · rw [hpq.edge]; exact hs _ (by simp)
      · exact ih (fun p hp => hs p (by simp [hp])) p hp
  unfold observed
  have hB : ∀ b, buildCirc c v = .ok b → BuildOK b := fun b hb => build_valid hs hb
  have hB' : ∀ b, buildCirc { c with O := O', els := els' } v' = .ok b → BuildOK b := fun b hb =>
    build_valid (c := { c with O := O', els := els' }) hs' hb
  unfold buildCirc at hB hB' ⊢
  simp only at hB' ⊢
  rw [numNodes_congr h (fun _ _ hpq => hpq.edge)] at hB' ⊢
  generalize numNodes c.els = N0 at hB hB' ⊢
  cases N0 with
  | error e => rfl
  | ok n =>
    simp only at hB hB' ⊢
    rw [buildWith_eq] at hB hB' ⊢
    rw [buildWith_eq]
    have hT := fun {V : Type} [AddCommGroup V] [Module ℂ V] (f : ℕ → V) =>
      buildEdges_loopfree (n := n) c.torch c.fd h f (a := initAcc n c.h) (a' := initAcc n c.h)
        ⟨rfl, rfl, rfl, rfl, rfl, rfl, rfl, rfl⟩
    change ∀ {V : Type} [AddCommGroup V] [Module ℂ V] (f : ℕ → V),
      (∃ e, traverse c.torch c.fd (c.O.withVals v) n c.h c.els = .error e ∧
        traverse c.torch c.fd (O'.withVals v') n c.h els' = .error e) ∨
      ∃ b b', traverse c.torch c.fd (c.O.withVals v) n c.h c.els = .ok b ∧
        traverse c.torch c.fd (O'.withVals v') n c.h els' = .ok b' ∧ LoopFreeRel v v' f b b' at hT
    rcases hT (V := ℂ) (fun _ => 0) with ⟨e, h1, h2⟩ | ⟨a, a', h1, h2, hr⟩
    · simp only [h1, h2]
    · have hv : ValidElements n c.els := fun p hp =>
        ⟨hs p hp, (buildEdges_nodes_le h1 p hp).1, (buildEdges_nodes_le h1 p hp).2⟩
      have hv' : ValidElements n els' := fun p hp =>
        ⟨hs' p hp, (buildEdges_nodes_le h2 p hp).1, (buildEdges_nodes_le h2 p hp).2⟩
      have hlt := junKeys_lt hv h1
      have hlt' := junKeys_lt hv' h2
      have hj : ∀ {V : Type} [AddCommGroup V] [Module ℂ V] (f : ℕ → V),
          junSum v' f a'.st.junKeys = junSum v f a.st.junKeys := by
        intro V _ _ f
        rcases hT f with ⟨e, h3, h4⟩ | ⟨b, b', h3, h4, hr'⟩
        · rw [h1] at h3; cases h3
        · rw [h1] at h3; rw [h2] at h4
          cases h3; cases h4
          exact hr'.jun
      simp only [h1, h2] at hB hB' ⊢
      unfold afterTraverse at hB hB' ⊢
      rw [hr.loops] at hB ⊢
      rw [hr.loops', hr.c, hr.l, hr.w, hr.num] at hB' ⊢
      rw [hr.w] at hlt'
      revert hj; revert hlt'; revert hlt; revert hB'; revert hB
      generalize a'.st.junKeys = J'
      generalize a'.st.indKeys = I'
      generalize a'.st.kMat = K'
      generalize a'.st.cEdge = E'
      generalize a'.st.loopHeap = P'
      generalize a.st.junKeys = J
      generalize a.st.indKeys = I
      generalize a.st.kMat = K
      generalize a.st.cEdge = E
      generalize a.st.loopHeap = P
      generalize a.cMat = C
      generalize a.lMat = L
      generalize a.wMat = W
      generalize a.numJunWithoutInd = N
      intro hB hB' hlt hlt' hj
      rw [afterFields_nil] at hB hB' ⊢
      rw [afterFields_nil]
      simp only at hB hB' ⊢
      by_cases hd : C.det = 0
      · simp only [if_pos hd]
      · simp only [if_neg hd] at hB hB' ⊢
        cases ht : transformHamil (c.lib n) c.sv c.argsort (c.argmax _) c.draws N C L (arrayOf n W) c.fuel
            (initTrans C L (arrayOf n W)) with
        | none => rfl
        | some r =>
          cases r with
          | error e => rfl
          | ok t =>
            rw [ht] at hB hB'
            obtain ⟨k1, k2⟩ := hB _ rfl
            obtain ⟨k3, k4⟩ := hB' _ rfl
            simp only at k1 k2 k3 k4 ⊢
            rw [loopfree_ham C (finishModes c.torch t) k1 (fun i => m i) (fun i => ng i) (v := v) (v' := v') _ _
              (fluxes_zero ⟨n, W.length, K.length, C, [], 0, indKeysOf _ I, junKeysOf _ _ J, finishModes c.torch t⟩ rfl flux)
              (fluxes_zero ⟨n, W.length, K'.length, C, [], 0, indKeysOf _ I', junKeysOf _ _ J', finishModes c.torch t⟩
                rfl flux') k2 k4
              (fun f => by rw [junKeysOf_sum _ _ _ hlt', junKeysOf_sum _ _ _ hlt, hj])]
            generalize fullHamiltonian C (finishModes c.torch t) (fun i => m i) (fun i => ng i) v _
              (indKeysOf K.length I) (junKeysOf K.length W.length J) = X
            cases X <;> rfl

/-- C108, two capacitors in parallel act like one with the sum of their capacitances, on any edge of any circuit. -/
theorem C108_split_capacitor (c : CircSpec) (hs : NoSelfLoops c.els) (v : ElemId → ℝ) {pre post : Elements} {e : Edge}
    {x y : List ElemId} {i j k : ElemId} (hels : c.els = pre ++ (e, x ++ i :: y) :: post)
    (hi : (c.O.elem i).kind = .cap) (hj : (c.O.elem j).kind = .cap) (hk : (c.O.elem k).kind = .cap)
    (hv : v i = v j + v k) (m : ℕ → ℕ) (ng : ℕ → ℝ) (flux : LoopId → ℝ) :
    observed { c with els := pre ++ (e, x ++ j :: k :: y) :: post } v m ng flux = observed c v m ng flux := by
  have hrefl : ∀ p, SameUpToCapacitors c.fd c.O c.O v v p p := fun p =>
    ⟨rfl, rfl, fun _ _ => ⟨rfl, rfl, rfl⟩, fun _ _ _ => rfl, rfl⟩
  refine C108_observed c hs c.O _ v v ?_ m ng flux
  rw [hels]
  refine List.rel_append (List.forall₂_same.2 fun p _ => hrefl p) (List.Forall₂.cons ?_ (List.forall₂_same.2 fun p _ => hrefl p))
  have hb : branchesOf c.O (x ++ j :: k :: y) = branchesOf c.O (x ++ i :: y) := by
    simp [branchesOf, List.filter_append, hi, hj, hk]
  refine ⟨rfl, hb, fun _ _ => ⟨rfl, rfl, rfl⟩, fun _ _ _ => rfl, ?_⟩
  have pc : ∀ a, (c.O.elem a).kind = .cap → placedCap (c.O.withVals v) a = v a := by
    intro a ha; simp [placedCap, Objs.withVals, ha]
  simp only [List.map_append, List.map_cons, List.sum_append, List.sum_cons, pc i hi, pc j hj, pc k hk, hv]
  ring

/-- C108, two junctions in parallel act, in a circuit without loops, like one junction with the sum of their Josephson
energies and of their capacitances. -/
theorem C108_merge_junctions (c : CircSpec) (hs : NoSelfLoops c.els) (v : ElemId → ℝ) {pre post : Elements} {e : Edge}
    {x y : List ElemId} {i j k : ElemId} (hels : c.els = pre ++ (e, x ++ i :: y) :: post)
    (hl : ∀ q ∈ placements c.els, (c.O.elem q.2).kind ≠ .cap → (c.O.elem q.2).loops = [])
    (hz : ∀ q ∈ placements c.els, (c.O.elem q.2).kind = .ind → v q.2 ≠ 0)
    (hi : (c.O.elem i).kind = .jj) (hj : (c.O.elem j).kind = .jj) (hk : (c.O.elem k).kind = .jj)
    (hlj : (c.O.elem j).loops = []) (hlk : (c.O.elem k).loops = [])
    (hv : v i = v j + v k) (hc : v (c.O.elem i).cap = v (c.O.elem j).cap + v (c.O.elem k).cap)
    (m : ℕ → ℕ) (ng : ℕ → ℝ) (flux : LoopId → ℝ) :
    observed { c with els := pre ++ (e, x ++ j :: k :: y) :: post } v m ng flux = observed c v m ng flux := by
  have hpl : ∀ p ∈ c.els, ∀ a ∈ p.2, (p.1, a) ∈ placements c.els := fun p hp a ha =>
    List.mem_flatMap.2 ⟨p, hp, List.mem_map.2 ⟨a, ha, rfl⟩⟩
  have hL : ∀ p ∈ c.els, ∀ a ∈ p.2, (c.O.elem a).kind ≠ .cap → (c.O.elem a).loops = [] := fun p hp a ha =>
    hl _ (hpl p hp a ha)
  have hZ : ∀ p ∈ c.els, ∀ a ∈ p.2, (c.O.elem a).kind = .ind → v a ≠ 0 := fun p hp a ha =>
    hz _ (hpl p hp a ha)
  have hrefl : ∀ p ∈ c.els, SameTotals c.O c.O v v p p := fun p hp =>
    ⟨rfl, rfl, rfl, rfl, Iff.rfl, Iff.rfl, hL p hp, hL p hp, hZ p hp, hZ p hp⟩
  refine C108_parallel c hs c.O _ v v ?_ m ng flux flux
  have hmem : (e, x ++ i :: y) ∈ c.els := by rw [hels]; simp
  have hpre : ∀ p ∈ pre, p ∈ c.els := by intro p hp; rw [hels]; simp [hp]
  have hpost : ∀ p ∈ post, p ∈ c.els := by intro p hp; rw [hels]; simp [hp]
  rw [hels]
  refine List.rel_append (List.forall₂_same.2 fun p hp => hrefl p (hpre p hp))
    (List.Forall₂.cons ?_ (List.forall₂_same.2 fun p hp => hrefl p (hpost p hp)))
  have hL' := hL _ hmem
  have hZ' := hZ _ hmem
  have sub : ∀ a ∈ x ++ j :: k :: y, a = j ∨ a = k ∨ a ∈ x ++ i :: y := by
    intro a ha; simp at ha ⊢; tauto
  refine ⟨rfl, ?_, ?_, ?_, ?_, ?_, hL', ?_, hZ', ?_⟩
  · have pc : ∀ a, (c.O.elem a).kind = .jj → placedCap (c.O.withVals v) a = v (c.O.elem a).cap := by
      intro a ha; simp [placedCap, Objs.withVals, ha]
    simp only [List.map_append, List.map_cons, List.sum_append, List.sum_cons, pc i hi, pc j hj, pc k hk, hc]
    ring
  · have pc : ∀ a, (c.O.elem a).kind = .jj → placedInvInd (c.O.withVals v) a = 0 := by
      intro a ha; simp [placedInvInd, Objs.withVals, ha]
    simp only [List.map_append, List.map_cons, List.sum_append, List.sum_cons, pc i hi, pc j hj, pc k hk]
    ring
  · have pc : ∀ a, (c.O.elem a).kind = .jj → placedEJ (c.O.withVals v) a = v a := by
      intro a ha; simp [placedEJ, Objs.withVals, ha]
    simp only [List.map_append, List.map_cons, List.sum_append, List.sum_cons, pc i hi, pc j hj, pc k hk, hv]
    ring
  · simp only [List.mem_append, List.mem_cons]
    constructor
    · rintro ⟨a, ha | rfl | rfl | ha, hka⟩
      · exact ⟨a, Or.inl ha, hka⟩
      · rw [hj] at hka; cases hka
      · rw [hk] at hka; cases hka
      · exact ⟨a, Or.inr (Or.inr ha), hka⟩
    · rintro ⟨a, ha | rfl | ha, hka⟩
      · exact ⟨a, Or.inl ha, hka⟩
      · rw [hi] at hka; cases hka
      · exact ⟨a, Or.inr (Or.inr (Or.inr ha)), hka⟩
  · exact ⟨fun _ => ⟨i, by simp, hi⟩, fun _ => ⟨j, by simp, hj⟩⟩
  · intro a ha hka
    rcases sub a ha with rfl | rfl | ha
    · exact hlj
    · exact hlk
    · exact hL' a ha hka
  · intro a ha hka
    rcases sub a ha with rfl | rfl | ha
    · rw [hj] at hka; cases hka
    · rw [hk] at hka; cases hka
    · exact hZ' a ha hka

/-- junctions 0, 1, 2 with capacitors 3, 4, 5 and free capacitors 6, 7, 8 -/
def parObjs : Objs where
  elem := fun i => if i < 3 then ⟨.jj, 1, i + 3, [], true, true⟩ else ⟨.cap, 1, 3, [], false, true⟩
  loopValue := fun _ => 0
  loopReqGrad := fun _ => false
  loopIsLeaf := fun _ => true

/-- values: junction 0 and its capacitor, and capacitor 6, are twice as large as the others -/
noncomputable def parVals : ElemId → ℝ := fun i => if i = 0 ∨ i = 3 ∨ i = 6 then 2 else 1

/-- A transmon with junction 0 and capacitor 6 is constructed, and capacitor 6 may be replaced by 7 and 8, junction 0 by 1
and 2: the hypotheses of `C108_split_capacitor` and `C108_merge_junctions` hold. -/
theorem C108_example : ∃ c : CircSpec, c.els = [((0, 1), [0, 6])] ∧ c.O = parObjs ∧ NoSelfLoops c.els ∧
    (∀ m ng flux, (∃ x, observed c parVals m ng flux = .ok x) ∧
      observed { c with els := [((0, 1), [0, 7, 8])] } parVals m ng flux = observed c parVals m ng flux ∧
      observed { c with els := [((0, 1), [1, 2, 6])] } parVals m ng flux = observed c parVals m ng flux) := by
  choose lib hlib using exists_lib
  choose argmax hm using exists_argmax
  obtain ⟨argsort, ha⟩ := exists_argsort
  have hj : OnlyJunctions parObjs [0, 6] := ⟨by
    intro i hi; simp at hi; rcases hi with rfl | rfl <;> simp [parObjs], 0, by simp, rfl⟩
  have hv : ParallelValues parObjs [0, 6] parVals := by
    constructor
    · intro i hi
      simp at hi
      rcases hi with rfl | rfl <;> simp [placedCap, parObjs, Objs.withVals, parVals]
    · simp [totalCap, placedCap, parObjs, Objs.withVals, parVals]
      norm_num
  obtain ⟨b, hb, hk, -, hH⟩ := C92_transmon false .junctions parObjs [0, 6] hj
    (by intro i hi; simp at hi; rcases hi with rfl | rfl <;> rfl) (fun _ => LoopObj.init 0 0) lib hlib exSv exSv_spec
    argsort ha argmax hm (fun _ _ => 0) parVals hv
  have hgood := oe_good (torch := false) (fd := .junctions) (h := fun _ => LoopObj.init 0 0) (sv := exSv)
    (argsort := argsort) (draws := fun _ _ => 0) hj hlib hm hv
  refine ⟨_, rfl, rfl, hgood.noSelf, fun m ng flux => ⟨?_, ?_, ?_⟩⟩
  · unfold observed
    rw [hb]
    simp only
    obtain ⟨h1, h2⟩ := build_valid hgood.noSelf hb
    unfold fullHamiltonian
    simp only
    rw [hamiltonianOf_eq b.C b.M h1 _ _ _ _ _ _ h2]
    exact ⟨_, rfl⟩
  · exact C108_split_capacitor _ hgood.noSelf parVals (pre := []) (post := []) (x := [0]) (y := []) (i := 6) (j := 7)
      (k := 8) rfl rfl rfl rfl (by norm_num [parVals]) m ng flux
  · refine C108_merge_junctions _ hgood.noSelf parVals (pre := []) (post := []) (x := []) (y := [6]) (i := 0) (j := 1)
      (k := 2) rfl ?_ ?_ rfl rfl rfl rfl rfl (by norm_num [parVals]) (by norm_num [parVals, parallelSpec, parObjs]) m ng flux
    · intro q hq _
      simp only [parallelSpec, parObjs]
      split <;> rfl
    · intro q hq hk
      simp only [parallelSpec, parObjs] at hk
      split at hk <;> cases hk

end SQ
