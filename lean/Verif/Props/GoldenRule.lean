import Verif.Spec.Loss
import Verif.Props.Rates
import Verif.Props.Describe
import Verif.Props.DephasingLevels
import Verif.Props.LevelsExample

/-!
# C91: depolarisation rates of constructed circuits
-/

namespace SQ
open Matrix Complex SQ.Spec

theorem tempS_lossFactor {a : ℝ} (h0 : 0 < a) (h1 : a ≤ 709) (p q : ℕ) (total : Bool) :
    tempS a ((p : ℤ), (q : ℤ)) total = some (lossFactor a p q total) := by
  obtain ⟨d, u, ht, hd, hu, -⟩ := C54_factors a h0 h1
  have hx : 0 < Real.exp a - 1 := by
    have := Real.add_one_lt_exp h0.ne'
    linarith
  have ed : d = 2 * (bose a + 1) := by
    rw [hd, coth_exp h0]; unfold bose; field_simp; ring
  have eu : u = 2 * bose a := by
    rw [hu, coth_exp h0]; unfold bose; field_simp; ring
  unfold tempS lossFactor
  rw [ht]
  cases total with
  | true => simp [ed, eu]
  | false =>
    by_cases h : p > q
    · simp [h, ed]
    · simp [h, eu]

/-- edges and elements of the inductor keys -/
theorem build_inds {c : CircSpec} {vals : ElemId → ℝ} {b : Build} (hs : NoSelfLoops c.els)
    (hb : buildCirc c vals = .ok b) :
    b.inds.map (fun k => (k.edge, k.el)) =
      (placements c.els).filter (fun q => decide ((c.O.elem q.2).kind = .ind)) := by
  obtain ⟨n, a, B, t, hn, htr, hB, ht, rfl⟩ := buildCirc_stages hb
  have hv : ValidElements n c.els := by
    intro p hp
    have := buildEdges_nodes_le htr p hp
    exact ⟨hs p hp, this.1, this.2⟩
  obtain ⟨h1, h2, h3, h4, h5, h6⟩ := C18_branch_numbering _ _ _ _ _ _ hv a htr
  have hlen : a.st.kMat.length = (inductivePlacements c.O c.els).length := by
    rw [h6, List.length_map]; rfl
  have key : ∀ (m : ℕ) (l : List (Edge × ElemId × ℕ)), (∀ k ∈ l, k.2.2 < m) →
      (indKeysOf m l).map (fun k => (k.edge, k.el)) = l.map (fun k => (k.1, k.2.1)) := by
    intro m l hl
    induction l with
    | nil => rfl
    | cons x l ih =>
      have hx := hl x (by simp)
      have := ih (fun k hk => hl k (by simp [hk]))
      unfold indKeysOf at this ⊢
      rw [List.filterMap_cons, dif_pos hx, List.map_cons, List.map_cons, this]
  refine (key _ _ ?_).trans ?_
  · intro k hk
    rw [h1] at hk
    obtain ⟨q, hq, rfl⟩ := List.mem_map.1 hk
    obtain ⟨x, i⟩ := q
    have := List.mem_zipIdx (List.mem_filter.1 hq).1
    have h7 : (inductivePlacements (c.O.withVals vals) c.els).length = (inductivePlacements c.O c.els).length := rfl
    show i < a.st.kMat.length
    omega
  · rw [h1, List.map_map]
    have e1 : ∀ (l : List ((Edge × ElemId) × ℕ)) (f : Edge × ElemId → Bool),
        (l.filter (fun q => f q.1)).map Prod.fst = (l.map Prod.fst).filter f := by
      intro l f
      rw [List.filter_map]; rfl
    have e2 := e1 (numbered (c.O.withVals vals) c.els) (fun q => decide ((c.O.elem q.2).kind = .ind))
    refine Eq.trans ?_ (e2.trans ?_)
    · rfl
    · unfold numbered
      rw [List.zipIdx_map_fst]
      unfold inductivePlacements
      rw [List.filter_filter]
      refine List.filter_congr fun q _ => ?_
      have : ((c.O.withVals vals).elem q.2).kind = (c.O.elem q.2).kind := rfl
      rw [this]
      cases (c.O.elem q.2).kind <;> simp

/-- coefficients of the capacitive loss -/
theorem capCoefs_sum (c : NoiseCirc) {p q : ℤ} {s s' : Idx c.m → ℂ} (h0 : c.evecs.length ≠ 0)
    (h1 : pyGet c.evecs p = .ok s) (h2 : pyGet c.evecs q = .ok s') (omega : ℝ) (V : Edge → Op c.m) :
    ∀ l : List (Edge × ElemId), (∀ x ∈ l, c.coupling "capacitive" x.1 = .ok (V x.1)) →
    ∃ gs, c.capCoefs omega (p, q) l = .ok gs ∧ gs.sum = (l.map (fun x => match c.noise.capQ x.2 with
      | none => 0
      | some Q => c.val x.2 / Q omega * ‖braket s (V x.1) s'‖ ^ 2)).sum := by
  intro l hl
  induction l with
  | nil => exact ⟨[], rfl, rfl⟩
  | cons x l ih =>
    obtain ⟨gs, hg, hsum⟩ := ih (fun y hy => hl y (by simp [hy]))
    obtain ⟨e, i⟩ := x
    have hx := hl (e, i) (by simp)
    rw [NoiseCirc.capCoefs, List.map_cons, List.sum_cons, ← hsum]
    cases hq : c.noise.capQ i with
    | none => exact ⟨gs, hg, by simp⟩
    | some Q =>
      have hm : c.matrixElements "capacitive" e (p, q) = .ok (innerOp s (V e) s') := by
        unfold NoiseCirc.matrixElements
        rw [if_neg h0, h1, h2]
        simp only
        rw [hx]
      simp only [hm, hg]
      exact ⟨_, rfl, by simp [innerOp_eq]⟩

theorem branchCaps_eq (O : Objs) (els : Elements) :
    branchCaps O els = (placements els).map (fun x => (x.1, capacitorOf O x.2)) := by
  have h : ∀ i, (if (O.elem i).kind = .cap then i else (O.elem i).cap) = capacitorOf O i := by
    intro i
    unfold capacitorOf
    cases (O.elem i).kind <;> simp
  unfold branchCaps placements
  rw [List.map_flatMap]
  refine List.flatMap_congr fun p _ => ?_
  rw [List.map_map]
  exact List.map_congr_left fun i _ => by simp [h]

theorem filterMap_sum_getD {α : Type*} (l : List α) (f : α → Option ℝ) :
    (l.filterMap f).sum = (l.map (fun a => (f a).getD 0)).sum := by
  induction l with
  | nil => rfl
  | cons a l ih =>
    rw [List.map_cons, List.sum_cons, ← ih]
    cases h : f a with
    | none => rw [List.filterMap_cons_none h]; simp
    | some y => rw [List.filterMap_cons_some h]; simp

theorem alpha_pos {w w' T : ℝ} (hw : w ≠ w') (hT : 0 < T) : 0 < hbar * |w' - w| / (kB * T) := by
  have h1 := hbar_pos
  have hk : (0 : ℝ) < kB := by unfold kB; norm_num
  have : 0 < |w' - w| := abs_pos.2 (sub_ne_zero.2 hw.symm)
  positivity

/-- loss rates from their coefficients -/
theorem noise_loss (N : NoiseCirc) {p q : ℕ} {w w' : ℝ} {psi psi' : Idx N.m → ℂ}
    (hpair : N.pair (p, q) = .ok ((w, w'), (psi, psi')))
    {ty : String} (hty : ty ∈ lossTypes) (hw : w ≠ w') (hT : 0 < N.env.T)
    (h709 : hbar * |w' - w| / (kB * N.env.T) ≤ 709) (total : Bool) {gs : List ℝ}
    (hg : N.lossCoefs ty (p, q) |w' - w| psi psi' = .ok gs) :
    N.decRate ty (p, q) total =
      .ok (.val (lossFactor (hbar * |w' - w| / (kB * N.env.T)) p q total * gs.sum)) := by
  rw [decRate_eq, hpair]
  simp only
  rw [rateOf_loss _ hty, hg]
  simp only [Except.map]
  have : tempS (thermalAlpha |w' - w| N.env.T)
      ((p : ℤ), (q : ℤ)) total = some (lossFactor (hbar * |w' - w| / (kB * N.env.T)) p q total) :=
    tempS_lossFactor (alpha_pos hw hT) h709 p q total
  rw [this, lossSum_some, zero_add]

section build
variable (c : CircSpec) (v0 : ElemId → ℝ) (bd : Build) (m : Fin bd.M.keep.length → ℕ)
    (ng : Fin bd.M.keep.length → ℝ) (val : ElemId → ℝ) (fluxes : Fin bd.loops.length → ℝ)
    (P : ElemId → Matrix (Fin bd.n) (Fin bd.n) ℝ) (noise : NoiseSpec bd.loops.length) (env : NoiseEnv)
    (ef : List ℝ) (ev : List (Idx m → ℂ)) (p q : ℕ) (psi psi' : Idx m → ℂ) (w w' : ℝ)

/-- the two frequencies and states -/
theorem noise_pair (hp : ev[p]? = some psi) (hq : ev[q]? = some psi') (hpf : ef[p]? = some w)
    (hqf : ef[q]? = some w') :
    (bd.noise c m ng val fluxes P noise env ef ev).pair (p, q) = .ok ((w, w'), (psi, psi')) := by
  unfold NoiseCirc.pair
  have h0 : ef.length ≠ 0 := by
    intro h
    rw [List.length_eq_zero_iff.1 h] at hpf
    cases hpf
  have a1 : pyGet (bd.noise c m ng val fluxes P noise env ef ev).efreqs (p : ℤ) = .ok w := pyGet_of_getElem? hpf
  have a2 : pyGet (bd.noise c m ng val fluxes P noise env ef ev).efreqs (q : ℤ) = .ok w' := pyGet_of_getElem? hqf
  have a3 : pyGet (bd.noise c m ng val fluxes P noise env ef ev).evecs (p : ℤ) = .ok psi := pyGet_of_getElem? hp
  have a4 : pyGet (bd.noise c m ng val fluxes P noise env ef ev).evecs (q : ℤ) = .ok psi' := pyGet_of_getElem? hq
  have a0 : (bd.noise c m ng val fluxes P noise env ef ev).efreqs.length ≠ 0 := h0
  simp only [if_neg a0, a1, a2, a3, a4]

theorem build_coupling (hs : NoSelfLoops c.els) (hb : buildCirc c v0 = .ok bd) {ty : String}
    (hc : ty = "capacitive" ∨ ty = "inductive") : ∃ V : Edge → Op m, ∀ x ∈ placements c.els,
    couplingOp ty bd.C bd.M (buildMem bd.M.data m ng).Q (buildMem bd.M.data m ng).phi x.1 = .ok (V x.1) := by
  refine ⟨fun e => match couplingOp ty bd.C bd.M (buildMem bd.M.data m ng).Q
    (buildMem bd.M.data m ng).phi e with | .ok v => v | .error _ => 0, fun x hx => ?_⟩
  have hv : ValidEdge bd.n x.1 := by
    obtain ⟨n, a, B, t, hn, htr, hB, ht, rfl⟩ := buildCirc_stages hb
    obtain ⟨y, hy, hxy⟩ := List.mem_flatMap.1 hx
    obtain ⟨i, hi, rfl⟩ := List.mem_map.1 hxy
    have := buildEdges_nodes_le htr y hy
    exact ⟨hs y hy, this.1, this.2⟩
  have := couplingOp_ok hc bd.C bd.M (build_valid hs hb).1 (buildMem bd.M.data m ng).Q
    (buildMem bd.M.data m ng).phi hv
  rw [this]
  simp only [this]

/-- C91, capacitive loss -/
theorem C91_capacitive (hs : NoSelfLoops c.els) (hb : buildCirc c v0 = .ok bd)
    (hp : ev[p]? = some psi) (hq : ev[q]? = some psi') (hpf : ef[p]? = some w) (hqf : ef[q]? = some w')
    (hw : w ≠ w') (hT : 0 < env.T) (h709 : hbar * |w' - w| / (kB * env.T) ≤ 709) (total : Bool) :
    ∃ V : Edge → Op m,
      (∀ x ∈ placements c.els, couplingOp "capacitive" bd.C bd.M (buildMem bd.M.data m ng).Q
        (buildMem bd.M.data m ng).phi x.1 = .ok (V x.1)) ∧
      (bd.noise c m ng val fluxes P noise env ef ev).decRate "capacitive" (p, q) total =
        .ok (.val (lossFactor (hbar * |w' - w| / (kB * env.T)) p q total *
          ((placements c.els).map (capLoss c.O noise val |w' - w| psi psi' V)).sum)) := by
  obtain ⟨V, hV⟩ := build_coupling c v0 bd m ng hs hb (Or.inl rfl)
  refine ⟨V, hV, ?_⟩
  have hpair := noise_pair c bd m ng val fluxes P noise env ef ev p q psi psi' w w' hp hq hpf hqf
  obtain ⟨-, -, -, h3, h4⟩ := pair_ok hpair
  obtain ⟨gs, hg, hsum⟩ := capCoefs_sum (bd.noise c m ng val fluxes P noise env ef ev) (pyGet_mem h3) h3 h4
    |w' - w| V ((placements c.els).map (fun x => (x.1, capacitorOf c.O x.2))) (by
      intro x hx
      obtain ⟨y, hy, rfl⟩ := List.mem_map.1 hx
      exact hV y hy)
  have hg' : (bd.noise c m ng val fluxes P noise env ef ev).lossCoefs "capacitive" (p, q) |w' - w| psi psi' =
      .ok gs := by
    rw [← hg, ← branchCaps_eq]
    rfl
  refine (noise_loss _ hpair (by simp [lossTypes]) hw hT h709 total hg').trans ?_
  rw [hsum, List.map_map]
  rfl

/-- C91, inductive loss -/
theorem C91_inductive (hs : NoSelfLoops c.els) (hb : buildCirc c v0 = .ok bd)
    (hp : ev[p]? = some psi) (hq : ev[q]? = some psi') (hpf : ef[p]? = some w) (hqf : ef[q]? = some w')
    (hw : w ≠ w') (hT : 0 < env.T) (h709 : hbar * |w' - w| / (kB * env.T) ≤ 709) (total : Bool) :
    ∃ F : Edge → Op m,
      (∀ x ∈ placements c.els, couplingOp "inductive" bd.C bd.M (buildMem bd.M.data m ng).Q
        (buildMem bd.M.data m ng).phi x.1 = .ok (F x.1)) ∧
      (bd.noise c m ng val fluxes P noise env ef ev).decRate "inductive" (p, q) total =
        .ok (.val (lossFactor (hbar * |w' - w| / (kB * env.T)) p q total *
          (((placements c.els).filter (fun x => decide ((c.O.elem x.2).kind = .ind))).map
            (indLoss noise val |w' - w| env.T psi psi' F)).sum)) := by
  obtain ⟨F, hF⟩ := build_coupling c v0 bd m ng hs hb (Or.inr rfl)
  refine ⟨F, hF, ?_⟩
  have hg : (bd.noise c m ng val fluxes P noise env ef ev).lossCoefs "inductive" (p, q) |w' - w| psi psi' =
      .ok ((bd.noise c m ng val fluxes P noise env ef ev).indCoefs |w' - w| psi psi') := by
    unfold NoiseCirc.lossCoefs
    simp
  have hpair := noise_pair c bd m ng val fluxes P noise env ef ev p q psi psi' w w' hp hq hpf hqf
  refine (noise_loss _ hpair (by simp [lossTypes]) hw hT h709 total hg).trans ?_
  congr 3
  unfold NoiseCirc.indCoefs
  rw [filterMap_sum_getD, ← build_inds hs hb, List.map_map]
  congr 1
  refine List.map_congr_left fun key hkey => ?_
  have hmem : (key.edge, key.el) ∈ placements c.els := by
    have h1 : (key.edge, key.el) ∈ bd.inds.map (fun k => (k.edge, k.el)) := List.mem_map.2 ⟨key, hkey, rfl⟩
    rw [build_inds hs hb] at h1
    exact (List.mem_filter.1 h1).1
  have hop : indOpOf bd.C bd.M (buildMem bd.M.data m ng) key = F key.edge := by
    unfold indOpOf
    rw [hF _ hmem]
  show ((noise.indQ key.el |w' - w| env.T).map (fun Q => 1 / Q / val key.el *
    ‖innerOp psi (indOpOf bd.C bd.M (buildMem bd.M.data m ng) key) psi'‖ ^ 2)).getD 0 =
    indLoss noise val |w' - w| env.T psi psi' F (key.edge, key.el)
  rw [hop, innerOp_eq]
  unfold indLoss
  cases noise.indQ key.el |w' - w| env.T with
  | none => rfl
  | some Q =>
    simp only [Option.map_some, Option.getD_some]
    rw [div_div, one_div, mul_comm, div_eq_mul_inv]

/-- C91, quasiparticle loss -/
theorem C91_quasiparticle (hp : ev[p]? = some psi) (hq : ev[q]? = some psi') (hpf : ef[p]? = some w)
    (hqf : ef[q]? = some w') (hw : w ≠ w') (hT : 0 < env.T)
    (h709 : hbar * |w' - w| / (kB * env.T) ≤ 709) (total : Bool) :
    (bd.noise c m ng val fluxes P noise env ef ev).decRate "quasiparticle" (p, q) total =
      .ok (.val (lossFactor (hbar * |w' - w| / (kB * env.T)) p q total *
        (bd.juns.map (fun key => qpLoss noise val |w' - w| env.T psi psi' key.el
          (sinHalfOp (buildMem bd.M.data m ng) key.wId (extFlux bd.B fluxes key.bId)))).sum)) := by
  have hg : (bd.noise c m ng val fluxes P noise env ef ev).lossCoefs "quasiparticle" (p, q) |w' - w| psi psi' =
      .ok ((bd.noise c m ng val fluxes P noise env ef ev).qpCoefs |w' - w| psi psi') := by
    unfold NoiseCirc.lossCoefs
    simp
  have hpair := noise_pair c bd m ng val fluxes P noise env ef ev p q psi psi' w w' hp hq hpf hqf
  refine (noise_loss _ hpair (by simp [lossTypes]) hw hT h709 total hg).trans ?_
  congr 3
  unfold NoiseCirc.qpCoefs
  rw [filterMap_sum_getD]
  congr 1
  refine List.map_congr_left fun key hkey => ?_
  show ((noise.junY key.el |w' - w| env.T).map (fun Y => Y * |w' - w| * val key.el * hbar *
    ‖innerOp psi (sinHalfOp (buildMem bd.M.data m ng) key.wId (extFlux bd.B fluxes key.bId)) psi'‖ ^ 2)).getD 0 = _
  rw [innerOp_eq]
  unfold qpLoss
  cases noise.junY key.el |w' - w| env.T with
  | none => rfl
  | some Q =>
    simp only [Option.map_some, Option.getD_some]
    ring

end build

/-- A fluxonium at 15 mK whose first two levels are 3·10¹⁰ rad/s apart meets the hypotheses of C91; it has two
placements with capacitors, an inductor and a junction. -/
theorem C91_example : ∃ (c : CircSpec) (v0 : ElemId → ℝ) (bd : Build), NoSelfLoops c.els ∧ buildCirc c v0 = .ok bd ∧
    (placements c.els).length = 2 ∧
    ((placements c.els).filter (fun x => decide ((c.O.elem x.2).kind = .ind))).length = 1 ∧
    bd.juns.length = 1 ∧ 0 < hbar * |(3e10 : ℝ) - 0| / (kB * 0.015) ∧ hbar * |(3e10 : ℝ) - 0| / (kB * 0.015) ≤ 709 := by
  choose lib hlib using exists_lib
  choose argmax hm using exists_argmax
  obtain ⟨argsort, -⟩ := exists_argsort
  set v0 : ElemId → ℝ := fun i => if i = 0 then 2 else 1 with hv0
  have hL : (0 : ℝ) < v0 0 := by norm_num [hv0]
  have h1 : (0 : ℝ) < v0 1 := by norm_num [hv0]
  have h3 : (0 : ℝ) < v0 3 := by norm_num [hv0]
  have hz : 1e-11 ≤ lcPhaseZp (v0 0) (v0 1 + v0 3) := fx_example_values.2.2.2
  obtain ⟨b, hb, -⟩ := C80_fluxonium false (fun _ => LoopObj.init 0 0) lib hlib exSv exSv_spec argsort
    argmax hm (fun _ _ => 0) v0 hL h1 h3 hz
  have hgood := fx_good false (fun _ => LoopObj.init 0 0) hlib exSv argsort hm (fun _ _ => 0) hL h1 h3
  obtain ⟨-, -, hju, -⟩ := build_pairs hgood.noSelf hb
  obtain ⟨kj, hkj, -⟩ := singleton_keys (p := (1, 2)) (hju.trans rfl)
  refine ⟨_, v0, b, hgood.noSelf, hb, rfl, rfl, by rw [hkj]; rfl, ?_, ?_⟩
  · exact alpha_pos (by norm_num) (by norm_num)
  · rw [abs_of_pos (by norm_num)]
    unfold hbar kB
    norm_num

end SQ
