import Verif.Spec.FromEnd
import Verif.Props.SweepLoss
import Verif.Props.Eigen
import Verif.Model.PhaseGrid
import Verif.Model.Sweep
import Verif.Props.ResonatorLoss
import Verif.Props.LinearExample

/-!
# Property C124: naming a computed state by a negative index
-/

namespace SQ
open Matrix Spec

theorem names_idx {N : ℕ} {i : ℤ} {p : ℕ} (h : Names N i p) : pyIdx N i = pyIdx N p := by
  obtain ⟨hp, rfl | rfl⟩ := h
  · rfl
  · unfold pyIdx
    rw [dif_neg (by omega), dif_pos (by omega), dif_pos (by omega)]
    congr 2
    omega

theorem names_get {α : Type*} {l : List α} {i : ℤ} {p : ℕ} (h : Names l.length i p) : pyGet l i = pyGet l p := by
  unfold pyGet
  rw [names_idx h]

theorem names_index {α : Type*} {l : List α} {i : ℤ} {p : ℕ} (h : Names l.length i p) : pyIndex l i = pyIndex l p := by
  obtain ⟨hp, rfl | rfl⟩ := h
  · rfl
  · unfold pyIndex
    rw [if_pos (by omega), if_neg (by omega), if_neg (by omega)]
    congr 2
    omega

section
variable (c : NoiseCirc) {i i' : ℤ} {p q : ℕ}

theorem names_elements (h : Names c.evecs.length i p) (h' : Names c.evecs.length i' q) (ctype : String) (nodes : Edge) :
    c.matrixElements ctype nodes (i, i') = c.matrixElements ctype nodes (p, q) := by
  unfold NoiseCirc.matrixElements
  rw [names_get h, names_get h']

theorem names_capCoefs (h : Names c.evecs.length i p) (h' : Names c.evecs.length i' q) (omega : ℝ)
    (l : List (Edge × ElemId)) : c.capCoefs omega (i, i') l = c.capCoefs omega (p, q) l := by
  induction l with
  | nil => rfl
  | cons k ks ih =>
    obtain ⟨edge, cap⟩ := k
    rw [NoiseCirc.capCoefs, NoiseCirc.capCoefs, ih, names_elements c h h']

theorem names_pair (hlen : c.efreqs.length = c.evecs.length) (h : Names c.evecs.length i p)
    (h' : Names c.evecs.length i' q) : c.pair (i, i') = c.pair (p, q) := by
  unfold NoiseCirc.pair
  simp only
  have e1 : pyGet c.efreqs i = pyGet c.efreqs p := names_get (by rw [hlen]; exact h)
  have e2 : pyGet c.efreqs i' = pyGet c.efreqs q := names_get (by rw [hlen]; exact h')
  rw [names_get h, names_get h', e1, e2]

theorem names_mn {ι : Type*} [Fintype ι] (evecs : List (ι → ℂ)) (dH : Matrix ι ι ℂ) (h : Names evecs.length i p)
    (h' : Names evecs.length i' q) : partialOmegaMN evecs dH (i, i') = partialOmegaMN evecs dH (p, q) := by
  unfold partialOmegaMN
  rw [names_get h, names_get h']

theorem names_ccRate (h : Names c.evecs.length i p) (h' : Names c.evecs.length i' q) (l : List (JunKey c.b c.nJ)) :
    ∀ acc, c.ccRate (i, i') l acc = c.ccRate (p, q) l acc := by
  induction l with
  | nil => intro acc; rfl
  | cons k ks ih =>
    intro acc
    rw [NoiseCirc.ccRate, NoiseCirc.ccRate, names_mn _ _ h h']
    split
    · rfl
    · exact ih _

theorem names_fluxRate (h : Names c.evecs.length i p) (h' : Names c.evecs.length i' q) (l : List (Fin c.nl)) :
    ∀ acc, c.fluxRate (i, i') l acc = c.fluxRate (p, q) l acc := by
  induction l with
  | nil => intro acc; rfl
  | cons k ks ih =>
    intro acc
    rw [NoiseCirc.fluxRate, NoiseCirc.fluxRate, names_mn _ _ h h']
    split
    · rfl
    · exact ih _

/-- the rate depends on the names of the states only through the comparison that chooses the thermal factor -/
theorem names_rate (hlen : c.efreqs.length = c.evecs.length) (h : Names c.evecs.length i p)
    (h' : Names c.evecs.length i' q) (ty : String) (total : Bool)
    (ht : ∀ a, tempS a (i, i') total = tempS a (p, q) total) :
    c.decRate ty (i, i') total = c.decRate ty (p, q) total := by
  rw [decRate_eq, decRate_eq, names_pair c hlen h h']
  cases c.pair (p, q) with
  | error e => rfl
  | ok x =>
    simp only
    unfold NoiseCirc.rateOf
    simp only [capRate_eq, names_capCoefs c h h', names_ccRate c h h', names_fluxRate c h h', ht]

theorem names_one_way (ng : Fin c.M.keep.length → ℝ) (hmem : c.mem = buildMem c.M.data c.m ng)
    (hlen : c.efreqs.length = c.evecs.length) (h : Names c.evecs.length i p)
    (h' : Names c.evecs.length i' q) (ty : String) (hty : ty ∈ lossTypes) (hpq : p ≠ q) (hne : ¬ (i > i' ↔ p > q)) :
    c.decRate ty (i, i') false = c.decRate ty (q, p) false := by
  rw [decRate_eq, decRate_eq, names_pair c hlen h h', pair_swap c p q]
  cases hp : c.pair (p, q) with
  | error e => rfl
  | ok x =>
    obtain ⟨⟨w1, w2⟩, s1, s2⟩ := x
    simp only [Except.map, Prod.swap_prod_mk]
    rw [rateOf_loss c hty, rateOf_loss c hty, abs_sub_comm w1 w2,
      lossCoefs_symm c ng hmem ty _ (p : ℤ) (q : ℤ)]
    have e : c.lossCoefs ty (i, i') |w2 - w1| s1 s2 = c.lossCoefs ty (p, q) |w2 - w1| s1 s2 := by
      unfold NoiseCirc.lossCoefs
      rw [names_capCoefs c h h']
    have ht : ∀ a, tempS a (i, i') false = tempS a ((q : ℤ), (p : ℤ)) false := by
      intro a
      unfold tempS
      cases thermal a with
      | none => rfl
      | some du =>
        have : (i > i') ↔ ((q : ℤ) > (p : ℤ)) := by
          constructor
          · intro hi
            by_contra hq
            exact hne ⟨fun _ => by omega, fun _ => hi⟩
          · intro hq
            by_contra hi
            exact hne ⟨fun hi' => absurd hi' hi, fun hp => by omega⟩
        simp only [if_true, this]
    rw [e, ht]

end

section vec
variable {ι : Type*} [Fintype ι]

theorem vecSum_all {evecs : List (ι → ℂ)} {efreqs : List ℝ} (hlen : efreqs.length = evecs.length)
    (dH : Matrix ι ι ℂ) (psiM : ι → ℂ) (m : ℤ) (hm : m < 0) (wM eps : ℝ) :
    partialVecSum evecs efreqs dH psiM m wM eps = ∑ n : Fin evecs.length,
      (braket (evecs.get n) dH psiM / ((wM - efreqs.get (n.cast hlen.symm) + eps : ℝ) : ℂ)) • evecs.get n := by
  unfold partialVecSum
  have hif : ∀ (acc : ι → ℂ) (n : ℕ), (if (n : ℤ) = m then acc else acc +
      (innerOp (evecs.getD n 0) dH psiM / ((wM - efreqs.getD n 0 + eps : ℝ) : ℂ)) • evecs.getD n 0)
      = acc + (innerOp (evecs.getD n 0) dH psiM / ((wM - efreqs.getD n 0 + eps : ℝ) : ℂ)) • evecs.getD n 0 := by
    intro acc n
    rw [if_neg (by omega)]
  simp only [hif]
  rw [foldl_add_sum, zero_add]
  rw [show List.range evecs.length = (List.finRange evecs.length).map Fin.val by
    exact List.map_coe_finRange_eq_range.symm, List.map_map]
  rw [finRange_map_sum]
  refine Finset.sum_congr rfl fun n _ => ?_
  have h2 : efreqs.getD (n : ℕ) 0 = efreqs.get (n.cast hlen.symm) := by
    rw [List.getD_eq_getElem?_getD, List.getElem?_eq_getElem (by rw [hlen]; exact n.isLt)]
    rfl
  have h1 : evecs.getD (n : ℕ) 0 = evecs.get n := by
    rw [List.getD_eq_getElem?_getD, List.getElem?_eq_getElem n.isLt]
    rfl
  simp only [Function.comp, h1, h2, innerOp_eq]

/-- C124, `get_partial_vec`: counted from the end, the state itself is not left out of the sum: the result has the
additional term `⟨ψ|∂H|ψ⟩/epsilon · ψ`. -/
theorem C124_vec (evecs : List (ι → ℂ)) (efreqs : List ℝ) (hlen : efreqs.length = evecs.length)
    (dH : Matrix ι ι ℂ) (eps : ℝ) (p : Fin evecs.length) :
    ∃ v v', partialVec evecs efreqs dH (p : ℕ) eps = .ok v ∧
      partialVec evecs efreqs dH ((p : ℕ) - evecs.length : ℤ) eps = .ok v' ∧
      v' = v + (braket (evecs.get p) dH (evecs.get p) / (eps : ℂ)) • evecs.get p := by
  have hN : evecs.length ≠ 0 := fun h0 => by have := p.isLt; omega
  have hn : Names evecs.length ((p : ℕ) - evecs.length : ℤ) p := ⟨p.isLt, Or.inr rfl⟩
  have hp' : (p : ℕ) < efreqs.length := by rw [hlen]; exact p.isLt
  have e1 : pyGet efreqs ((p : ℕ) - evecs.length : ℤ) = .ok efreqs[(p : ℕ)] :=
    (names_get (by rw [hlen]; exact hn)).trans (pyGet_nat hp')
  refine ⟨partialVecSum evecs efreqs dH (evecs.get p) (p : ℕ) efreqs[(p : ℕ)] eps,
    partialVecSum evecs efreqs dH (evecs.get p) ((p : ℕ) - evecs.length : ℤ) efreqs[(p : ℕ)] eps, ?_, ?_, ?_⟩
  · unfold partialVec
    rw [if_neg hN, pyGet_nat p.isLt, pyGet_nat hp']
    rfl
  · unfold partialVec
    rw [if_neg hN, names_get hn, pyGet_nat p.isLt]
    simp only
    rw [e1]
    rfl
  · rw [partialVecSum_eq hlen, vecSum_all hlen _ _ _ (by have := p.isLt; omega)]
    rw [← Finset.add_sum_erase _ _ (Finset.mem_univ p), ← Finset.add_sum_erase _ _ (Finset.mem_univ p), if_pos rfl,
      zero_add, add_comm]
    congr 1
    · refine Finset.sum_congr rfl fun n hn => ?_
      rw [if_neg (Finset.ne_of_mem_erase hn)]
    · congr 3
      have : efreqs.get (p.cast hlen.symm) = efreqs[(p : ℕ)] := rfl
      rw [this, sub_self, zero_add]

/-- C124, `get_partial_vec`: for a state whose frequency changes with the element (`get_partial_omega` without
`subtract_ground` is not zero), naming the state from the end never gives the result of naming it from the start. -/
theorem C124_vec_refuted (evecs : List (ι → ℂ)) (efreqs : List ℝ) (hlen : efreqs.length = evecs.length)
    (dH : Matrix ι ι ℂ) (eps : ℝ) (he : eps ≠ 0) (p : Fin evecs.length) (r : ℝ)
    (hr : partialOmega evecs dH (p : ℕ) false = .ok r) (h0 : r ≠ 0) :
    partialVec evecs efreqs dH ((p : ℕ) - evecs.length : ℤ) eps ≠ partialVec evecs efreqs dH (p : ℕ) eps := by
  obtain ⟨v, v', h1, h2, h3⟩ := C124_vec evecs efreqs hlen dH eps p
  rw [h1, h2]
  intro hv
  have hv' : v' = v := Except.ok.inj hv
  rw [hv'] at h3
  have h4 : (braket (evecs.get p) dH (evecs.get p) / (eps : ℂ)) • evecs.get p = 0 := by
    have := congrArg (fun x => x - v) h3
    simpa using this.symm
  have hb : braket (evecs.get p) dH (evecs.get p) ≠ 0 := by
    intro hz
    unfold partialOmega at hr
    rw [if_neg (fun h0 => by have := p.isLt; omega), pyGet_nat p.isLt] at hr
    simp only [Bool.false_eq_true, if_false] at hr
    have hr' := Except.ok.inj hr
    rw [innerOp_eq] at hr'
    have : braket evecs[(p : ℕ)] dH evecs[(p : ℕ)] = 0 := hz
    rw [this] at hr'
    exact h0 (by rw [← hr']; rfl)
  rcases smul_eq_zero.1 h4 with hz | hz
  · rcases div_eq_zero_iff.1 hz with hz | hz
    · exact hb hz
    · exact he (Complex.ofReal_eq_zero.1 hz)
  · apply hb
    rw [hz, braket_right]
    simp [overlap]

end vec

/-- C124, the part that holds: matrix elements, frequency derivatives, convergence tests, wave functions, total rates and
dephasing rates do not depend on whether a state is numbered from the start or from the end. Missing: one-way rates
(`C124_one_way`, `C124_refuted`) and derivatives of states (`C124_vec`), where they do. -/
theorem C124_readers_partial (c : NoiseCirc) (hlen : c.efreqs.length = c.evecs.length) (i i' : ℤ) (p q : ℕ)
    (h : Names c.evecs.length i p) (h' : Names c.evecs.length i' q) :
    (∀ ctype nodes, c.matrixElements ctype nodes (i, i') = c.matrixElements ctype nodes (p, q)) ∧
    (∀ ty, c.decRate ty (i, i') true = c.decRate ty (p, q) true) ∧
    (∀ ty ∈ dephasingTypes, ∀ total, c.decRate ty (i, i') total = c.decRate ty (p, q) total) ∧
    (∀ dH sg, partialOmega c.evecs dH i sg = partialOmega c.evecs dH p sg) := by
  have ht : ∀ ty, c.decRate ty (i, i') true = c.decRate ty (p, q) true := fun ty =>
    names_rate c hlen h h' ty true fun a => tempS_total a _ _
  refine ⟨names_elements c h h', ht, ?_, ?_⟩
  · intro ty hty total
    cases total with
    | true => exact ht ty
    | false => rw [C55_dephasing_total c ty hty, C55_dephasing_total c ty hty]; exact ht ty
  · intro dH sg
    unfold partialOmega
    rw [names_get h]

/-- C124, the part that holds, continued: `check_convergence` and `eig_phase_coord`. -/
theorem C124_vectors_partial {nJ n : ℕ} (hyperu : ℝ → ℝ → ℝ → ℝ) (D : ModeData nJ n) (d : Fin n → ℕ)
    (evecs : List (ℕ → ℂ)) (efreqs : List ℝ) (m : List ℕ) (i : ℤ) (p : ℕ) (h : Names evecs.length i p) :
    (∀ t threshold, checkConvergence efreqs evecs m i t threshold = checkConvergence efreqs evecs m p t threshold) ∧
    (∀ grid, eigPhaseCoordGrid hyperu D d evecs (some i) grid = eigPhaseCoordGrid hyperu D d evecs (some (p : ℤ)) grid) := by
  constructor
  · intro t threshold
    unfold checkConvergence
    rw [names_idx h]
  · intro grid
    unfold eigPhaseCoordGrid
    simp only [names_index h]

/-- C124, one-way rates: `dec_rate(type, (i, i'), total=False)` compares the indices, not the states. If the indices are
ordered like the states they name, the result is that of the numbers counted from the start; if not, it is the rate of the
reverse process. -/
theorem C124_one_way (c : NoiseCirc) (ng : Fin c.M.keep.length → ℝ) (hmem : c.mem = buildMem c.M.data c.m ng)
    (hlen : c.efreqs.length = c.evecs.length) (ty : String) (hty : ty ∈ lossTypes) (i i' : ℤ) (p q : ℕ)
    (h : Names c.evecs.length i p) (h' : Names c.evecs.length i' q) (hpq : p ≠ q) :
    ((i > i' ↔ p > q) → c.decRate ty (i, i') false = c.decRate ty (p, q) false) ∧
    (¬ (i > i' ↔ p > q) → c.decRate ty (i, i') false = c.decRate ty (q, p) false) := by
  refine ⟨fun ho => names_rate c hlen h h' ty false fun a => ?_, fun hne =>
    names_one_way c ng hmem hlen h h' ty hty hpq hne⟩
  unfold tempS
  cases thermal a with
  | none => rfl
  | some du =>
    have : (i > i') ↔ ((p : ℤ) > (q : ℤ)) := ho.trans (by omega)
    simp only [if_true, this]

section session
variable {c : CircSpec} {eigs : EigsFn} {as : List ℂ → List ℕ}

/-- C124 for circuit objects: after any orderly history and `diag(num)`, with `p` and `q` two of the computed states and
`i`, `i'` Python indices naming them: total rates and dephasing rates are those of `(p, q)`; one-way loss rates are those
of `(p, q)` if `i`, `i'` are ordered like `p`, `q`, and those of `(q, p)` otherwise. -/
theorem C124_session (he : EigsLowest eigs) (ha : CArgsortSpec as) (hs : NoSelfLoops c.els)
    (vals : ElemId → ℝ) (flux : LoopId → ℝ) (u : ℝ)
    (w0 : World (circPhys c eigs as)) (hw : construct (circPhys c eigs as) vals flux u = .ok w0)
    (h : List Act) (hh : Orderly w0 h) (hm : (run w0 h).circ.m ≠ []) (num : ℕ)
    (hdim : num + 1 < Fintype.card (Idx ((run w0 h).circ.bd.dims (run w0 h).circ.m)))
    (noise : ObjNoise) (env : NoiseEnv) (i i' : ℤ) (p q : ℕ) (hi : Names num i p) (hi' : Names num i' q) :
    let w := (diag (some num) (run w0 h)).2
    (∀ ty, sessionRate noise env ty (i, i') true w = sessionRate noise env ty (p, q) true w) ∧
    (∀ ty ∈ dephasingTypes, ∀ total, sessionRate noise env ty (i, i') total w =
      sessionRate noise env ty (p, q) total w) ∧
    (p ≠ q → ∀ ty ∈ lossTypes,
      ((i > i' ↔ p > q) → sessionRate noise env ty (i, i') false w = sessionRate noise env ty (p, q) false w) ∧
      (¬ (i > i' ↔ p > q) → sessionRate noise env ty (i, i') false w = sessionRate noise env ty (q, p) false w)) := by
  have h1 : 1 ≤ num := by have := hi.1; omega
  obtain ⟨hb, hv⟩ := edges_now hs hw hh
  obtain ⟨hbok, -, -, hham⟩ := ham_now hs hw hh hm
  obtain ⟨H, hH, hherm⟩ := C40_hermitian (run w0 h).circ.bd.C (run w0 h).circ.bd.M hbok.1
    ((run w0 h).circ.bd.dims (run w0 h).circ.m) (fun i => ((run w0 h).circ.ng i).getD 0) (run w0 h).vals
    ((run w0 h).circ.bd.fluxes (run w0 h).flux) (run w0 h).circ.bd.inds (run w0 h).circ.bd.juns hbok.2
  have hham' := hham (run w0 h) rfl
  rw [hH] at hham'
  obtain ⟨vs, ws, ev, w', hlev, hd, hef, hevs, hlen, -⟩ := diag_lowest he ha hm hham' hherm num h1 hdim
  have hd2 : (diag (some (num : ℤ)) (run w0 h)).2 = w' := congrArg Prod.snd hd
  have hefl : w'.circ.efreqs.length = num := by
    rw [hef, List.length_take, hlev.len, hlev.card]; omega
  have hses := fun ty st total => C112_session hs vals flux u w0 hw h hh noise env ty st total num
    ⟨_, congrArg Prod.fst hd⟩
    (by
      rw [hd2]
      intro h0
      rw [h0] at hefl
      simp at hefl
      omega) ev (by rw [hd2, hevs])
  rw [hd2] at hses ⊢
  have hl : w'.circ.efreqs.length = ev.length := hefl.trans hlen.symm
  rw [← hlen] at hi hi'
  simp only [hses]
  obtain ⟨-, r2, r3, -⟩ := C124_readers_partial (Build.noise c (run w0 h).circ.bd
    ((run w0 h).circ.bd.dims (run w0 h).circ.m)
    (fun i => ((run w0 h).circ.ng i).getD 0) (run w0 h).vals
    (fun l => (run w0 h).flux ((run w0 h).circ.bd.loops.get l)) (fun _ => 0)
    (noise.spec (run w0 h).circ.bd.loops (run w0 h).circ.islands) env w'.circ.efreqs ev) hl i i' p q hi hi'
  refine ⟨fun ty => congrArg some (r2 ty), fun ty hty total => congrArg some (r3 ty hty total), fun hpq ty hty => ?_⟩
  obtain ⟨r4, r5⟩ := C124_one_way (Build.noise c (run w0 h).circ.bd
    ((run w0 h).circ.bd.dims (run w0 h).circ.m)
    (fun i => ((run w0 h).circ.ng i).getD 0) (run w0 h).vals
    (fun l => (run w0 h).flux ((run w0 h).circ.bd.loops.get l)) (fun _ => 0)
    (noise.spec (run w0 h).circ.bd.loops (run w0 h).circ.islands) env w'.circ.efreqs ev)
    (fun i => ((run w0 h).circ.ng i).getD 0) rfl hl ty hty i i' p q hi hi' hpq
  exact ⟨fun ho => congrArg some (r4 ho), fun ho => congrArg some (r5 ho)⟩

end session

end SQ
