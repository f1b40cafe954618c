import Verif.Props.Levels
import Verif.Props.Dephasing
import Verif.Props.Constructed
import Verif.Props.Symbolic
import Verif.Lemmas.Rates

/-!
# C88: pure dephasing rates are noise amplitudes times slopes of the transition frequency
-/

namespace SQ
open Matrix Complex SQ.Spec Filter Topology

variable {nJ : ℕ}

/-- sensitivities are slopes of transition frequencies -/
theorem sens_slope {ι : Type*} [Fintype ι] [DecidableEq ι] {H : ℝ → Matrix ι ι ℂ} {dH : Matrix ι ι ℂ} {x : ℝ}
    (hherm : ∀ t, (H t).IsHermitian) (hd : HasDerivOp H dH x) {p q : ℕ} {psi psi' : ι → ℂ}
    (hp : IsLevel (H x) p psi) (hq : IsLevel (H x) q psi') :
    ∃ f : ℝ → ℝ, (∀ t, IsTransition (H t) p q (f t)) ∧ HasDerivAt f (sens psi psi' dH) x := by
  choose vs ws hl using fun t => levels_exists (hherm t)
  refine ⟨fun t => (ws t).getD p 0 - (ws t).getD q 0, fun t => ⟨vs t, ws t, hl t, rfl⟩, ?_⟩
  obtain ⟨hn, v1, w1, hl1, hs, he⟩ := hp
  obtain ⟨hn', v1', w1', hl1', hs', he'⟩ := hq
  obtain rfl := levels_unique hl1 (hl x)
  obtain rfl := levels_unique hl1' (hl x)
  have key : ∀ (m : ℕ) (v : ι → ℂ), SimpleLevel (ws x) m → overlap v v = 1 →
      H x *ᵥ v = (((ws x).getD m 0 : ℝ) : ℂ) • v →
      HasDerivAt (fun t => (ws t).getD m 0) (braket v dH v).re x := by
    intro m v h2 h3 h4
    obtain ⟨r, hr, hdr⟩ := C90_level (Eventually.of_forall hherm) hd vs ws (Eventually.of_forall hl) m h2
      (List.replicate (m + 1) v) v (by simp) h3 h4
    unfold partialOmega at hr
    rw [if_neg (by simp), pyGet_nat (by simp)] at hr
    simp only [List.getElem_replicate, Bool.false_eq_true, if_false, Except.ok.injEq, innerOp_eq] at hr
    rw [hr]; exact hdr
  unfold sens
  rw [Complex.sub_re]
  exact (key p psi hs hn he).sub (key q psi' hs' hn' he')

theorem hasDerivOp_sum {α ι κ : Type*} (s : Finset α) {F : α → ℝ → Matrix ι κ ℂ} {F' : α → Matrix ι κ ℂ} {x : ℝ}
    (h : ∀ q ∈ s, HasDerivOp (F q) (F' q) x) : HasDerivOp (fun t => ∑ q ∈ s, F q t) (∑ q ∈ s, F' q) x := by
  intro a b
  simp only [Matrix.sum_apply]
  exact HasDerivAt.fun_sum fun q hq => h q hq a b

/-- charge operators when one offset is changed -/
theorem Q_update {k : ℕ} (D : ModeData nJ k) (m : Fin k → ℕ) (ng : Fin k → ℝ) {i : Fin k} (hi : D.omega i = 0)
    (t : ℝ) (j : Fin k) :
    (buildMem D m (Function.update ng i t)).Q j = (buildMem D m ng).Q j -
      (if j = i then ((2 * eCharge / √hbar * (t - ng i) : ℝ) : ℂ) else 0) • 1 := by
  rw [buildMem_Q, buildMem_Q]
  by_cases h : j = i
  · subst h
    rw [if_pos rfl]
    unfold chargeOpIso
    rw [if_pos hi, if_pos hi, Function.update_self, single_smul, single_smul, single_sub, single_sub, single_smul,
      single_smul, single_one]
    rw [smul_sub, smul_sub, smul_smul, smul_smul, sub_sub, ← add_smul]
    congr 2
    push_cast
    ring
  · rw [if_neg h, zero_smul, sub_zero]
    unfold chargeOpIso
    rw [Function.update_of_ne h]

/-- derivative of the LC part with respect to a charge offset -/
theorem lc_ng_deriv {k : ℕ} (D : ModeData nJ k) (hsym : D.cInv.IsSymm) (m : Fin k → ℕ) (ng : Fin k → ℝ) {i : Fin k}
    (hi : D.omega i = 0) :
    HasDerivOp (fun t => lcHamil D (buildMem D m (Function.update ng i t)))
      (-((2 * eCharge : ℝ) : ℂ) • partialHng D.cInv (buildMem D m ng) i) (ng i) := by
  classical
  set a : ℝ := 2 * eCharge / √hbar with ha
  have hN : ∀ t j, (buildMem D m (Function.update ng i t)).N j = (buildMem D m ng).N j := by
    intro t j
    rw [buildMem_N, buildMem_N]
  have hQQ : ∀ k' l, HasDerivOp (fun t => (buildMem D m (Function.update ng i t)).Q k' *
      (buildMem D m (Function.update ng i t)).Q l)
      ((if k' = i then ((-a : ℝ) : ℂ) else 0) • (buildMem D m ng).Q l +
        (if l = i then ((-a : ℝ) : ℂ) else 0) • (buildMem D m ng).Q k') (ng i) := by
    intro k' l x y
    have e : ∀ t, ((buildMem D m (Function.update ng i t)).Q k' * (buildMem D m (Function.update ng i t)).Q l) x y =
        ((buildMem D m ng).Q k' * (buildMem D m ng).Q l) x y -
        (if k' = i then ((a * (t - ng i) : ℝ) : ℂ) else 0) * (buildMem D m ng).Q l x y -
        (if l = i then ((a * (t - ng i) : ℝ) : ℂ) else 0) * (buildMem D m ng).Q k' x y +
        (if k' = i then ((a * (t - ng i) : ℝ) : ℂ) else 0) * (if l = i then ((a * (t - ng i) : ℝ) : ℂ) else 0) *
          (1 : Op m) x y := by
      intro t
      rw [Q_update D m ng hi, Q_update D m ng hi, ← ha]
      simp only [sub_mul, mul_sub, Matrix.sub_apply, Matrix.smul_mul, Matrix.mul_smul, Matrix.one_mul, Matrix.mul_one,
        Matrix.smul_apply, smul_eq_mul]
      ring
    simp only [e]
    have hr : HasDerivAt (fun t : ℝ => a * (t - ng i)) a (ng i) := by
      simpa using ((hasDerivAt_id' (ng i)).sub_const (ng i)).const_mul a
    have hf : ∀ j : Fin k, HasDerivAt (fun t : ℝ => if j = i then ((a * (t - ng i) : ℝ) : ℂ) else 0)
        (if j = i then (a : ℂ) else 0) (ng i) := by
      intro j
      by_cases h : j = i
      · simp only [if_pos h]; exact hr.ofReal_comp
      · simp only [if_neg h]; exact hasDerivAt_const _ _
    have := ((((hasDerivAt_const (ng i) (((buildMem D m ng).Q k' * (buildMem D m ng).Q l) x y)).sub
      ((hf k').mul_const ((buildMem D m ng).Q l x y))).sub ((hf l).mul_const ((buildMem D m ng).Q k' x y))).add
      (((hf k').mul (hf l)).mul_const ((1 : Op m) x y)))
    refine this.congr_deriv ?_
    simp only [sub_self, mul_zero, ofReal_zero, ite_self, zero_mul, add_zero, zero_sub, Matrix.add_apply,
      Matrix.smul_apply, smul_eq_mul, ofReal_neg]
    split_ifs <;> ring
  have hmain : HasDerivOp (fun t => ∑ i', (if D.omega i' ≠ 0 then ((D.omega i' : ℝ) : ℂ) • (buildMem D m ng).N i' else 0) +
      (1 / 2 : ℂ) • ∑ i', ∑ j, (if i' = j ∧ D.omega i' ≠ 0 then 0
        else ((D.cInv i' j : ℝ) : ℂ) • ((buildMem D m (Function.update ng i t)).Q i' *
          (buildMem D m (Function.update ng i t)).Q j)))
      (0 + (1 / 2 : ℂ) • ∑ i', ∑ j, (if i' = j ∧ D.omega i' ≠ 0 then 0 else ((D.cInv i' j : ℝ) : ℂ) •
        ((if i' = i then ((-a : ℝ) : ℂ) else 0) • (buildMem D m ng).Q j +
        (if j = i then ((-a : ℝ) : ℂ) else 0) • (buildMem D m ng).Q i'))) (ng i) := by
    refine hasDerivOp_add (hasDerivOp_const _) (hasDerivOp_const_smul _ (hasDerivOp_sum _ fun i' _ =>
      hasDerivOp_sum _ fun j _ => ?_))
    by_cases h : i' = j ∧ D.omega i' ≠ 0
    · simp only [if_pos h]; exact hasDerivOp_const _
    · simp only [if_neg h]; exact hasDerivOp_const_smul _ (hQQ i' j)
  have e1 := fun t => C39_lc_hamiltonian D hsym m (Function.update ng i t)
  simp only [hN] at e1
  simp only [e1]
  convert hmain using 1
  rw [zero_add, partialHng_eq]
  have e2 : ∀ i' j, (if i' = j ∧ D.omega i' ≠ 0 then 0 else ((D.cInv i' j : ℝ) : ℂ) •
        ((if i' = i then ((-a : ℝ) : ℂ) else 0) • (buildMem D m ng).Q j +
        (if j = i then ((-a : ℝ) : ℂ) else 0) • (buildMem D m ng).Q i')) =
      (if i' = i then ((D.cInv i j * -a : ℝ) : ℂ) • (buildMem D m ng).Q j else 0) +
      (if j = i then ((D.cInv i i' * -a : ℝ) : ℂ) • (buildMem D m ng).Q i' else 0) := by
    intro i' j
    have hs : ∀ u v, D.cInv u v = D.cInv v u := fun u v => hsym.apply v u
    by_cases h1 : i' = i
    · subst h1
      rw [if_neg (by rintro ⟨-, h⟩; exact h hi), if_pos rfl, if_pos rfl]
      by_cases h2 : j = i'
      · subst h2
        simp only [if_true, smul_add, smul_smul]
        push_cast; rfl
      · simp only [if_neg h2, zero_smul, add_zero, smul_smul]
        push_cast; rfl
    · by_cases h2 : j = i
      · subst h2
        rw [if_neg (by rintro ⟨h, -⟩; exact h1 h), if_neg h1, if_neg h1, if_pos rfl, if_pos rfl, zero_smul,
          zero_add, zero_add, smul_smul, hs j i']
        push_cast; rfl
      · simp [h1, h2]
  simp only [e2, Finset.sum_add_distrib]
  have e3 : ∑ i', ∑ j, (if i' = i then ((D.cInv i j * -a : ℝ) : ℂ) • (buildMem D m ng).Q j else 0) =
      ∑ j, ((D.cInv i j * -a : ℝ) : ℂ) • (buildMem D m ng).Q j := by
    rw [Finset.sum_eq_single i]
    · simp
    · intro b _ hb; simp [hb]
    · intro h; exact absurd (Finset.mem_univ _) h
  have e4 : ∑ i', ∑ j, (if j = i then ((D.cInv i i' * -a : ℝ) : ℂ) • (buildMem D m ng).Q i' else 0) =
      ∑ j, ((D.cInv i j * -a : ℝ) : ℂ) • (buildMem D m ng).Q j := by
    refine Finset.sum_congr rfl fun i' _ => ?_
    simp
  rw [e3, e4, ← two_smul ℂ, smul_smul, Finset.smul_sum, Finset.smul_sum]
  refine Finset.sum_congr rfl fun j _ => ?_
  rw [smul_smul, smul_smul]
  congr 1
  rw [ha]
  push_cast
  ring

theorem pyGet_of_getElem? {α : Type*} {l : List α} {i : ℕ} {v : α} (h : l[i]? = some v) :
    pyGet l (i : ℤ) = .ok v := by
  have hlt : i < l.length := by
    by_contra h'
    rw [List.getElem?_eq_none (Nat.le_of_not_lt h')] at h
    cases h
  rw [pyGet_nat hlt]
  rw [List.getElem?_eq_getElem hlt] at h
  exact congrArg Except.ok (Option.some.inj h)

theorem pair_stored (c : NoiseCirc) {p q : ℕ} {s s' : Idx c.m → ℂ} (hp : c.evecs[p]? = some s)
    (hq : c.evecs[q]? = some s') (hpf : p < c.efreqs.length) (hqf : q < c.efreqs.length) :
    ∃ w w', c.pair ((p : ℤ), (q : ℤ)) = .ok ((w, w'), (s, s')) := by
  unfold NoiseCirc.pair
  rw [if_neg (by omega)]
  simp only [pyGet_nat hpf, pyGet_nat hqf, pyGet_of_getElem? hp, pyGet_of_getElem? hq]
  exact ⟨_, _, rfl⟩

theorem choose_list {α : Type*} {β : Type*} [Inhabited β] {l : List α} {R : α → β → Prop}
    (h : ∀ a ∈ l, ∃ b, R a b) : ∃ f : α → β, ∀ a ∈ l, R a (f a) := by
  classical
  refine ⟨fun a => if ha : a ∈ l then (h a ha).choose else default, fun a ha => ?_⟩
  simp only [dif_pos ha]
  exact (h a ha).choose_spec

theorem good_cInv_symm {c : CircSpec} {vals : ElemId → ℝ} (hc : GoodCircuit c vals) {b : Build}
    (hb : buildCirc c vals = .ok b) : b.M.cInv.IsSymm := by
  obtain ⟨n, a, B, t, hn, htr, -, ht, rfl⟩ := buildCirc_stages hb
  obtain ⟨-, hC, hL⟩ := good_mats hc hn htr
  have hsym : t.cInv.IsSymm := by
    obtain ⟨-, hcc, -⟩ := C26_canonical_construction (c.lib n) c.sv c.argsort (c.argmax _) (hc.argmax _) c.draws _ _ _ hC
      hL.isHermitian _ (hc.lib n a hn htr).1 (hc.lib n a hn htr).2 c.fuel t ht
    rw [hcc]
    have hCs : (a.cMat⁻¹)ᵀ = a.cMat⁻¹ := by
      rw [transpose_nonsing_inv]
      congr 1
      have := hC.isHermitian
      rw [IsHermitian, conjTranspose_eq_transpose_of_trivial] at this
      exact this
    unfold IsSymm
    rw [transpose_mul, transpose_mul, transpose_transpose, hCs, Matrix.mul_assoc]
  obtain ⟨-, -, hk⟩ := C32_uncoupled_removal t
  ext i j
  rw [transpose_apply]
  have h1 := ((hk c.torch).2.2.2 j i).1
  have h2 := ((hk c.torch).2.2.2 i j).1
  refine h1.trans (Eq.trans ?_ h2.symm)
  exact hsym.apply _ _

theorem ham_split {n b : ℕ} (C : Matrix (Fin n) (Fin n) ℝ) (M : Modes nJ n) (hk : M.keep.length ≤ n)
    {m : Fin M.keep.length → ℕ} (mem mem0 : OpMem nJ m) (h1 : mem.phi = mem0.phi) (h2 : mem.exp = mem0.exp)
    (lc : Op m) (val : ElemId → ℝ) (phi : Fin b → ℝ) (inds : List (IndKey b)) (juns : List (JunKey b nJ))
    (hv : ∀ key ∈ inds, ValidEdge n key.edge) :
    hamiltonianOf C M mem lc val phi inds juns = .ok (
      ((inds.map (fun key => ((1 / val key.el * phi key.bId * (Phi0 / 2 / Real.pi) / √hbar : ℝ) : ℂ) •
        indOpOf C M mem0 key)).sum +
      (juns.map (fun key => (-(val key.el : ℂ)) • cosOp mem0 key.wId (phi key.bId))).sum) + lc) := by
  rw [hamiltonianOf_eq C M hk mem lc val phi inds juns hv]
  have e1 : inds.map (fun key => ((1 / val key.el * phi key.bId * (Phi0 / 2 / Real.pi) / √hbar : ℝ) : ℂ) •
        indOpOf C M mem key) = inds.map (fun key => ((1 / val key.el * phi key.bId * (Phi0 / 2 / Real.pi) / √hbar : ℝ) : ℂ) •
        indOpOf C M mem0 key) :=
    List.map_congr_left fun key hkey => by
      rw [indOpOf_eq C M hk mem (hv key hkey), indOpOf_eq C M hk mem0 (hv key hkey), h1]
  have e2 : ∀ key : JunKey b nJ, cosOp mem key.wId (phi key.bId) = cosOp mem0 key.wId (phi key.bId) := by
    intro key
    unfold cosOp
    rw [h2]
  simp only [e1, e2]

theorem buildMem_phi_ng {k : ℕ} (D : ModeData nJ k) (m : Fin k → ℕ) (ng ng' : Fin k → ℝ) :
    (buildMem D m ng).phi = (buildMem D m ng').phi := by
  funext i
  rw [buildMem_phi, buildMem_phi]

theorem buildMem_exp_ng {k : ℕ} (D : ModeData nJ k) (m : Fin k → ℕ) (ng ng' : Fin k → ℝ) :
    (buildMem D m ng).exp = (buildMem D m ng').exp := rfl

/-- the Hamiltonian as a function of a charge offset -/
theorem ham_ng_deriv {n b : ℕ} (C : Matrix (Fin n) (Fin n) ℝ) (M : Modes nJ n) (hk : M.keep.length ≤ n)
    (D : ModeData nJ M.keep.length) (hsym : D.cInv.IsSymm) (m : Fin M.keep.length → ℕ) (ng : Fin M.keep.length → ℝ)
    (val : ElemId → ℝ) (phi : Fin b → ℝ) (inds : List (IndKey b)) (juns : List (JunKey b nJ))
    (hv : ∀ key ∈ inds, ValidEdge n key.edge) {i : Fin M.keep.length} (hi : D.omega i = 0) :
    ∃ H : ℝ → Op m,
      (∀ t, hamiltonianOf C M (buildMem D m (Function.update ng i t))
        (lcHamil D (buildMem D m (Function.update ng i t))) val phi inds juns = .ok (H t)) ∧
      HasDerivOp H (-((2 * eCharge : ℝ) : ℂ) • partialHng D.cInv (buildMem D m ng) i) (ng i) := by
  refine ⟨_, fun t => ham_split C M hk _ (buildMem D m ng) (buildMem_phi_ng D m _ _) (buildMem_exp_ng D m _ _) _ val phi inds juns hv, ?_⟩
  have h2 := hasDerivOp_add (hasDerivOp_const ((inds.map (fun key => ((1 / val key.el * phi key.bId * (Phi0 / 2 / Real.pi) / √hbar : ℝ) : ℂ) •
        indOpOf C M (buildMem D m ng) key)).sum +
      (juns.map (fun key => (-(val key.el : ℂ)) • cosOp (buildMem D m ng) key.wId (phi key.bId))).sum)) (lc_ng_deriv D hsym m ng hi)
  rw [zero_add] at h2
  exact h2

/-- the Hamiltonian as a function of the Josephson energy on one branch -/
theorem ham_branch_deriv {n b : ℕ} (C : Matrix (Fin n) (Fin n) ℝ) (M : Modes nJ n) (hk : M.keep.length ≤ n)
    {m : Fin M.keep.length → ℕ} (mem : OpMem nJ m) (lc : Op m) (val : ElemId → ℝ)
    (phi : Fin b → ℝ) (inds : List (IndKey b)) (juns : List (JunKey b nJ))
    (hv : ∀ key ∈ inds, ValidEdge n key.edge) (hnd : (juns.map (·.bId)).Nodup) (e : ElemId)
    (hei : ∀ k ∈ inds, k.el ≠ e) (hej : ∀ k ∈ juns, k.el ≠ e) (key : JunKey b nJ) (hkey : key ∈ juns) :
    ∃ H : ℝ → Op m,
      (∀ t, hamiltonianOf C M mem lc (Function.update val e t) phi inds (ownJunction juns key.bId e) = .ok (H t)) ∧
      HasDerivOp H ((-1 : ℂ) • cosOp mem key.wId (phi key.bId)) (val key.el) ∧
      hamiltonianOf C M mem lc val phi inds juns = .ok (H (val key.el)) := by
  refine ⟨_, fun t => hamiltonianOf_eq C M hk mem lc _ phi inds _ hv, ?_, ?_⟩
  · have e3 : ∀ t, (inds.map (fun k => ((1 / Function.update val e t k.el * phi k.bId * (Phi0 / 2 / Real.pi) / √hbar : ℝ)
          : ℂ) • indOpOf C M mem k)) =
        inds.map (fun k => ((1 / val k.el * phi k.bId * (Phi0 / 2 / Real.pi) / √hbar : ℝ) : ℂ) •
          indOpOf C M mem k) := fun t =>
      List.map_congr_left fun k hk' => by rw [Function.update_of_ne (hei k hk')]
    have e4 : ∀ t, ((ownJunction juns key.bId e).map (fun k => (-(Function.update val e t k.el : ℂ)) •
        cosOp mem k.wId (phi k.bId))) = juns.map (fun k => if k.bId = key.bId then (-(t : ℂ)) • cosOp mem k.wId (phi k.bId)
          else (-(val k.el : ℂ)) • cosOp mem k.wId (phi k.bId)) := by
      intro t
      unfold ownJunction
      rw [List.map_map]
      refine List.map_congr_left fun k hk' => ?_
      simp only [Function.comp_apply]
      by_cases h : k.bId = key.bId
      · simp [h]
      · rw [if_neg h, if_neg h, Function.update_of_ne (hej k hk')]
    simp only [e3, e4]
    have h5 := hasDerivOp_list_sum juns (fun k t => if k.bId = key.bId then (-(t : ℂ)) • cosOp mem k.wId (phi k.bId)
          else (-(val k.el : ℂ)) • cosOp mem k.wId (phi k.bId))
      (fun k => if k.bId = key.bId then (-1 : ℂ) • cosOp mem k.wId (phi k.bId) else 0) (x := val key.el) (by
        intro k _
        by_cases h : k.bId = key.bId
        · simp only [if_pos h]
          have := hasDerivOp_smul_const (hasDerivAt_id' (val key.el)).fun_neg (cosOp mem k.wId (phi k.bId))
          simpa using this
        · simp only [if_neg h]
          exact hasDerivOp_const _)
    have h6 : (juns.map (fun k => if k.bId = key.bId then (-1 : ℂ) • cosOp mem k.wId (phi k.bId) else 0)).sum =
        (-1 : ℂ) • cosOp mem key.wId (phi key.bId) := by
      clear h5 e4 e3 hej
      induction juns with
      | nil => cases hkey
      | cons a l ih =>
        rw [List.map_cons, List.nodup_cons] at hnd
        rw [List.map_cons, List.sum_cons]
        rcases List.mem_cons.1 hkey with h | h
        · subst h
          rw [if_pos rfl]
          have h0 : l.map (fun k => if k.bId = key.bId then (-1 : ℂ) • cosOp mem k.wId (phi k.bId) else 0) =
              l.map (fun _ => 0) :=
            List.map_congr_left fun x hx => if_neg fun h2 => hnd.1 (List.mem_map.2 ⟨x, hx, h2⟩)
          rw [h0]; simp
        · rw [ih hnd.2 h, if_neg, zero_add]
          intro h2
          exact hnd.1 (List.mem_map.2 ⟨key, h, h2.symm⟩)
    rw [h6] at h5
    have := hasDerivOp_add (hasDerivOp_add (x := val key.el) (hasDerivOp_const ((inds.map (fun k => ((1 / val k.el *
      phi k.bId * (Phi0 / 2 / Real.pi) / √hbar : ℝ) : ℂ) • indOpOf C M mem k)).sum)) h5) (hasDerivOp_const lc)
    simpa using this
  · rw [hamiltonianOf_eq C M hk mem lc val phi inds juns hv]
    congr 3
    · refine congrArg List.sum (List.map_congr_left fun k hk' => ?_)
      rw [Function.update_of_ne (hei k hk')]
    · unfold ownJunction
      rw [List.map_map]
      refine congrArg List.sum (List.map_congr_left fun k hk' => ?_)
      simp only [Function.comp_apply]
      by_cases h : k.bId = key.bId
      · have : k = key := by
          by_contra hne
          exact hne (List.inj_on_of_nodup_map hnd hk' hkey h)
        subst this
        simp
      · rw [if_neg h, Function.update_of_ne (hej k hk')]

theorem sens_smul {ι : Type*} [Fintype ι] (s s' : ι → ℂ) (r : ℝ) (G : Matrix ι ι ℂ) :
    sens s s' ((r : ℂ) • G) = r * sens s s' G := by
  unfold sens braket
  simp only [Matrix.smul_apply, smul_eq_mul]
  rw [← re_ofReal_mul, mul_sub, Finset.mul_sum, Finset.mul_sum]
  simp only [Finset.mul_sum]
  congr 2 <;> exact Finset.sum_congr rfl fun a _ => Finset.sum_congr rfl fun b _ => by ring

section build
variable (c : CircSpec) (v0 : ElemId → ℝ) (bd : Build) (m : Fin bd.M.keep.length → ℕ)
    (ng : Fin bd.M.keep.length → ℝ) (val : ElemId → ℝ) (fluxes : Fin bd.loops.length → ℝ)
    (P : ElemId → Matrix (Fin bd.n) (Fin bd.n) ℝ) (noise : NoiseSpec bd.loops.length) (env : NoiseEnv)
    (ef : List ℝ) (ev : List (Idx m → ℂ)) (p q : ℕ) (psi psi' : Idx m → ℂ) (H : Op m)

/-- C88, flux noise: for a constructed circuit whose stored eigenvectors number `p`, `q` belong to levels
`p`, `q` of its Hamiltonian, both not degenerate, `dec_rate("flux", (p, q))` is the sum over the loops of
|amplitude × slope of the transition frequency as a function of the loop's flux| × √(2|ln(ω_low t_exp)|). -/
theorem C88_flux (hs : NoSelfLoops c.els) (hb : buildCirc c v0 = .ok bd)
    (hH : fullHamiltonian bd.C bd.M m ng val (extFlux bd.B fluxes) bd.inds bd.juns = .ok H)
    (hp : ev[p]? = some psi) (hq : ev[q]? = some psi') (hpf : p < ef.length) (hqf : q < ef.length)
    (hlp : IsLevel H p psi) (hlq : IsLevel H q psi') (total : Bool) :
    ∃ f : Fin bd.loops.length → ℝ → ℝ,
      (∀ l t, ∃ H', fullHamiltonian bd.C bd.M m ng val (extFlux bd.B (Function.update fluxes l t)) bd.inds bd.juns
        = .ok H' ∧ IsTransition H' p q (f l t)) ∧
      (∀ l, DifferentiableAt ℝ (f l) (fluxes l)) ∧
      (bd.noise c m ng val fluxes P noise env ef ev).decRate "flux" (p, q) total =
        .ok (.val (∑ l, |noise.loopA l * deriv (f l) (fluxes l)| *
          √(2 * |Real.log (env.omegaLow * env.tExp)|))) := by
  obtain ⟨h1, h2⟩ := build_valid hs hb
  have key : ∀ l, ∃ f : ℝ → ℝ, (∀ t, ∃ H', fullHamiltonian bd.C bd.M m ng val
      (extFlux bd.B (Function.update fluxes l t)) bd.inds bd.juns = .ok H' ∧ IsTransition H' p q (f t)) ∧
      HasDerivAt f (sens psi psi' (partialH bd.C bd.M (buildMem bd.M.data m ng) val bd.B fluxes P bd.inds bd.juns none
        (.loop l))) (fluxes l) := by
    intro l
    obtain ⟨G, hG, hd⟩ := (C57_circuit c hs v0 bd hb m ng val fluxes P).1 l
    have hGh : ∀ t, (G t).IsHermitian := by
      intro t
      obtain ⟨X, hX, hXh⟩ := C40_hermitian bd.C bd.M h1 m ng val (extFlux bd.B (Function.update fluxes l t)) bd.inds
        bd.juns h2
      rw [← Except.ok.inj (hX.symm.trans (hG t))]; exact hXh
    have hGx : G (fluxes l) = H := by
      have := hG (fluxes l)
      rw [Function.update_eq_self] at this
      exact Except.ok.inj (this.symm.trans hH)
    obtain ⟨f, hf1, hf2⟩ := sens_slope hGh hd (p := p) (q := q) (psi := psi) (psi' := psi') (by rw [hGx]; exact hlp)
      (by rw [hGx]; exact hlq)
    exact ⟨f, fun t => ⟨G t, hG t, hf1 t⟩, hf2⟩
  choose f hf hfd using key
  refine ⟨f, hf, fun l => (hfd l).differentiableAt, ?_⟩
  rw [decRate_eq]
  obtain ⟨w, w', hpair⟩ := pair_stored (bd.noise c m ng val fluxes P noise env ef ev) hp hq hpf hqf
  rw [hpair]
  simp only
  unfold NoiseCirc.rateOf
  simp only [String.reduceEq, if_false, if_true]
  rw [fluxRate_eq (bd.noise c m ng val fluxes P noise env ef ev) (pyGet_of_getElem? hp) (pyGet_of_getElem? hq)]
  simp only [Except.map]
  congr 2
  rw [zero_add]
  refine (finRange_map_sum _).trans (Finset.sum_congr rfl fun l _ => ?_)
  rw [(hfd l).deriv, mul_comm (noise.loopA l)]
  rfl

/-- C88, charge noise: `dec_rate("charge", (p, q))` is the sum over the charge modes of |amplitude × slope of the
transition frequency as a function of the mode's charge offset| × √(2|ln(ω_low t_exp)|). -/
theorem C88_charge (hc : GoodCircuit c v0) (hb : buildCirc c v0 = .ok bd)
    (hH : fullHamiltonian bd.C bd.M m ng val (extFlux bd.B fluxes) bd.inds bd.juns = .ok H)
    (hp : ev[p]? = some psi) (hq : ev[q]? = some psi') (hpf : p < ef.length) (hqf : q < ef.length)
    (hlp : IsLevel H p psi) (hlq : IsLevel H q psi') (total : Bool) :
    open Classical in
    ∃ f : Fin bd.M.keep.length → ℝ → ℝ,
      (∀ i, bd.M.omega i = 0 → ∀ t, ∃ H', fullHamiltonian bd.C bd.M m (Function.update ng i t) val
        (extFlux bd.B fluxes) bd.inds bd.juns = .ok H' ∧ IsTransition H' p q (f i t)) ∧
      (∀ i, bd.M.omega i = 0 → DifferentiableAt ℝ (f i) (ng i)) ∧
      (bd.noise c m ng val fluxes P noise env ef ev).decRate "charge" (p, q) total =
        .ok (.val (∑ i, if bd.M.omega i = 0 then |noise.chargeA i * deriv (f i) (ng i)| *
          √(2 * |Real.log (env.omegaLow * env.tExp)|) else 0)) := by
  classical
  obtain ⟨h1, h2⟩ := build_valid hc.noSelf hb
  have hsym := good_cInv_symm hc hb
  have key : ∀ i, ∃ f : ℝ → ℝ, bd.M.omega i = 0 → (∀ t, ∃ H', fullHamiltonian bd.C bd.M m (Function.update ng i t) val
        (extFlux bd.B fluxes) bd.inds bd.juns = .ok H' ∧ IsTransition H' p q (f t)) ∧
      HasDerivAt f (-(2 * eCharge) * sens psi psi' (partialHng bd.M.cInv (buildMem bd.M.data m ng) i)) (ng i) := by
    intro i
    by_cases hi : bd.M.omega i = 0
    · obtain ⟨G, hG, hd⟩ := ham_ng_deriv bd.C bd.M h1 bd.M.data hsym m ng val (extFlux bd.B fluxes) bd.inds bd.juns h2 hi
      have hGh : ∀ t, (G t).IsHermitian := by
        intro t
        obtain ⟨X, hX, hXh⟩ := C40_hermitian bd.C bd.M h1 m (Function.update ng i t) val (extFlux bd.B fluxes) bd.inds
          bd.juns h2
        rw [← Except.ok.inj (hX.symm.trans (hG t))]; exact hXh
      have hGx : G (ng i) = H := by
        have := hG (ng i)
        rw [Function.update_eq_self] at this
        exact Except.ok.inj (this.symm.trans hH)
      obtain ⟨f, hf1, hf2⟩ := sens_slope hGh hd (p := p) (q := q) (psi := psi) (psi' := psi') (by rw [hGx]; exact hlp)
        (by rw [hGx]; exact hlq)
      refine ⟨f, fun _ => ⟨fun t => ⟨G t, hG t, hf1 t⟩, ?_⟩⟩
      convert hf2 using 1
      rw [← ofReal_neg, sens_smul]
      rfl
    · exact ⟨fun _ => 0, fun h => absurd h hi⟩
  choose f hf using key
  refine ⟨f, fun i hi => (hf i hi).1, fun i hi => (hf i hi).2.differentiableAt, ?_⟩
  rw [decRate_eq]
  obtain ⟨w, w', hpair⟩ := pair_stored (bd.noise c m ng val fluxes P noise env ef ev) hp hq hpf hqf
  rw [hpair]
  simp only
  unfold NoiseCirc.rateOf
  simp only [String.reduceEq, if_false, if_true]
  rw [chargeRate_eq (bd.noise c m ng val fluxes P noise env ef ev)
    (fun i => partialHng_herm bd.M.data m ng bd.M.cInv i) psi psi']
  congr 2
  refine (sum_filter_finRange _ _).trans (Finset.sum_congr rfl fun i _ => ?_)
  by_cases hi : bd.M.omega i = 0
  · rw [if_pos hi, if_pos (by exact decide_eq_true hi), (hf i hi).2.deriv]
    show |sens psi psi' (partialHng bd.M.cInv (buildMem bd.M.data m ng) i) * (noise.chargeA i * 2 * eCharge)| *
      √(2 * |Real.log (env.omegaLow * env.tExp)|) = _
    generalize sens psi psi' (partialHng bd.M.cInv (buildMem bd.M.data m ng) i) = s
    rw [← abs_neg]
    congr 2
    ring
  · rw [if_neg hi, if_neg (by exact fun h => hi (of_decide_eq_true h))]

/-- C88, critical-current noise: `dec_rate("cc", (p, q))` is the sum over the junctions of |relative amplitude ×
Josephson energy × slope of the transition frequency as a function of this junction's Josephson energy| ×
√(2|ln(ω_low t_exp)|). `e` is a fresh identity, used to vary each junction alone. -/
theorem C88_critical_current (hs : NoSelfLoops c.els) (hb : buildCirc c v0 = .ok bd) (e : ElemId)
    (hei : ∀ k ∈ bd.inds, k.el ≠ e) (hej : ∀ k ∈ bd.juns, k.el ≠ e)
    (hH : fullHamiltonian bd.C bd.M m ng val (extFlux bd.B fluxes) bd.inds bd.juns = .ok H)
    (hp : ev[p]? = some psi) (hq : ev[q]? = some psi') (hpf : p < ef.length) (hqf : q < ef.length)
    (hlp : IsLevel H p psi) (hlq : IsLevel H q psi') (total : Bool) :
    ∃ f : JunKey bd.nB bd.nJ → ℝ → ℝ,
      (∀ key ∈ bd.juns, ∀ t, ∃ H', fullHamiltonian bd.C bd.M m ng (Function.update val e t) (extFlux bd.B fluxes)
        bd.inds (ownJunction bd.juns key.bId e) = .ok H' ∧ IsTransition H' p q (f key t)) ∧
      (∀ key ∈ bd.juns, DifferentiableAt ℝ (f key) (val key.el)) ∧
      (bd.noise c m ng val fluxes P noise env ef ev).decRate "cc" (p, q) total =
        .ok (.val ((bd.juns.map fun key => |noise.junA key.el * val key.el * deriv (f key) (val key.el)| *
          √(2 * |Real.log (env.omegaLow * env.tExp)|)).sum)) := by
  classical
  obtain ⟨h1, h2⟩ := build_valid hs hb
  have hk := build_keys hs hb
  have key : ∀ key, ∃ f : ℝ → ℝ, key ∈ bd.juns → (∀ t, ∃ H', fullHamiltonian bd.C bd.M m ng (Function.update val e t)
        (extFlux bd.B fluxes) bd.inds (ownJunction bd.juns key.bId e) = .ok H' ∧ IsTransition H' p q (f t)) ∧
      HasDerivAt f (sens psi psi' (partialH bd.C bd.M (buildMem bd.M.data m ng) val bd.B fluxes P bd.inds bd.juns
        (some key.bId) (.jun key.el))) (val key.el) := by
    intro key
    by_cases hi : key ∈ bd.juns
    · obtain ⟨G, hG, hd, hGx⟩ := ham_branch_deriv bd.C bd.M h1 (buildMem bd.M.data m ng)
        (lcHamil bd.M.data (buildMem bd.M.data m ng)) val (extFlux bd.B fluxes) bd.inds bd.juns h2 hk.nodup e hei hej key hi
      have hGh : ∀ t, (G t).IsHermitian := by
        intro t
        obtain ⟨X, hX, hXh⟩ := C40_hermitian bd.C bd.M h1 m ng (Function.update val e t) (extFlux bd.B fluxes) bd.inds
          (ownJunction bd.juns key.bId e) h2
        rw [← Except.ok.inj (hX.symm.trans (hG t))]; exact hXh
      replace hGx : G (val key.el) = H := Except.ok.inj (hGx.symm.trans hH)
      obtain ⟨f, hf1, hf2⟩ := sens_slope hGh hd (p := p) (q := q) (psi := psi) (psi' := psi') (by rw [hGx]; exact hlp)
        (by rw [hGx]; exact hlq)
      refine ⟨f, fun _ => ⟨fun t => ⟨G t, hG t, hf1 t⟩, ?_⟩⟩
      rw [partialH_branch bd.C bd.M (buildMem bd.M.data m ng) val bd.B fluxes P bd.inds bd.juns hk.nodup key hi]
      exact hf2
    · exact ⟨fun _ => 0, fun h => absurd h hi⟩
  choose f hf using key
  refine ⟨f, fun k hi => (hf k hi).1, fun k hi => (hf k hi).2.differentiableAt, ?_⟩
  rw [decRate_eq]
  obtain ⟨w, w', hpair⟩ := pair_stored (bd.noise c m ng val fluxes P noise env ef ev) hp hq hpf hqf
  rw [hpair]
  simp only
  unfold NoiseCirc.rateOf
  simp only [String.reduceEq, if_false, if_true]
  rw [ccRate_eq (bd.noise c m ng val fluxes P noise env ef ev) (pyGet_of_getElem? hp) (pyGet_of_getElem? hq)]
  simp only [Except.map]
  congr 2
  rw [zero_add]
  refine congrArg List.sum (List.map_congr_left fun k hk' => ?_)
  rw [(hf k hk').2.deriv, mul_comm (noise.junA k.el * val k.el)]
  rfl

end build

end SQ
