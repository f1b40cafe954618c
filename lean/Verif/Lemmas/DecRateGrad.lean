import Verif.Spec.DecRateGrad
import Verif.Props.Dephasing
import Verif.Props.DephasingLevels

/-! # Lemmas on gradients of dephasing rates -/

namespace SQ
open Matrix Complex SQ.Spec Filter Topology

theorem gradOutputs_ok {nl : ℕ} {f : GradEl nl → Except PyErr ℝ} {r : GradEl nl → ℝ} (h : ∀ p, f p = .ok (r p))
    (g : ℝ) (ps : List (GradEl nl)) : gradOutputs f g ps = .ok (ps.map fun p => g * r p) := by
  induction ps with
  | nil => rfl
  | cons p ps ih => rw [gradOutputs, h p, ih]; rfl

theorem partialVec_eps {ι : Type*} [Fintype ι] {evecs : List (ι → ℂ)} {efreqs : List ℝ}
    (hlen : efreqs.length = evecs.length) (dH : Matrix ι ι ℂ) {p : ℕ} (hp : p < evecs.length) :
    ∃ v : ℝ → ι → ℂ, (∀ eps, partialVec evecs efreqs dH (p : ℤ) eps = .ok (v eps)) ∧
      (efreqs.Nodup → ∀ a, Tendsto (fun eps => v eps a) (𝓝 0) (𝓝 (v 0 a))) := by
  have hp' : p < efreqs.length := hlen ▸ hp
  refine ⟨fun eps => partialVecSum evecs efreqs dH evecs[p] (p : ℤ) efreqs[p] eps, fun eps => ?_, fun hs a => ?_⟩
  · unfold partialVec
    rw [if_neg (by omega), pyGet_nat hp, pyGet_nat hp']
  · have e := partialVecSum_eq hlen dH evecs[p] ⟨p, hp⟩ efreqs[p]
    simp only at e
    simp only [e, Finset.sum_apply]
    refine tendsto_finsetSum _ fun n _ => ?_
    split
    · exact tendsto_const_nhds
    · rename_i hne
      simp only [Pi.smul_apply, smul_eq_mul]
      refine Tendsto.mul_const _ (Tendsto.div tendsto_const_nhds ?_ ?_)
      · exact (Complex.continuous_ofReal.tendsto _).comp (tendsto_const_nhds.add tendsto_id)
      · rw [Complex.ofReal_ne_zero, add_zero, sub_ne_zero]
        intro h
        have := (List.nodup_iff_injective_get.1 hs) (a₁ := ⟨p, hp'⟩) (a₂ := n.cast hlen.symm) h
        exact hne (Fin.ext (by simpa using (congrArg Fin.val this).symm))

theorem partialSquaredOmega_eps {ι : Type*} [Fintype ι] {v v' : ℝ → ι → ℂ}
    (hv : ∀ a, Tendsto (fun eps => v eps a) (𝓝 0) (𝓝 (v 0 a)))
    (hv' : ∀ a, Tendsto (fun eps => v' eps a) (𝓝 0) (𝓝 (v' 0 a))) (s s' : ι → ℂ) (G d2 : Matrix ι ι ℂ) :
    Tendsto (fun eps => partialSquaredOmega s (v eps) s' (v' eps) G d2) (𝓝 0)
      (𝓝 (partialSquaredOmega s (v 0) s' (v' 0) G d2)) := by
  have hb : ∀ {u : ℝ → ι → ℂ}, (∀ a, Tendsto (fun eps => u eps a) (𝓝 0) (𝓝 (u 0 a))) → ∀ w : ι → ℂ,
      Tendsto (fun eps => braket (u eps) G w) (𝓝 0) (𝓝 (braket (u 0) G w)) := by
    intro u hu w
    unfold braket
    refine tendsto_finsetSum _ fun a _ => tendsto_finsetSum _ fun b _ => ?_
    exact ((((Complex.continuous_conj.tendsto _).comp (hu a)).mul_const _).mul_const _)
  unfold partialSquaredOmega
  simp only [innerOp_eq]
  refine (Complex.continuous_re.tendsto _).comp (Tendsto.add_const _ ?_)
  refine (Complex.continuous_ofReal.tendsto _).comp (Tendsto.const_mul _ ?_)
  exact (Complex.continuous_re.tendsto _).comp ((hb hv s).sub (hb hv' s'))

/-- the loop over the noise sources succeeds, and its result is continuous in `epsilon` -/
theorem sumChannels_eps (c : NoiseCirc) (hlen : c.efreqs.length = c.evecs.length) (grad : GradEl c.nl) {p q : ℕ}
    (hp : p < c.evecs.length) (hq : q < c.evecs.length) (chs : List (Channel c.m)) :
    ∃ s : ℝ → ℝ, (∀ eps acc, c.sumChannels grad ((p : ℤ), (q : ℤ)) eps chs acc = .ok (acc + s eps)) ∧
      (c.efreqs.Nodup → Tendsto s (𝓝 0) (𝓝 (s 0))) := by
  induction chs with
  | nil => exact ⟨fun _ => 0, fun eps acc => by rw [NoiseCirc.sumChannels, add_zero], fun _ => tendsto_const_nhds⟩
  | cons ch chs ih =>
    obtain ⟨s, hs, ht⟩ := ih
    obtain ⟨v, hv, hvt⟩ := partialVec_eps hlen (partialH c.C c.M c.mem c.val c.B c.loopVals c.P c.inds c.juns none grad) hp
    obtain ⟨v', hv', hvt'⟩ := partialVec_eps hlen
      (partialH c.C c.M c.mem c.val c.B c.loopVals c.P c.inds c.juns none grad) hq
    refine ⟨fun eps => partialDephasingRate c.env ch.A ch.dA (sens c.evecs[p] c.evecs[q] ch.G)
      (partialSquaredOmega c.evecs[p] (v eps) c.evecs[q] (v' eps) ch.G ch.d2) + s eps, fun eps acc => ?_, fun hn => ?_⟩
    · have h3 : c.partialSquaredOmegaMN grad ch.G ch.d2 ((p : ℤ), (q : ℤ)) eps =
          .ok (partialSquaredOmega c.evecs[p] (v eps) c.evecs[q] (v' eps) ch.G ch.d2) := by
        unfold NoiseCirc.partialSquaredOmegaMN
        simp only [pyGet_nat hp, pyGet_nat hq, hv, hv']
      rw [NoiseCirc.sumChannels, partialOmegaMN_eq (pyGet_nat hp) (pyGet_nat hq)]
      simp only [h3]
      rw [hs, add_assoc]
    · refine Tendsto.add ?_ (ht hn)
      unfold partialDephasingRate
      exact Tendsto.const_mul _ (tendsto_const_nhds.add
        (Tendsto.const_mul _ (partialSquaredOmega_eps (hvt hn) (hvt' hn) _ _ _ _)))

theorem getD_of_lt {α : Type*} {l : List α} {i : ℕ} {d : α} (h : i < l.length) : l.getD i d = l[i] := by
  rw [List.getD_eq_getElem?_getD, List.getElem?_eq_getElem h, Option.getD_some]

theorem sens_phase {ι : Type*} [Fintype ι] {z z' : ℂ} (hz : ‖z‖ = 1) (hz' : ‖z'‖ = 1) (v v' : ι → ℂ) (G : Matrix ι ι ℂ) :
    sens (z • v) (z' • v') G = sens v v' G := by
  unfold sens
  rw [braket_phase z hz, braket_phase z' hz']

theorem nodup_simple {ws : List ℝ} (h : ws.Nodup) {m : ℕ} (hm : m < ws.length) : SimpleLevel ws m := by
  refine ⟨hm, fun n hn hne he => hne ?_⟩
  rw [List.getElem?_eq_getElem hn, List.getElem?_eq_getElem hm, Option.some.injEq] at he
  have := (List.nodup_iff_injective_get.1 h) (a₁ := ⟨n, hn⟩) (a₂ := ⟨m, hm⟩) he
  exact congrArg Fin.val this

/-- the derivative of a sum of dephasing rates evaluated with whatever eigenvectors the eigensolver returns -/
theorem sumChannels_levels (c : NoiseCirc) (grad : GradEl c.nl) {H : ℝ → Op c.m} {x : ℝ}
    (hherm : ∀ t, (H t).IsHermitian)
    (hd : HasDerivOp H (partialH c.C c.M c.mem c.val c.B c.loopVals c.P c.inds c.juns none grad) x)
    (ev : ℝ → List (Idx c.m → ℂ)) (ef : ℝ → List ℝ) (hl : ∀ t, Levels (H t) (ev t) (ef t))
    (hev : c.evecs = ev x) (hef : c.efreqs = ef x) (hn : (ef x).Nodup) {p q : ℕ}
    (hp : p < Fintype.card (Idx c.m)) (hq : q < Fintype.card (Idx c.m))
    {α : Type*} (keys : List α) (ch : α → Channel c.m) (A : α → ℝ → ℝ) (G : α → ℝ → Op c.m)
    (hA : ∀ a ∈ keys, A a x = (ch a).A ∧ HasDerivAt (A a) (ch a).dA x ∧ 0 < A a x)
    (hG : ∀ a ∈ keys, G a x = (ch a).G ∧ HasDerivOp (G a) (ch a).d2 x ∧ (G a x).IsHermitian ∧
      sens ((ev x).getD p 0) ((ev x).getD q 0) (G a x) ≠ 0) :
    ∃ r, c.sumChannels grad ((p : ℕ), (q : ℕ)) 0 (keys.map ch) 0 = .ok r ∧
      HasDerivAt (fun t => (keys.map (fun a => dephasing c.env (A a t)
        (sens ((ev t).getD p 0) ((ev t).getD q 0) (G a t)))).sum) r x := by
  have hlf : (ef x).length = Fintype.card (Idx c.m) := (hl x).len.trans (hl x).card
  obtain ⟨z, dpsi, z1, z2, -, zb⟩ := level_branch (Eventually.of_forall hherm) hd (Eventually.of_forall hl)
    (nodup_simple hn (m := p) (by rw [hlf]; exact hp))
  obtain ⟨z', dpsi', z1', z2', -, zb'⟩ := level_branch (Eventually.of_forall hherm) hd (Eventually.of_forall hl)
    (nodup_simple hn (m := q) (by rw [hlf]; exact hq))
  have hb : Eigenbasis (H x) c.evecs c.efreqs := by rw [hev, hef]; exact (hl x).toEigenbasis
  have hcl : c.evecs.length = Fintype.card (Idx c.m) := hb.card
  have hgp : c.evecs.get ⟨p, hcl ▸ hp⟩ = z x • (ev x).getD p 0 := by
    rw [z2, one_smul, ← hev, getD_of_lt (hcl ▸ hp)]; rfl
  have hgq : c.evecs.get ⟨q, hcl ▸ hq⟩ = z' x • (ev x).getD q 0 := by
    rw [z2', one_smul, ← hev, getD_of_lt (hcl ▸ hq)]; rfl
  have hsimple : ∀ k k' : Fin c.evecs.length, k ≠ k' →
      c.efreqs.get (k.cast hb.len.symm) ≠ c.efreqs.get (k'.cast hb.len.symm) := by
    intro k k' hk h
    have := (List.nodup_iff_injective_get.1 (hef ▸ hn)) h
    exact hk (Fin.ext (by simpa using congrArg Fin.val this))
  obtain ⟨r, hr, hdr⟩ := sumChannels_deriv c grad (hherm x) hd zb zb' hb ⟨p, hcl ▸ hp⟩ ⟨q, hcl ▸ hq⟩ hgp hgq hsimple
    keys ch A G hA (fun a ha => by
      obtain ⟨g1, g2, g3, g4⟩ := hG a ha
      exact ⟨g1, g2, g3, by rw [sens_phase (z1 x) (z1' x)]; exact g4⟩) 0
  refine ⟨r, by rw [hr, zero_add], ?_⟩
  simp only [sens_phase (z1 _) (z1' _)] at hdr
  exact hdr

theorem transition_unique {ι : Type*} [Fintype ι] [DecidableEq ι] {H : Matrix ι ι ℂ} {p q : ℕ} {f f' : ℝ} (h : IsTransition H p q f)
    (h' : IsTransition H p q f') : f = f' := by
  obtain ⟨_, _, hl, rfl⟩ := h
  obtain ⟨_, _, hl', rfl⟩ := h'
  rw [levels_unique hl hl']

/-- a transition frequency changing at a non-zero rate has a non-zero first derivative operator -/
theorem sens_of_sensitive {ι : Type*} [Fintype ι] [DecidableEq ι] {H : ℝ → Matrix ι ι ℂ} {dH : Matrix ι ι ℂ} {x : ℝ}
    (hherm : ∀ t, (H t).IsHermitian) (hd : HasDerivOp H dH x) {p q : ℕ} {psi psi' : ι → ℂ}
    (hp : IsLevel (H x) p psi) (hq : IsLevel (H x) q psi') {ham : ℝ → Except PyErr (Matrix ι ι ℂ)}
    (hham : ∀ t, ham t = .ok (H t)) (hs : Sensitive ham p q x) : sens psi psi' dH ≠ 0 := by
  obtain ⟨f, hf, hd'⟩ := sens_slope hherm hd hp hq
  obtain ⟨f', hf', hne⟩ := hs
  have : f' = f := by
    funext t
    obtain ⟨X, hX, hXt⟩ := hf' t
    obtain rfl := Except.ok.inj (hX.symm.trans (hham t))
    exact transition_unique hXt (hf t)
  rw [this, hd'.deriv] at hne
  exact hne

theorem stored_level {ι : Type*} [Fintype ι] [DecidableEq ι] {H : Matrix ι ι ℂ} {vs : List (ι → ℂ)} {ws : List ℝ} (hl : Levels H vs ws)
    (hn : ws.Nodup) {p : ℕ} (hp : p < Fintype.card ι) : IsLevel H p (vs.getD p 0) := by
  have hlw : ws.length = Fintype.card ι := hl.len.trans hl.card
  have hpv : p < vs.length := by rw [hl.card]; exact hp
  have hpw : p < ws.length := by rw [hlw]; exact hp
  refine ⟨?_, vs, ws, hl, nodup_simple hn hpw, ?_⟩
  · have := hl.orth
    rw [getD_of_lt hpv]
    have h2 := this ⟨p, hpv⟩ ⟨p, hpv⟩
    rw [if_pos rfl] at h2
    exact h2
  · rw [getD_of_lt hpv, getD_of_lt hpw]
    exact hl.eigen p hpv

end SQ
