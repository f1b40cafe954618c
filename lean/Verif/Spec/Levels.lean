import Verif.Spec.Grad
import Verif.Spec.CircuitState

/-! # Specification of spectra and of the eigensolver -/

namespace SQ.Spec
open SQ Matrix

/-- level `m` of the spectrum `ws` is not degenerate -/
def SimpleLevel (ws : List ℝ) (m : ℕ) : Prop :=
  m < ws.length ∧ ∀ n, n < ws.length → n ≠ m → ws[n]? ≠ ws[m]?

/-- What `scipy.sparse.linalg.eigs(H, k=num, which='SR')` computes for a Hermitian operator when it asks for
fewer states than the dimension minus one: `num` normalised eigenvectors, the eigenvalues being the
lowest `num` of the spectrum counted with multiplicity, in no particular order. -/
def EigsLowest (eigs : EigsFn) : Prop :=
  ∀ (k : ℕ) (d : Fin k → ℕ) (H : Op d) (num : ℕ), H.IsHermitian → 1 ≤ num →
    num + 1 < Fintype.card (Idx d) →
    ∃ l : List (ℂ × (Idx d → ℂ)),
      eigs ⟨k, d, H⟩ num = .ok (l.map (fun p => (p.1, ⟨k, d, p.2⟩))) ∧
      (∀ p ∈ l, overlap p.2 p.2 = 1 ∧ H *ᵥ p.2 = p.1 • p.2) ∧
      ∃ vs ws, Levels H vs ws ∧ (l.map (fun p => p.1.re)).Perm (ws.take num)

/-- `f` is the transition frequency ω_p - ω_q of `H`, states being numbered by energy -/
def IsTransition {ι : Type*} [Fintype ι] (H : Matrix ι ι ℂ) (p q : ℕ) (f : ℝ) : Prop :=
  ∃ vs ws, Levels H vs ws ∧ f = ws.getD p 0 - ws.getD q 0

/-- `psi` is a normalised eigenvector of level number `p` of `H`, which is not degenerate -/
def IsLevel {ι : Type*} [Fintype ι] (H : Matrix ι ι ℂ) (p : ℕ) (psi : ι → ℂ) : Prop :=
  overlap psi psi = 1 ∧ ∃ vs ws, Levels H vs ws ∧ SimpleLevel ws p ∧ H *ᵥ psi = ((ws.getD p 0 : ℝ) : ℂ) • psi

/-- the junctions of a circuit, the one on branch `b` being given the identity `e` of its own (so that its value
can be varied alone even if the same junction object sits on several branches) -/
def ownJunction {b nJ : ℕ} (juns : List (JunKey b nJ)) (br : Fin b) (e : ElemId) : List (JunKey b nJ) :=
  juns.map (fun k => if k.bId = br then { k with el := e } else k)

end SQ.Spec
