import Verif.Model.Noise
import Verif.Model.CircuitPhys

/-!
# Decoherence rates of constructed circuits
-/

namespace SQ
open Matrix

/-- circuit.py:2596-2601: the capacitors of the branches, edge by edge: a capacitor placed on an edge
itself, otherwise the capacitor attached to the element. -/
def branchCaps (O : Objs) (els : Elements) : List (Edge × ElemId) :=
  els.flatMap (fun p => p.2.map (fun i => (p.1, if (O.elem i).kind = .cap then i else (O.elem i).cap)))

/-- What `dec_rate` and `matrix_elements` read from a constructed circuit with truncation `m`, charge
offsets `ng`, element values `val`, loop fluxes `fluxes` and stored eigenpairs. -/
noncomputable def Build.noise (c : CircSpec) (bd : Build) (m : Fin bd.M.keep.length → ℕ)
    (ng : Fin bd.M.keep.length → ℝ) (val : ElemId → ℝ) (fluxes : Fin bd.loops.length → ℝ)
    (P : ElemId → Matrix (Fin bd.n) (Fin bd.n) ℝ) (noise : NoiseSpec bd.loops.length) (env : NoiseEnv)
    (efreqs : List ℝ) (evecs : List (Idx m → ℂ)) : NoiseCirc where
  n := bd.n
  nJ := bd.nJ
  b := bd.nB
  nl := bd.loops.length
  C := bd.C
  M := bd.M
  m := m
  mem := buildMem bd.M.data m ng
  val := val
  B := bd.B
  loopVals := fluxes
  P := P
  inds := bd.inds
  juns := bd.juns
  caps := branchCaps c.O c.els
  noise := noise
  env := env
  efreqs := efreqs
  evecs := evecs

end SQ
