import Verif.Model.TomoDist
import Verif.Model.Heur
import Mathlib.LinearAlgebra.Matrix.Charpoly.Basic
import Mathlib.Algebra.Polynomial.Roots
import Mathlib.Analysis.SpecialFunctions.Complex.Log

/-!
# Models of the heuristics for state and process tomography

`src/qinfer/tomography/expdesign.py`.  Square `Qobj` operators are complex matrices, kets are vectors.
`eigenstates` of QuTiP is a parameter.  `np.random.choice` of a list is its entry at an arbitrary
index; the conversion of the list to an array of objects is taken for granted.
-/

namespace QInfer

open Matrix
open scoped BigOperators

/-! ## Heisenberg-Weyl operators -/

/-- The matrix `X` of `heisenberg_weyl_operators`, expdesign.py 75-77: row `idx` is the basis vector
`(idx + 1) % d`. -/
def hwX (d : Nat) : Matrix (Fin d) (Fin d) ℂ :=
  Matrix.of fun i j => if (j : Nat) = ((i : Nat) + 1) % d then 1 else 0

/-- The matrix `Z`, expdesign.py 74 and 78. -/
noncomputable def hwZ (d : Nat) : Matrix (Fin d) (Fin d) ℂ :=
  diagonal fun k => Complex.exp (2 * Real.pi * Complex.I / d) ^ (k : Nat)

/-- `heisenberg_weyl_operators`, expdesign.py 73-80 (and the copy in models.py 71-78). -/
noncomputable def heisenbergWeyl (d : Nat) : List (Matrix (Fin d) (Fin d) ℂ) :=
  (List.range d).flatMap fun i => (List.range d).map fun j => hwX d ^ i * hwZ d ^ j

/-- `qt.ket2dm`, called at expdesign.py 127. -/
def ket2dm {d : Nat} (v : Fin d → ℂ) : Matrix (Fin d) (Fin d) ℂ := vecMulVec v (star v)

/-- `RandomStabilizerStateHeuristic._next_measurement`, expdesign.py 126-131, for a basis of dimension `d`:
`i` and `k` are the positions drawn by the two calls of `np.random.choice`. -/
noncomputable def stabilizerMeas (d : Nat)
    (eigenstates : Matrix (Fin d) (Fin d) ℂ → List (Fin d → ℂ)) (i k : Nat) :
    Except PyErr (Matrix (Fin d) (Fin d) ℂ) :=
  match (heisenbergWeyl d)[i]? with
  | none => .error .indexError
  | some W => match (eigenstates W)[k]? with
    | none => .error .indexError
    | some v => .ok (ket2dm v)

/-! ## Records -/

section
variable {V F : Type} [DecidableEq F]

/-- The assignment `expparams['meas'][0, :] = p` to a field of `n` entries, expdesign.py 96-98: one number
is broadcast, other lengths raise `ValueError`. -/
def measField (n : Nat) (p : List ℝ) : Except PyErr (List ℝ) :=
  if p.length = n then .ok p
  else match p with
    | [x] => .ok (List.replicate n x)
    | _ => .error .valueError

/-- The end of `StateTomographyHeuristic.__call__`, expdesign.py 94-103, and of
`ProcessTomographyHeuristic.__call__`, expdesign.py 171-183: a record of zeros whose field `meas` gets the
parameters `p`; then the other fields are set. -/
def tomoRecord (fields : List F) (meas : F) (ofMeas : List ℝ → V) (zeros : F → V) (n : Nat)
    (other : List (F × V)) (p : List ℝ) : Except PyErr (F → V) := do
  let q ← measField n p
  let r ← setField fields zeros meas (ofMeas q)
  setFields fields other r

/-- `StateTomographyHeuristic.__call__`, expdesign.py 94-103, for the measurement `M`. -/
noncomputable def stateHeurCall (b : TomoBasis) {d : Nat} (fields : List F) (meas : F)
    (ofMeas : List ℝ → V) (zeros : F → V) (n : Nat) (other : List (F × V))
    (M : Matrix (Fin d) (Fin d) ℂ) : Except PyErr (F → V) := do
  let p ← stateToModelparams b d (toPlane M)
  tomoRecord fields meas ofMeas zeros n other p

open Classical in
/-- `Qobj.unit()` of a Hermitian operator, called at expdesign.py 210: division by the trace norm, the sum
of the absolute values of the eigenvalues.  `none` for NaN. -/
noncomputable def qobjUnit {d : Nat} (M : Matrix (Fin d) (Fin d) ℂ) : Option (Matrix (Fin d) (Fin d) ℂ) :=
  let n := (M.charpoly.roots.map fun z => ‖z‖).sum
  if n = 0 then none else some (((n⁻¹ : ℝ) : ℂ) • M)

/-- `ProcessTomographyHeuristic.__call__`, expdesign.py 171-183, for the pair `(prep, meas)` returned by
`_next_prepmeas`: `dim` is the dimension of the model and `b` its basis. -/
noncomputable def processHeurCall (dim : Nat) (b : TomoBasis) {d e : Nat} (fields : List F) (meas : F)
    (ofMeas : List ℝ → V) (zeros : F → V) (n : Nat) (other : List (F × V))
    (pm : Matrix (Fin d) (Fin d) ℂ × Matrix (Fin e) (Fin e) ℂ) : Except PyErr (F → V) := do
  let p ← stateToModelparams b (d * e) fun i j =>
    (Real.sqrt dim : ℂ) * (npKron (d, toPlane pm.1) (e, toPlane pm.2)).2 i j
  tomoRecord fields meas ofMeas zeros n other p

/-- `ProductHeuristic._next_prepmeas`, expdesign.py 209-213, for the two operators drawn. -/
noncomputable def productPrepmeas {d e : Nat} (prep : Matrix (Fin d) (Fin d) ℂ)
    (meas : Matrix (Fin e) (Fin e) ℂ) :
    Option (Matrix (Fin d) (Fin d) ℂ × Matrix (Fin e) (Fin e) ℂ) :=
  (qobjUnit prep).map fun p => (p, meas)

/-- `ProductHeuristic` with `RandomPauliHeuristic` for preparations, expdesign.py 201-213 and 144-160: the
heuristic for preparations is built for the dimension of the model, `self._dim =
updater.model.base_model.dim` (expdesign.py 91), not for that of `basis`; so is the one for measurements.
The result is that of converting the tensor product, for a model of dimension `dim` with basis `b`. -/
noncomputable def productPauliCall (dim : Nat) (b : TomoBasis) (c₁ c₂ : Nat) : Except PyErr (List ℝ) := do
  let p ← randomPauliInit dim
  let prep ← randomPauliMeas dim p.2 c₁
  let meas ← randomPauliMeas dim p.2 c₂
  match qobjUnit (Matrix.of fun i j : Fin dim => prep i j) with
  | none => .error .other
  | some u => stateToModelparams b (dim * dim) fun i j =>
      (Real.sqrt dim : ℂ) * (npKron (dim, toPlane u) (dim, meas)).2 i j

end

end QInfer
