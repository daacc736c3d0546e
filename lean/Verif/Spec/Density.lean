import Verif.Spec.Tomo
import Mathlib.Analysis.Matrix.PosDef

/-!
# Specification: positive parts, density operators, eigendecompositions
-/

namespace QInfer.Spec

open Matrix
open scoped ComplexOrder

/-- `P` is `A` with its negative eigenvalues replaced by zero: `A` is the difference of the positive
operators `P` and `P - A`, which annihilate each other.  This determines `P`
(`isPosPart_unique`). -/
structure IsPosPart {d : Nat} (A P : Matrix (Fin d) (Fin d) ℂ) : Prop where
  pos : P.PosSemidef
  neg : (P - A).PosSemidef
  mul : P * (P - A) = 0

/-- The operator with coefficients `x` in the basis `l`. -/
noncomputable def op (d : Nat) (l : List (Nat → Nat → ℂ)) (x : List ℝ) :
    Matrix (Fin d) (Fin d) ℂ :=
  ∑ a : Fin l.length, (x.getD a 0 : ℂ) • mat d l[a]

/-- A density operator: positive with unit trace. -/
def IsDensity {d : Nat} (A : Matrix (Fin d) (Fin d) ℂ) : Prop := A.PosSemidef ∧ trace A = 1

/-- What NumPy promises of `w, v = np.linalg.eig(A)` for a diagonalisable `A`: the columns of `v`
are unit eigenvectors for the eigenvalues `w` and are linearly independent.  It does not promise
that they are orthogonal. -/
structure IsEig {d : Nat} (A : Matrix (Fin d) (Fin d) ℂ) (w : Fin d → ℂ)
    (V : Matrix (Fin d) (Fin d) ℂ) : Prop where
  eigen : A * V = V * diagonal w
  unit : ∀ k, (Vᴴ * V) k k = 1
  indep : IsUnit V

end QInfer.Spec
