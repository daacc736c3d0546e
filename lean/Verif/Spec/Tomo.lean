import Mathlib.Analysis.Complex.Basic
import Mathlib.Analysis.Real.Sqrt
import Mathlib.LinearAlgebra.Matrix.Trace
import Mathlib.LinearAlgebra.Matrix.ConjTranspose
import Mathlib.LinearAlgebra.Matrix.Hermitian

/-!
# Specification: operator bases

In terms of Mathlib matrices, independent of the model.
-/

namespace QInfer.Spec

open Matrix

/-- The `d × d` matrix with the given entries. -/
def mat (d : Nat) (f : Nat → Nat → ℂ) : Matrix (Fin d) (Fin d) ℂ := Matrix.of fun i j => f i j

/-- A tomographic basis in dimension `d`: `d²` Hermitian operators, orthonormal in the trace inner
product, the first of them the identity over `√d`. -/
structure IsTomoBasis (d : Nat) (l : List (Nat → Nat → ℂ)) : Prop where
  len : l.length = d * d
  herm : ∀ f ∈ l, (mat d f).IsHermitian
  ortho : ∀ (a b : Nat) (ha : a < l.length) (hb : b < l.length),
    trace ((mat d l[a])ᴴ * mat d l[b]) = if a = b then 1 else 0
  first : ∀ h : 0 < l.length, mat d l[0] = ((1 / Real.sqrt d : ℝ) : ℂ) • (1 : Matrix _ _ ℂ)

end QInfer.Spec
