import Verif.Model.Bases
import Mathlib.LinearAlgebra.Matrix.Trace
import Mathlib.LinearAlgebra.Matrix.ConjTranspose

/-!
# Models of `sqrtm_psd`, of the distributions over density operators and of random Pauli measurements

`src/qinfer/utils.py` 593-609, `src/qinfer/tomography/distributions.py` and
`src/qinfer/tomography/expdesign.py` 134-160.  `Qobj` operators are complex matrices.  The samplers
of QuTiP (`rand_dm_ginibre`, `rand_super_bcsz`) are parameters.
-/

namespace QInfer

open Matrix
open scoped BigOperators

/-! ## sqrtm_psd -/

/-- What `scipy.linalg.eigh` decomposes: the Hermitian matrix with the lower triangle of `A`; the
imaginary parts of the diagonal are ignored. (tomography/distributions.py 262-291.) -/
noncomputable def hermLower {d : Nat} (A : Matrix (Fin d) (Fin d) ℂ) : Matrix (Fin d) (Fin d) ℂ :=
  Matrix.of fun i j => if j < i then A i j else if i = j then ((A i i).re : ℂ) else star (A j i)

/-- `sqrtm_psd`, utils.py 593-607, with the result `w, v` of `eigh(A)`: the root, and the Frobenius
norm of its error if `est_error`. -/
noncomputable def sqrtmPsd {d : Nat} (A : Matrix (Fin d) (Fin d) ℂ) (w : Fin d → ℝ)
    (v : Matrix (Fin d) (Fin d) ℂ) (estError : Bool) : Matrix (Fin d) (Fin d) ℂ × Option ℝ :=
  let w := fun k => if w k ≤ 0 then 0 else w k
  let w := fun k => Real.sqrt (w k)
  let root : Matrix (Fin d) (Fin d) ℂ := (Matrix.of fun i k => v i k * (w k : ℂ)) * vᴴ
  (root, if estError then
    some (Real.sqrt (∑ i, ∑ j, ‖(root * root - A) i j‖ ^ 2)) else none)

/-! ## DensityOperatorDistribution -/

/-- The array of a `Qobj`. (tomography/distributions.py 138-141.) -/
noncomputable def toPlane {d : Nat} (M : Matrix (Fin d) (Fin d) ℂ) : Plane :=
  fun i j => if h : i < d ∧ j < d then M ⟨i, h.1⟩ ⟨j, h.2⟩ else 0

open Classical in
/-- `DensityOperatorDistribution._sample`, distributions.py 138-141, of the operator `_sample_dm`
returned; `none` when the division by a zero trace gives NaN. -/
noncomputable def dmSample (b : TomoBasis) {d : Nat} (M : Matrix (Fin d) (Fin d) ℂ) :
    Except PyErr (Option (List ℝ)) :=
  if trace M = 0 then .ok none
  else (stateToModelparams b d (toPlane ((trace M)⁻¹ • M))).map some

/-- `SingleSampleMixin.sample`, ../distributions.py 139-143, on the operators drawn one by one. -/
noncomputable def dmSamples (b : TomoBasis) {d : Nat} (Ms : List (Matrix (Fin d) (Fin d) ℂ)) :
    Except PyErr (List (Option (List ℝ))) :=
  Ms.mapM (dmSample b)

/-- The number of columns `rank` of `rand_dm_ginibre_redit`, distributions.py 80-81. -/
def rediRank (N : Nat) (rank : Option Nat) : Nat := rank.getD N

open Classical in
/-- `rand_dm_ginibre_redit`, distributions.py 78-86, with the normal variates `X`. -/
noncomputable def ginibreRedit {N r : Nat} (X : Matrix (Fin N) (Fin r) ℝ) :
    Option (Matrix (Fin N) (Fin N) ℂ) :=
  let rho := X * Xᵀ
  if trace rho = 0 then none
  else some (((trace rho)⁻¹ • rho).map fun x => (x : ℂ))

/-- `GinibreDistribution.__init__`, distributions.py 180-184. -/
def ginibreInit (dim : Nat) (rank : Option Int) : Except PyErr (Option Int) :=
  match rank with
  | some r => if (dim : Int) < r then .error .valueError else .ok (some r)
  | none => .ok none

/-- An argument of `tensor_product_basis`. (bases.py 112-150.) -/
inductive BasisArg
  | basis (b : TomoBasis)
  | generator

/-- The argument must have `data`. (bases.py 118-123.) -/
def BasisArg.get : BasisArg → Except PyErr TomoBasis
  | .basis b => .ok b
  | .generator => .error .attributeError

/-- The start of `tensor_product_basis`, bases.py 118: the attribute `data` of every argument is
read. -/
def tensorProductBasisPy (args : List BasisArg) : Except PyErr TomoBasis := do
  let bs ← args.mapM BasisArg.get
  tensorProductBasis bs

/-- `TensorProductDistribution.__init__`, distributions.py 154-160: the generator expression is
passed as the only argument. -/
def tensorProductDistInit (_factors : List TomoBasis) : Except PyErr TomoBasis :=
  tensorProductBasisPy [.generator]

/-! ## GADFLIDistribution -/

/-- The attributes of a `GADFLIDistribution`; `beta` is `none` for infinity, `rhoStar` is `none` when
its entries are NaN. (tomography/distributions.py 262-291.) -/
structure Gadfli (d : Nat) where
  beta : Option ℝ
  rhoStar : Option (Matrix (Fin d) (Fin d) ℂ)

open Classical in
/-- `beta`, distributions.py 277-281. -/
noncomputable def gadfliBeta (d : Nat) (lam : ℝ) : Option ℝ :=
  if 1 / 2 < lam then
    if d * lam - 1 = 0 then none else some (1 / (d * lam - 1) - 1)
  else
    if 1 - d * lam = 0 then none else some (d * lam / (1 - d * lam))

open Classical in
/-- `GADFLIDistribution.__init__`, distributions.py 262-291, for a state `mean` whose smallest
eigenvalue is `lam`; `alpha` is 1.  The comparison `beta < 0` is false for infinity. -/
noncomputable def gadfliInit {d : Nat} (mean : Matrix (Fin d) (Fin d) ℂ) (lam : ℝ) :
    Except PyErr (Gadfli d) :=
  if lam < 0 then .error .valueError
  else match gadfliBeta d lam with
    | none => .ok ⟨none, none⟩
    | some beta =>
      if beta < 0 then .error .valueError
      else
        let eye : Matrix (Fin d) (Fin d) ℂ := (1 / (d : ℂ)) • 1
        .ok ⟨some beta, some (((1 + beta : ℝ) / 1 : ℂ) • (mean - ((beta / (1 + beta) : ℝ) : ℂ) • eye))⟩

open Classical in
/-- `GADFLIDistribution._sample_dm`, distributions.py 293-296: `fid` is the fiducial sample and `eps`
the value drawn by `np.random.beta(1, beta)`, which raises `ValueError` unless `beta > 0`.  `none` for
NaN. -/
noncomputable def gadfliSample {d : Nat} (g : Gadfli d) (fid : Matrix (Fin d) (Fin d) ℂ) (eps : ℝ) :
    Except PyErr (Option (Matrix (Fin d) (Fin d) ℂ)) :=
  match g.beta with
  | none => .ok none
  | some beta =>
    if beta ≤ 0 then .error .valueError
    else .ok (g.rhoStar.map fun r => ((1 - eps : ℝ) : ℂ) • fid + (eps : ℂ) • r)

/-! ## RandomPauliHeuristic -/

/-- `RandomPauliHeuristic.__init__`, tomography/expdesign.py 148-153, for a model of dimension `dim > 0`:
the number of qubits and the Pauli basis. -/
noncomputable def randomPauliInit (dim : Nat) : Except PyErr (Nat × TomoBasis) :=
  let nq := Nat.log 2 dim
  if 2 ^ nq ≠ dim then .error .valueError
  else do
    let b ← pauliBasis nq
    .ok (nq, b)

/-- `RandomPauliHeuristic._next_measurement`, tomography/expdesign.py 155-160: `c` is the result of
`np.random.choice(len(basis) - 1)`. -/
noncomputable def randomPauliMeas (dim : Nat) (b : TomoBasis) (c : Nat) : Except PyErr Plane :=
  match b.data[0]?, b.data[1 + c]? with
  | some p, some q => .ok fun i j => (p i j + q i j) * (Real.sqrt dim : ℂ) / 2
  | _, _ => .error .indexError

end QInfer
