import Verif.Model.Py
import Mathlib.Analysis.Complex.Basic
import Mathlib.Analysis.Real.Sqrt

/-!
# Model of `src/qinfer/tomography/bases.py`

A `dim × dim` complex array is a function of two natural indices, of which only those below `dim`
are part of the array.  The array `data` of shape `(n, dim, dim)` is the list of its `n` planes.
Square roots are exact.
-/

namespace QInfer

/-- A square complex array, by its entries. (The planes of the arrays at bases.py 89-109.) -/
abbrev Plane := Nat → Nat → ℂ

/-- `TomographyBasis`, bases.py 178-232: `data` (axis 0 as a list), the common size of its axes 1
and 2, `dims` and `labels`.  `superrep`, the name and the `Qobj` wrapping are not modelled. -/
structure TomoBasis where
  data : List Plane
  side : Nat
  dims : List Nat
  labels : List String

/-- The property `dim`, bases.py 295-302: `np.prod(self.dims)`. -/
def TomoBasis.dim (b : TomoBasis) : Nat := b.dims.prod

/-- `TomographyBasis.__len__`, bases.py 292-293. -/
def TomoBasis.len (b : TomoBasis) : Nat := b.dim ^ 2

/-- The labels given to `TomographyBasis.__init__`, bases.py 227-230: a string, a list or `None`. -/
inductive LabelArg
  | str (s : String)
  | list (l : List String)
  | none

/-- `TomographyBasis.__init__`, bases.py 218-232.  A string label must not contain braces of its
own: `"{}_{{}}".format(labels)` is formatted a second time. -/
def tomoBasisInit (data : List Plane) (side : Nat) (dims : List Nat) (labels : LabelArg) :
    TomoBasis :=
  { data := data, side := side, dims := dims
    labels := match labels with
      | .str s => (List.range (dims.prod ^ 2)).map fun i => s ++ "_" ++ toString i
      | .list l => l
      | .none => (List.range (dims.prod ^ 2)).map fun i => "B_" ++ toString i }

/-! ## The Gell-Mann basis -/

/-- Assignment of a whole plane, `basis[a, :, :] = m`. (bases.py 90, 95, 124.) -/
def setPlane (arr : Nat → Plane) (a : Nat) (m : Plane) : Nat → Plane :=
  fun a' => if a' = a then m else arr a'

/-- Assignment of one cell, `basis[a, i, j] = v`. (bases.py 108-109.) -/
def setCell (arr : Nat → Plane) (a i j : Nat) (v : ℂ) : Nat → Plane :=
  fun a' i' j' => if a' = a ∧ i' = i ∧ j' = j then v else arr a' i' j'

/-- `np.diag(v)` for a list `v`. (bases.py 95.) -/
def npDiag (v : List ℂ) : Plane := fun i j => if i = j then v.getD i 0 else 0

/-- The diagonal concatenated in the first loop, bases.py 95-99. -/
noncomputable def gellMannDiag (dim b : Nat) : List ℂ :=
  List.replicate b 1 ++ [-(b : ℂ)] ++ List.replicate (dim - b - 1) 0

/-- The body of the first loop, bases.py 95-100. -/
noncomputable def gellMannDiagStep (dim : Nat) (arr : Nat → Plane) (b : Nat) : Nat → Plane :=
  setPlane arr b fun i j => npDiag (gellMannDiag dim b) i j / (Real.sqrt (b + b ^ 2 : ℝ) : ℂ)

/-- The body of the second loop, bases.py 108-110.  The fancy-index assignments write the cells
`[idx_i, idx_j]` and `[idx_j, idx_i]` in this order. -/
noncomputable def gellMannOffStep (dim : Nat) (arr : Nat → Plane) (i j : Nat) : Nat → Plane :=
  let yOffset := dim * (dim - 1) / 2
  let a := (i - 1) * i / 2 + j + dim
  let arr := setCell arr a i j (1 / (Real.sqrt 2 : ℂ))
  let arr := setCell arr a j i (1 / (Real.sqrt 2 : ℂ))
  let arr := setCell arr (a + yOffset) i j (Complex.I / (Real.sqrt 2 : ℂ))
  setCell arr (a + yOffset) j i (-Complex.I / (Real.sqrt 2 : ℂ))

/-- The array built by `gell_mann_basis`, bases.py 86-110. -/
noncomputable def gellMannArray (dim : Nat) : Nat → Plane :=
  let arr : Nat → Plane := fun _ _ _ => 0
  let arr := setPlane arr 0 fun i j => (if i = j then 1 else 0) / (Real.sqrt (dim : ℝ) : ℂ)
  let arr := (List.range' 1 (dim - 1)).foldl (gellMannDiagStep dim) arr
  (List.range' 1 (dim - 1)).foldl
    (fun arr i => (List.range i).foldl (fun arr j => gellMannOffStep dim arr i j) arr) arr

/-- `gell_mann_basis`, bases.py 71-111.  For `dim = 0` the assignment to `basis[0]` raises
`IndexError`; the assignment of a matrix of another shape would be a `ValueError`. -/
noncomputable def gellMannBasis (dim : Nat) : Except PyErr TomoBasis :=
  if dim = 0 then .error .indexError
  else if (List.range' 1 (dim - 1)).any (fun b => (gellMannDiag dim b).length != dim) then .error .valueError
  else .ok (tomoBasisInit ((List.range (dim ^ 2)).map (gellMannArray dim)) dim [dim]
    (.str "\\gamma"))

/-! ## Tensor products -/

/-- `itertools.product(*ls)`: the last factor varies fastest. (bases.py 123, 132.) -/
def itProduct {α : Type} : List (List α) → List (List α)
  | [] => [[]]
  | l :: ls => l.flatMap fun x => (itProduct ls).map (x :: ·)

/-- `np.kron` of two square arrays, each with its size. (bases.py 124.) -/
def npKron (x y : Nat × Plane) : Nat × Plane :=
  (x.1 * y.1, fun i j => x.2 (i / y.1) (j / y.1) * y.2 (i % y.1) (j % y.1))

/-- `functools.reduce(np.kron, factors)`; an empty sequence raises `TypeError`. (bases.py 124.) -/
def reduceKron : List (Nat × Plane) → Except PyErr (Nat × Plane)
  | [] => .error .typeError
  | x :: xs => .ok (xs.foldl npKron x)

/-- `tensor_product_basis`, bases.py 113-135.  Without bases `np.prod([])` is the float `1.0`, which
`np.zeros` does not accept as a size.  Assigning past the end raises `IndexError`; planes not
assigned stay zero. -/
def tensorProductBasis (bases : List TomoBasis) : Except PyErr TomoBasis :=
  if bases = [] then .error .typeError
  else do
    let dim := (bases.map TomoBasis.side).prod
    let planes ← (itProduct (bases.map fun b => b.data.map fun m => (b.side, m))).mapM fun fs => do
      let m ← reduceKron fs
      .ok m.2
    if dim ^ 2 < planes.length then .error .indexError
    else .ok (tomoBasisInit
      (planes ++ List.replicate (dim ^ 2 - planes.length) (fun _ _ => 0)) dim
      (bases.map TomoBasis.dims).flatten
      (.list ((itProduct (bases.map TomoBasis.labels)).map fun ls => "\\otimes".intercalate ls)))

/-- Fancy indexing of axis 0 by a list of nonnegative indices. (bases.py 147.) -/
def takePlanes (data : List Plane) (idx : List Nat) : Except PyErr (List Plane) :=
  idx.mapM fun i => match data[i]? with
    | some m => .ok m
    | none => .error .indexError

/-- `pauli_basis`, bases.py 137-154. -/
noncomputable def pauliBasis (nq : Int) : Except PyErr TomoBasis := do
  let gm ← gellMannBasis 2
  let planes ← takePlanes gm.data [0, 2, 3, 1]
  let one := tomoBasisInit planes 2 [2] (.list ["𝟙", "\\sigma_x", "\\sigma_y", "\\sigma_z"])
  tensorProductBasis (List.replicate nq.toNat one)

/-! ## Conversions -/

/-- Entry `m` of row `a` of `flat()`, bases.py 232 and 313-320: row-major reshape. -/
def flatRow (side : Nat) (p : Plane) (m : Nat) : ℂ := p (m / side) (m % side)

/-- `state_to_modelparams`, bases.py 323-336: the state is an array of size `n`; `np.dot` raises
`ValueError` when the flattened lengths differ. -/
noncomputable def stateToModelparams (b : TomoBasis) (n : Nat) (state : Plane) :
    Except PyErr (List ℝ) :=
  if b.side * b.side ≠ n * n then .error .valueError
  else .ok (b.data.map fun p =>
    (((List.range (n * n)).map fun m =>
      (starRingEnd ℂ) (flatRow b.side p m) * flatRow n state m).sum).re)

/-- `modelparams_to_state`, bases.py 338-362, of one vector: `np.tensordot(modelparams, data, 1)`;
different lengths raise `ValueError`. -/
noncomputable def modelparamsToState (b : TomoBasis) (x : List ℝ) : Except PyErr Plane :=
  if x.length ≠ b.data.length then .error .valueError
  else .ok fun i j => ((x.zip b.data).map fun p => (p.1 : ℂ) * p.2 i j).sum

/-- `modelparams_to_state` of a two-dimensional array, bases.py 361-362. -/
noncomputable def modelparamsToStates (b : TomoBasis) (xs : List (List ℝ)) :
    Except PyErr (List Plane) :=
  xs.mapM (modelparamsToState b)

/-- `covariance_mtx_to_superop`, bases.py 364-374: `M† mtx M` with `M = flat()`, for an
`n × n` matrix given by its entries. -/
noncomputable def covarianceToSuperop (b : TomoBasis) (n : Nat) (mtx : Nat → Nat → ℝ) :
    Except PyErr Plane :=
  if n ≠ b.data.length then .error .valueError
  else .ok fun i j =>
    ((List.range n).map fun c =>
      ((List.range n).map fun a =>
        (starRingEnd ℂ) (flatRow b.side (b.data.getD a 0) i) * (mtx a c : ℂ)).sum
      * flatRow b.side (b.data.getD c 0) j).sum

end QInfer
