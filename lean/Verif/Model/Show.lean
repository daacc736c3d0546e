import Verif.Model.Bases
import Verif.Model.Misc
import Verif.Model.Particle

/-!
# Model of how bases and updaters are read out and displayed

`src/qinfer/tomography/bases.py` 156-175 (numbers), 239-278 (`_repr_html_`), 280-290 (items),
`src/qinfer/smc.py` 756-792 (`plot_covariance`), 862-906 (`_repr_html_`).
Of a text, only the names and the numbers in it are modelled.
-/

namespace QInfer

/-! ## Items of a basis -/

/-- An index of a basis: an `int`, a list, or anything else (a slice, tuple or numpy integer).  Not modelled: a
`bool`, which is an `int` for Python and a mask for numpy.  (bases.py 280-286.) -/
inductive BasisIdx
  | int (i : ℤ)
  | list (l : List BasisIdx)
  | other

/-- What indexing gives: the data of an element, with the dimensions of the `Qobj`, or a list.
(bases.py 282-284.) -/
inductive BasisItem
  | elem (p : Plane) (dims : List Nat × List Nat)
  | list (l : List BasisItem)

/-- `self.data[idx]`: numpy counts negative indices from the end. (bases.py 282.) -/
def planeAt (data : List Plane) (i : ℤ) : Except PyErr Plane :=
  let k := if i < 0 then i + data.length else i
  if k < 0 then .error .indexError
  else match data[k.toNat]? with
    | some p => .ok p
    | none => .error .indexError

mutual
/-- `TomographyBasis.__getitem__`, bases.py 280-286. -/
def TomoBasis.getItem (b : TomoBasis) : BasisIdx → Except PyErr BasisItem
  | .int i => do
    let p ← planeAt b.data i
    .ok (.elem p (b.dims, b.dims))
  | .list l => do
    let xs ← b.getItems l
    .ok (.list xs)
  | .other => .error .typeError
/-- The list comprehension of bases.py 284. -/
def TomoBasis.getItems (b : TomoBasis) : List BasisIdx → Except PyErr (List BasisItem)
  | [] => .ok []
  | i :: is => do
    let x ← b.getItem i
    let xs ← b.getItems is
    .ok (x :: xs)
end

/-- `list(basis)`: `TomographyBasis.__iter__`, bases.py 288-290. -/
def TomoBasis.iter (b : TomoBasis) : Except PyErr (List BasisItem) :=
  (List.range b.len).mapM fun i : Nat => b.getItem (.int i)

/-! ## Numbers in LaTeX -/

/-- A real number as it is displayed: as an integer, with three decimals, or with three decimals and a power of
ten. (bases.py 156-162.) -/
inductive ShownReal
  | whole (z : ℤ)
  | fixed (x : ℝ)
  | sci (x : ℝ)

open Classical in
/-- `_format_float_as_latex`, bases.py 156-162.  `int(c)` drops the fractional part. -/
noncomputable def latexFloat (c tol : ℝ) : ShownReal :=
  let z : ℤ := if 0 ≤ c then ⌊c⌋ else ⌈c⌉
  if |c - z| ≤ tol then .whole z
  else if 1e-3 ≤ |c| ∧ |c| ≤ 1e3 then .fixed c
  else .sci c

/-- The number that a reader sees; `rnd` is the rounding to the nearest integer by `format`.
(bases.py 158-162.) -/
noncomputable def ShownReal.read (rnd : ℝ → ℤ) : ShownReal → ℝ
  | .whole z => z
  | .fixed x => printedNumber rnd 3 x
  | .sci x => printedNumber rnd 3 (x / (10 : ℝ) ^ ⌊Real.logb 10 |x|⌋) * (10 : ℝ) ^ ⌊Real.logb 10 |x|⌋

/-- A complex number as it is displayed: one part or both. (bases.py 165-175.) -/
inductive ShownComplex
  | real (x : ShownReal)
  | imag (y : ShownReal)
  | both (x y : ShownReal)

open Classical in
/-- `_format_complex_as_latex`, bases.py 165-175. -/
noncomputable def latexComplex (c : ℂ) (tol : ℝ) : ShownComplex :=
  if |c.im| ≤ tol then .real (latexFloat c.re tol)
  else if |c.re| ≤ tol then .imag (latexFloat c.im tol)
  else .both (latexFloat c.re tol) (latexFloat c.im tol)

/-- The number that a reader sees. (bases.py 165-175.) -/
noncomputable def ShownComplex.read (rnd : ℝ → ℤ) : ShownComplex → ℂ
  | .real x => ⟨x.read rnd, 0⟩
  | .imag y => ⟨0, y.read rnd⟩
  | .both x y => ⟨x.read rnd, y.read rnd⟩

/-- `TomographyBasis._repr_html_`, bases.py 239-278: the labels with the rows of their matrices up to dimension
ten, only the labels above. -/
noncomputable def TomoBasis.show (b : TomoBasis) : List (String × Option (List (List ShownComplex))) :=
  if b.dim ≤ 10 then
    (b.data.zip b.labels).map fun q => (q.2, some ((List.range b.side).map fun i =>
      (List.range b.side).map fun j => latexComplex (q.1 i j) 1e-10))
  else b.labels.map fun l => (l, none)

/-! ## The table of an updater -/

/-- `SMCUpdater._repr_html_`, smc.py 890-903: the heads of the columns, and the numbers in the columns, which
`format_uncertainty` (default `scinotn_break=4`) lays out. -/
noncomputable def updaterTable {n d : Nat} (names : List String) (w : Fin n → ℝ) (x : Fin n → Fin d → ℝ) :
    List String × List UncLayout :=
  (names.map fun s => "<td>$" ++ s ++ "$</td>",
    List.zipWith (fun mu std => uncLayout mu std 4) (List.ofFn (pmean w x))
      (List.ofFn fun j => Real.sqrt (pcov w x j j)))

/-- `SMCUpdater.plot_covariance`, smc.py 772-789: tick positions, tick labels and the plotted matrix.  `sl` lists
the indices selected by `param_slice`, `cov` is the covariance or correlation matrix. -/
def plotCovariance (names : List String) (sl : List Nat) (tickLabels : Option (List String))
    (cov : Nat → Nat → ℝ) : List Nat × List String × List (List ℝ) :=
  let chosen := sl.map fun i => names.getD i ""
  (List.range chosen.length,
    match tickLabels with
    | some l => l
    | none => chosen.map fun s => "$" ++ s ++ "$",
    sl.map fun i => sl.map fun j => cov i j)

end QInfer
