import Verif.Model.Py
import Mathlib.Analysis.SpecialFunctions.Log.Basic
import Mathlib.Analysis.SpecialFunctions.Exp
import Mathlib.Analysis.SpecialFunctions.Pow.Real
import Mathlib.LinearAlgebra.Matrix.NonsingularInverse
import Mathlib.LinearAlgebra.Matrix.ConjTranspose
import Mathlib.Algebra.BigOperators.Fin

/-!
# Models of the simple distributions of `src/qinfer/distributions.py`

Lines 792-970, 1148-1301 and `InterpolatedUnivariateDistribution` (1352-1389), with `compactspace`
(`src/qinfer/utils.py` 452-461).  The variates of the random number generators are parameters.
-/

namespace QInfer

open Matrix
open scoped BigOperators

section
variable {K : Type} [Field K]

/-! ## Uniform, slanted, constant, discrete -/

/-- The `ranges` argument: a vector or an array with its number of columns.
(distributions.py 800-811.) -/
inductive RangesArg (K : Type)
  | vec (r : List K)
  | mat (cols : Nat) (rows : List (List K))

/-- `ranges[np.newaxis, ...]` for a vector: columns and rows. (distributions.py 804.) -/
def RangesArg.table : RangesArg K → Nat × List (List K)
  | .vec r => (r.length, [r])
  | .mat cols rows => (cols, rows)

/-- The attributes `_ranges[:, 0]` and `_delta`. (distributions.py 806-811.) -/
structure BoxDist (K : Type) where
  lo : List K
  delta : List K

/-- `UniformDistribution.__init__`, distributions.py 801-810, and `SlantedNormalDistribution.__init__`,
927-937. -/
def boxInit (ranges : RangesArg K) : Except PyErr (BoxDist K) :=
  let (cols, rows) := ranges.table
  if cols < 2 then .error .indexError
  else .ok ⟨rows.map fun r => r.getD 0 0, rows.map fun r => r.getD 1 0 - r.getD 0 0⟩

/-- `n_rvs`, distributions.py 812-814. -/
def BoxDist.nRvs (d : BoxDist K) : Nat := d.lo.length

/-- `UniformDistribution.sample`, distributions.py 816-819: `z` are the uniform variates, one row per sample. -/
def BoxDist.uniform (d : BoxDist K) (z : List (List K)) : List (List K) :=
  z.map fun row => List.zipWith (· + ·) d.lo (List.zipWith (· * ·) row d.delta)

/-- `SlantedNormalDistribution.sample`, distributions.py 943-948: normal variates `z`, uniform variates `u`. -/
def BoxDist.slanted (d : BoxDist K) (weight : K) (z u : List (List K)) : List (List K) :=
  List.zipWith (fun zr ur => List.zipWith (· + ·)
    (List.zipWith (· + ·) d.lo (zr.map (weight * ·))) (List.zipWith (· * ·) ur d.delta)) z u

/-- What `grad_log_pdf` returns: one axis or two. (distributions.py 821-827, 879-880.) -/
inductive GradArr (K : Type)
  | vec (g : List K)
  | mat (g : List (List K))

/-- `UniformDistribution.grad_log_pdf`, distributions.py 821-827, for an array `var` of two axes. -/
def BoxDist.gradLogPdf (d : BoxDist K) (var : List (List K)) : GradArr K :=
  if var.length = 1 then .vec (d.delta.map fun x => 12 / x ^ 2)
  else .mat (var.map fun r => r.map fun _ => 0)

/-- `ConstantDistribution.sample`, distributions.py 838-846. -/
def constantSample (values : List K) (n : Nat) : List (List K) := List.replicate n values

end

/-- An array of samples with one or two axes. (distributions.py 845-846, 1164-1166.) -/
inductive Samples (α : Type)
  | flat (xs : List α)
  | rows (xs : List (List α))

/-- `DiscreteUniformDistribution.sample`, distributions.py 1164-1166: `z` is the result of `np.random.randint`. -/
def discreteSample (z : List Nat) : Samples Nat := .flat z

/-- `prior.sample(n=n_particles)[:, :]` in `SMCUpdater.reset`, smc.py 309-316. -/
def Samples.allRows {α : Type} : Samples α → Except PyErr (List (List α))
  | .flat _ => .error .indexError
  | .rows xs => .ok xs

/-! ## Normal, multivariate normal, log-normal -/

/-- The scipy distribution a `NormalDistribution` uses: `norm(loc, scale)` or `truncnorm(a, b, loc,
scale)`. (distributions.py 859-870.) -/
structure NormalSpec where
  loc : ℝ
  scale : ℝ
  limits : Option (ℝ × ℝ)

/-- `NormalDistribution.__init__`, distributions.py 859-870; `none` when `np.sqrt` of a negative variance or a division
by a zero deviation gives NaN or infinity. -/
noncomputable def normalInit (mean var : ℝ) (trunc : Option (ℝ × ℝ)) : Option NormalSpec :=
  if var < 0 then none
  else match trunc with
    | none => some ⟨mean, Real.sqrt var, none⟩
    | some (low, high) =>
      let sigma := Real.sqrt var
      if sigma = 0 then none
      else some ⟨mean, Real.sqrt var, some ((low - mean) / sigma, (high - mean) / sigma)⟩

/-- A sample for the standard normal (or truncated standard normal) variate `z`: scipy returns
`loc + scale * z`. (distributions.py 876-877.) -/
noncomputable def NormalSpec.sample (s : NormalSpec) (z : ℝ) : ℝ := s.loc + s.scale * z

/-- `NormalDistribution.grad_log_pdf`, distributions.py 879-880. -/
noncomputable def normalGrad (mean var x : ℝ) : ℝ := -(x - mean) / var

/-- `MultivariateNormalDistribution.sample`, distributions.py 904-905, for one row `z` of normal variates and the root
`S` returned by `la.sqrtm(cov)`. -/
noncomputable def mvnSample {d : Nat} (mean : Fin d → ℝ) (S : Matrix (Fin d) (Fin d) ℝ)
    (z : Fin d → ℝ) : Fin d → ℝ :=
  fun i => (∑ j, S i j * z j) + mean i

open Classical in
/-- `la.inv(cov)` in `MultivariateNormalDistribution.__init__`, distributions.py 892-899: `LinAlgError` for a singular
matrix. -/
noncomputable def mvnInit {d : Nat} (cov : Matrix (Fin d) (Fin d) ℝ) :
    Except PyErr (Matrix (Fin d) (Fin d) ℝ) :=
  if cov.det = 0 then .error .other else .ok cov⁻¹

/-- `MultivariateNormalDistribution.grad_log_pdf`, distributions.py 907-908, for one row. -/
noncomputable def mvnGrad {d : Nat} (mean : Fin d → ℝ) (invcov : Matrix (Fin d) (Fin d) ℝ)
    (x : Fin d → ℝ) : Fin d → ℝ :=
  fun i => -∑ j, invcov i j * (x j - mean j)

/-- `LogNormalDistribution`, distributions.py 959-970: `scipy.stats.lognorm(1, mu, sigma)`, whose arguments are shape,
location and scale; `z` is a standard normal variate. -/
noncomputable def logNormalSample (mu sigma z : ℝ) : ℝ := mu + sigma * Real.exp (1 * z)

/-! ## InterpolatedUnivariateDistribution -/

/-- `compactspace`, utils.py 452-461: the quantiles of the logistic distribution at the inner points of
`np.linspace(0, 1, n + 2)`. -/
noncomputable def compactspace (scale : ℝ) (n : Nat) : List ℝ :=
  (List.range n).map fun k : Nat =>
    let p : ℝ := ((k : ℝ) + 1) / ((n : ℝ) + 1)
    scale * Real.log (p / (1 - p))

/-- The areas of the trapezia, the increments of `cumtrapz`. (distributions.py 1381.) -/
noncomputable def trapAreas : List ℝ → List ℝ → List ℝ
  | x :: x' :: xs, y :: y' :: ys => (x' - x) * (y + y') / 2 :: trapAreas (x' :: xs) (y' :: ys)
  | _, _ => []

/-- Running sums. (distributions.py 1381.) -/
noncomputable def runSums : ℝ → List ℝ → List ℝ
  | acc, [] => [acc]
  | acc, a :: as => acc :: runSums (acc + a) as

open Classical in
/-- `_generate_interp`, distributions.py 1374-1382: the table `_cdfs`; `none` when the norm is zero. -/
noncomputable def interpCdfs (pdf : ℝ → ℝ) (xs : List ℝ) : Option (List ℝ) :=
  let pdfs := xs.map pdf
  let norm := (trapAreas xs pdfs).sum
  if norm = 0 then none
  else some (runSums 0 (trapAreas xs (pdfs.map (· / norm))))

open Classical in
/-- `interp1d(cdfs, xs, bounds_error=False)` at `u` for strictly increasing `cdfs`: the index of
`searchsorted` (side left) clipped to `1 .. n-1`, then linear interpolation; NaN (`none`) outside.
(distributions.py 1382.) -/
noncomputable def interp1d (cs xs : List ℝ) (u : ℝ) : Option ℝ :=
  if u < cs.getD 0 0 ∨ cs.getD (cs.length - 1) 0 < u then none
  else
    let i := (cs.takeWhile fun c => decide (c < u)).length
    let i := min (max i 1) (cs.length - 1)
    let slope := (xs.getD i 0 - xs.getD (i - 1) 0) / (cs.getD i 0 - cs.getD (i - 1) 0)
    some (slope * (u - cs.getD (i - 1) 0) + xs.getD (i - 1) 0)

/-- `InterpolatedUnivariateDistribution.sample`, distributions.py 1388-1389, for one uniform variate. -/
noncomputable def interpSample (pdf : ℝ → ℝ) (scale : ℝ) (n : Nat) (u : ℝ) : Option ℝ :=
  (interpCdfs pdf (compactspace scale n)).bind fun cs => interp1d cs (compactspace scale n) u

/-! ## Bloch vectors -/

/-- The Bloch vector read off by `HaarUniform._sample`, distributions.py 1260-1267, for `psi = U |0⟩`. -/
noncomputable def haarBloch (U : Matrix (Fin 2) (Fin 2) ℂ) : List ℝ :=
  let psi : Fin 2 → ℂ := U *ᵥ ![1, 0]
  let ev := fun P : Matrix (Fin 2) (Fin 2) ℂ => (star psi ⬝ᵥ (P *ᵥ psi)).re
  [ev !![0, 1; 1, 0], ev !![0, -Complex.I; Complex.I, 0], ev !![1, 0; 0, -1]]

/-- The unitary of `HaarUniform._sample`, distributions.py 1252-1258, from `q, r = qr(z)`: the columns of `q` times the
phases of the diagonal of `r`. -/
noncomputable def phaseFix {d : Nat} (q r : Matrix (Fin d) (Fin d) ℂ) : Matrix (Fin d) (Fin d) ℂ :=
  q * diagonal fun i => r i i / (‖r i i‖ : ℂ)

open Classical in
/-- `GinibreUniform._sample`, distributions.py 1290-1301, for dimension two and variates `z`; `none` for NaN. -/
noncomputable def ginibreBloch {k : Nat} (z : Matrix (Fin 2) (Fin k) ℂ) : Option (List ℝ) :=
  let rho := z * zᴴ
  if trace rho = 0 then none
  else
    let rho := (trace rho)⁻¹ • rho
    let ev := fun P : Matrix (Fin 2) (Fin 2) ℂ => (trace (rho * P)).re
    some [ev !![0, 1; 1, 0], ev !![0, -Complex.I; Complex.I, 0], ev !![1, 0; 0, -1]]

/-- Creating an object of a class derived from an `abc.ABCMeta` class: `TypeError` when a method declared
abstract is not defined. (distributions.py 101, 129.) -/
def abcNew (abstracts defined : List String) : Except PyErr Unit :=
  if ∀ m ∈ abstracts, m ∈ defined then .ok () else .error .typeError

/-- The abstract methods of `Distribution` and `SingleSampleMixin`, distributions.py 107, 116 and 135. -/
def singleSampleAbstracts : List String := ["n_rvs", "sample", "_sample"]

/-- The methods of `HilbertSchmidtUniform`, distributions.py 1168-1220, and those of `SingleSampleMixin`. -/
def hsMethods : List String := ["__init__", "n_rvs", "sample", "make_Paulis"]

/-- The methods of `HaarUniform`, distributions.py 1223-1267, and of `GinibreUniform`, 1269-1301, and those of
`SingleSampleMixin`. -/
def blochMethods : List String := ["__init__", "n_rvs", "_sample", "sample"]

/-- `SingleSampleMixin.sample`, distributions.py 139-143: the samples are drawn one by one; `draw` is `_sample` with the
variates of the call. -/
def singleSample {σ : Type} (draw : σ → Except PyErr (List ℝ)) : List σ → Except PyErr (List (List ℝ))
  | [] => .ok []
  | s :: ss => do
    let x ← draw s
    let xs ← singleSample draw ss
    .ok (x :: xs)

/-- `HaarUniform._sample`, distributions.py 1249-1267, for the factors `q` and `r` of dimension `d`: the product with
`[1, 0]` is a `ValueError` unless the dimension is two. -/
noncomputable def haarSample {d : Nat} (qr : Matrix (Fin d) (Fin d) ℂ × Matrix (Fin d) (Fin d) ℂ) :
    Except PyErr (List ℝ) :=
  if h : d = 2 then .ok (haarBloch (h ▸ phaseFix qr.1 qr.2)) else .error .valueError

end QInfer
