import Verif.Model.Py
import Mathlib.Analysis.SpecialFunctions.Pow.NNReal

/-!
# Models of `PoisonedModel`, `RandomWalkModel` and `GaussianRandomWalkModel`
(`src/qinfer/derived_models.py`)
-/

namespace QInfer

/-! ## PoisonedModel -/

/-- A float: a real number, an infinity or NaN. (The values at derived_models.py 197-207.) -/
inductive Flt
  | nan | posInf | negInf | fin (x : ℝ)

/-- The mode and its parameters, derived_models.py 176-182. -/
inductive PoisonMode
  | ale (tol : ℝ)
  | mle (nSamples : Option ℝ) (hedge : ℝ)

/-- `PoisonedModel.__init__`, derived_models.py 166-182.  The condition
`tol is None != n_samples is None` is a chained comparison: `tol is None and None != n_samples and
n_samples is None`. -/
def poisonInit (tol nSamples hedge : Option ℝ) : Except PyErr PoisonMode :=
  if tol.isNone && (nSamples.isSome && nSamples.isNone) then .error .valueError
  else match tol with
    | some t => .ok (.ale t)
    | none => .ok (.mle nSamples (hedge.getD 0))

open Classical in
/-- `binom_est_error`, utils.py 683-688: `np.sqrt(p*(1-p)/(N+2*hedge+1))`. -/
noncomputable def binomErrFlt (p n hedge : ℝ) : Flt :=
  let num := p * (1 - p)
  let den := n + 2 * hedge + 1
  if den = 0 then (if 0 < num then .posInf else .nan)
  else if num / den < 0 then .nan else .fin (Real.sqrt (num / den))

open Classical in
/-- `x * s` for a finite `x` and a scale `s`. (derived_models.py 201, 204.) -/
noncomputable def fltMul (x : ℝ) : Flt → Flt
  | .nan => .nan
  | .fin s => .fin (x * s)
  | .posInf => if x = 0 then .nan else if 0 < x then .posInf else .negInf
  | .negInf => if x = 0 then .nan else if 0 < x then .negInf else .posInf

/-- `np.clip(l + e, 0, 1)` for a finite `l`. (derived_models.py 207.) -/
noncomputable def fltAddClip (l : ℝ) : Flt → Flt
  | .nan => .nan
  | .posInf => .fin 1
  | .negInf => .fin 0
  | .fin e => .fin (clip 0 1 (l + e))

/-- One entry of `PoisonedModel.likelihood`, derived_models.py 186-208: `l` is the underlying
likelihood, `z` the standard normal draw.  With `n_samples=None` in MLE mode the addition
`N + 2*hedge` raises `TypeError`. -/
noncomputable def poisonEntry (mode : PoisonMode) (z l : ℝ) : Except PyErr Flt :=
  match mode with
  | .ale tol => .ok (fltAddClip l (.fin (z * tol)))
  | .mle none _ => .error .typeError
  | .mle (some n) hedge => .ok (fltAddClip l (fltMul z (binomErrFlt l n hedge)))

/-! ## Random walks

Arrays are functions of natural number indices, meaningful inside the stated dimensions. -/

section
variable {K : Type} [Field K]

/-- `RandomWalkModel.__init__`, derived_models.py 714-720. -/
def rwInit (nModelparams nRvs : Nat) : Except PyErr Unit :=
  if nModelparams ≠ nRvs then .error .typeError else .ok ()

/-- `RandomWalkModel.update_timestep`, derived_models.py 733-741.  `draw` is the array returned by
`step_distribution.sample(n_models * n_exps)`; `reshape` splits row `q` into `q / n_exps` and
`q % n_exps`.  The result is indexed by model, parameter, experiment. -/
def rwStep (nExps : Nat) (draw : Nat → Nat → K) (mps : Nat → Nat → K) (m p e : Nat) : K :=
  let steps := fun m e p => draw (m * nExps + e) p
  mps m p + steps m e p

/-- How `random_walk_idxs` selects from an axis: the string `'all'` (then the slice `:n`), a list of
integers, or a slice with step one. (derived_models.py 785, 791-792.) -/
inductive RwIdxs
  | all
  | list (is : List Int)
  | slice (start stop : Option Int)
  deriving DecidableEq

/-- Integer indexing of an axis of length `len`: negative indices count from the end.
(derived_models.py 794.) -/
def axisIndex (len : Nat) (i : Int) : Except PyErr Nat :=
  if 0 ≤ i then (if i < len then .ok i.toNat else .error .indexError)
  else (if 0 ≤ i + len then .ok (i + len).toNat else .error .indexError)

/-- Integer indexing by a list. (derived_models.py 794, 847.) -/
def axisIndices (len : Nat) : List Int → Except PyErr (List Nat)
  | [] => .ok []
  | i :: is => do
    let j ← axisIndex len i
    let js ← axisIndices len is
    .ok (j :: js)

/-- A slice bound on an axis of length `len`: negative bounds count from the end, and bounds are cut
off at the ends. (derived_models.py 794, 847.) -/
def sliceBound (len : Nat) (i : Int) : Nat :=
  if 0 ≤ i then min i.toNat len else (max (i + len) 0).toNat

/-- First index of a slice. (derived_models.py 794, 847.) -/
def sliceLo (len : Nat) : Option Int → Nat
  | none => 0
  | some i => sliceBound len i

/-- End of a slice. (derived_models.py 794, 847.) -/
def sliceHi (len : Nat) : Option Int → Nat
  | none => len
  | some i => sliceBound len i

/-- `np.arange(len)[idxs]`; `nUnd` is the number of underlying parameters (for `'all'`).
(derived_models.py 794, 847.) -/
def RwIdxs.resolve (nUnd len : Nat) : RwIdxs → Except PyErr (List Nat)
  | .all => .ok (List.range (min nUnd len))
  | .list is => axisIndices len is
  | .slice a b => .ok ((List.range (sliceHi len b)).drop (sliceLo len a))

/-- The kind of covariance, derived_models.py 805-843: fixed diagonal (the square roots of the given
variances), fixed dense (the Cholesky factor), learned diagonal, learned dense. -/
inductive RwCov (K : Type)
  | fixedDiag (scale : Nat → K)
  | fixedDense (chol : Nat → Nat → K)
  | learnedDiag
  | learnedDense

/-- Number of parameters appended to the model, derived_models.py 809-824. -/
def RwCov.extra (n : Nat) : RwCov K → Nat
  | .fixedDiag _ => 0
  | .fixedDense _ => 0
  | .learnedDiag => n
  | .learnedDense => n * (n + 1) / 2

/-- The constructed model. (The attributes set at derived_models.py 790-860.) -/
structure GRw (K : Type) where
  nUnd : Nat
  idxs : RwIdxs
  nRw : Nat
  cov : RwCov K

/-- `n_modelparams`, derived_models.py 870-872. -/
def GRw.nParams (g : GRw K) : Nat := g.nUnd + g.cov.extra g.nRw

/-- `GaussianRandomWalkModel.__init__`, derived_models.py 784-860, for a covariance whose shape has
been checked (see `grwFixedCheck`).  `np.max(explicit_idxs)` is taken of a non-empty list. -/
def grwInit (nUnd : Nat) (idxs : RwIdxs) (cov : RwCov K) : Except PyErr (GRw K) := do
  let explicit ← idxs.resolve nUnd nUnd
  if explicit = [] then .error .indexError
  else
    let g : GRw K := ⟨nUnd, idxs, explicit.length, cov⟩
    let again ← idxs.resolve nUnd g.nParams
    -- `np.max` of an empty array raises `ValueError`
    if again = [] then .error .valueError
    else if again.foldl max 0 > explicit.foldl max 0 then .error .indexError else .ok g

/-- The shape checks of a fixed covariance, derived_models.py 828-838: `dims` is its shape.  The
message of the second check formats `self.n_rw`, which does not exist. -/
def grwFixedCheck (diagonal : Bool) (nRw : Nat) (dims : List Nat) : Except PyErr Unit :=
  if diagonal then
    if dims.length ≠ 1 then .error .valueError
    else if dims.prod ≠ nRw then .error .attributeError
    else .ok ()
  else
    if dims.length ≠ 2 then .error .valueError
    else if dims.prod ≠ nRw ^ 2 ∨ dims[0]? ≠ dims[1]? then .error .valueError
    else .ok ()

/-- Position of an entry of the lower triangle in `np.tril_indices` order.
(derived_models.py 818, 938.) -/
def trilPos (i j : Nat) : Nat := i * (i + 1) / 2 + j

/-- `chol[(:,) + tril_indices] = modelparams[:, srw_idxs]` for one particle.
(derived_models.py 916, 938.) -/
def learnedChol (nUnd : Nat) (mp : Nat → K) (i j : Nat) : K :=
  if j ≤ i then mp (nUnd + trilPos i j) else 0

/-- The array `steps[m, j, e]` before scaling, derived_models.py 924-940.  `z` is the stream of
standard normal draws, laid out in C order by `np.random.normal(size=...)`. -/
def grwSteps (g : GRw K) (nMps nEps : Nat) (mps : Nat → Nat → K) (z : Nat → K) (m j e : Nat) : K :=
  match g.cov with
  | .fixedDiag scale => scale j * z ((e * nMps + m) * g.nRw + j)
  | .learnedDiag => mps m (g.nUnd + j) * z ((e * nMps + m) * g.nRw + j)
  | .fixedDense chol =>
    ((List.range g.nRw).map fun k => chol j k * z (k * (nMps * nEps) + (m * nEps + e))).sum
  | .learnedDense =>
    ((List.range g.nRw).map fun k =>
      learnedChol g.nUnd (mps m) j k * z ((m * g.nRw + k) * nEps + e)).sum

/-- The last position of `p` in a list. (For derived_models.py 953, 961.) -/
def lastPos (p : Nat) : List Nat → Option Nat
  | [] => none
  | q :: qs => match lastPos p qs with
    | some j => some (j + 1)
    | none => if q = p then some 0 else none

/-- `row[idxs] += steps` with an index list: repeated indices are not accumulated, the last one
wins. (derived_models.py 953, 961.) -/
def scatterAdd (idxs : List Nat) (row steps : Nat → K) (p : Nat) : K :=
  match lastPos p idxs with
  | some j => row p + steps j
  | none => row p

/-- The selected parameters at the time of `+=`: `steps` has `n_rw` columns, so another number of
selected columns raises `ValueError`.  (One step would be broadcast to several columns, but an
accepted model with one walk parameter never selects more.) (derived_models.py 953, 961.) -/
def GRw.walked (g : GRw K) : Except PyErr (List Nat) := do
  let idxs ← g.idxs.resolve g.nUnd g.nParams
  if idxs.length = g.nRw then .ok idxs else .error .valueError

/-- `update_timestep` without a transformation, derived_models.py 920-943 and 959-963: result indexed by model,
parameter, experiment.  `scale e` is `scale_mult_fcn(expparams)[e]` (one if not given). -/
def grwStep (g : GRw K) (nMps nEps : Nat) (scale : Nat → K) (z : Nat → K) (mps : Nat → Nat → K) :
    Except PyErr (Nat → Nat → Nat → K) := do
  let idxs ← g.walked
  .ok fun m p e => scatterAdd idxs (mps m) (fun j => scale e * grwSteps g nMps nEps mps z m j e) p

/-- Replace the underlying columns of a two-axis array by a function of them.
(derived_models.py 949-957.) -/
def onUnderlying (nUnd : Nat) (f : (Nat → Nat → K) → Nat → Nat → K) (a : Nat → Nat → K)
    (q p : Nat) : K :=
  if p < nUnd then f (fun q p => if p < nUnd then a q p else 0) q p else a q p

/-- `update_timestep` with a transformation, derived_models.py 943-958 and 963.  Row `q` of the repeated array
is experiment `q / n_mps`, particle `q % n_mps`. -/
def grwStepTransformed (g : GRw K) (nMps nEps : Nat) (scale : Nat → K) (z : Nat → K)
    (tr inv : (Nat → Nat → K) → Nat → Nat → K) (mps : Nat → Nat → K) :
    Except PyErr (Nat → Nat → Nat → K) := do
  let idxs ← g.walked
  let a : Nat → Nat → K := fun q p => mps (q % nMps) p
  let a := onUnderlying g.nUnd tr a
  let a : Nat → Nat → K := fun q p => scatterAdd idxs (a q)
    (fun j => scale (q / nMps) * grwSteps g nMps nEps mps z (q % nMps) j (q / nMps)) p
  let a := onUnderlying g.nUnd inv a
  .ok fun m p e => a (e * nMps + m) p

variable [LinearOrder K]

/-- `are_models_valid` for one parameter vector, derived_models.py 880-888; `und` is the underlying
model's answer for the first `nUnd` parameters. -/
def grwValid (g : GRw K) (und : (Nat → K) → Bool) (mp : Nat → K) : Bool :=
  match g.cov with
  | .learnedDiag => und mp && (List.range g.nRw).all fun j => decide (0 ≤ mp (g.nUnd + j))
  | _ => und mp

/-- `est_update_covariance`, derived_models.py 907-918, entry `(i, j)`, for `nMps` particles. -/
def grwCov (g : GRw K) (nMps : Nat) (mps : Nat → Nat → K) (i j : Nat) : K :=
  match g.cov with
  | .fixedDiag scale => if i = j then scale i ^ 2 else 0
  | .learnedDiag =>
    if i = j then ((List.range nMps).map fun m => mps m (g.nUnd + i) ^ 2).sum / (nMps : K) else 0
  | .fixedDense chol => ((List.range g.nRw).map fun k => chol i k * chol j k).sum
  | .learnedDense => ((List.range nMps).map fun m => ((List.range g.nRw).map fun k =>
      learnedChol g.nUnd (mps m) i k * learnedChol g.nUnd (mps m) j k).sum).sum / (nMps : K)

end

end QInfer
