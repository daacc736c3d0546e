import Verif.Model.Smc
import Verif.Model.Outcome
import Verif.Model.SimpleDists
import Verif.Model.Resample
import Mathlib.Algebra.Order.Floor.Ring

/-!
# Model of `src/qinfer/simple_est.py`

Data tables, their separation into outcomes and experiments, and the estimation functions
`simple_est_prec` and `simple_est_rb`.  Pandas data frames (111-112) become record arrays and are not
modelled apart from that.
-/

namespace QInfer

/-- An array without an axis or with one axis. (The arrays at simple_est.py 95-104.) -/
inductive Arr01 (α : Type*)
  | cell (a : α)
  | vec (l : List α)
  deriving DecidableEq, Repr

/-- The operation on whole arrays at simple_est.py 95. -/
def Arr01.map {α β : Type*} (f : α → β) : Arr01 α → Arr01 β
  | .cell a => .cell (f a)
  | .vec l => .vec (l.map f)

/-- How the columns of a data array are addressed: a plain array by position along its last axis, a
record array by field name. (simple_est.py 87-93.) -/
inductive Layout
  | plain (nCols : Nat)
  | record (names : List String)
  deriving DecidableEq, Repr

/-- A data array: its rows (one row alone: an array with one axis less). (simple_est.py 87-93.) -/
structure DataArr (K : Type*) where
  layout : Layout
  rows : Arr01 (List K)

/-- A column specification `(BY_IDX, BY_NAME)`, simple_est.py 84. -/
abbrev ColSpec := ℤ × String

/-- `data[s_(col)]`: which column is read, simple_est.py 86-93.  A position outside the array is an
`IndexError`, a name that is not a field a `ValueError`. -/
def colIdx (l : Layout) (col : ColSpec) : Except PyErr Nat :=
  match l with
  | .plain n =>
    let i := if col.1 < 0 then col.1 + n else col.1
    if 0 ≤ i ∧ i < n then .ok i.toNat else .error .indexError
  | .record names => match names.idxOf? col.2 with
    | some j => .ok j
    | none => .error .valueError

/-- The entries of one column.  Every row has as many entries as there are columns.
(simple_est.py 89-95.) -/
def column {K : Type*} [Zero K] (d : DataArr K) (j : Nat) : Arr01 K := d.rows.map fun r => r.getD j 0

/-- `astype(int)`: toward zero. (simple_est.py 95.) -/
def trunc {K : Type} [Ring K] [LinearOrder K] [FloorRing K] (x : K) : ℤ :=
  if 0 ≤ x then ⌊x⌋ else ⌈x⌉

/-- Types of the fields of `expparams`; integers truncate what is assigned to them, booleans are one
for everything but zero. (simple_est.py 99.) -/
inductive FieldTy
  | flt | int | bool
  deriving DecidableEq, Repr

/-- Assignment at simple_est.py 101, 104. -/
def FieldTy.cast {K : Type} [Ring K] [LinearOrder K] [FloorRing K] : FieldTy → K → K
  | .flt, x => x
  | .int, x => (trunc x : K)
  | .bool, x => if x = 0 then 0 else 1

/-- `expparams_dtype`: a type object, a string such as `'float'`, or a list of named fields.
(simple_est.py 71, 86.) -/
inductive ExpDtype
  | typeObj (t : FieldTy)
  | str (t : FieldTy)
  | fields (fs : List (String × FieldTy))

/-- The argument `cols_expparams`. (simple_est.py 73.) -/
inductive ColsArg
  | none
  | one (c : ColSpec)
  | dict (items : List (String × ColSpec))

/-- One experiment: a number, or a value for each field (`none`: the uninitialised memory of
`np.empty`). (simple_est.py 99.) -/
inductive ExpVal (K : Type*)
  | num (x : Option K)
  | record (fs : List (String × Option K))
  deriving DecidableEq, Repr

/-- Assignment to one field of a record. (simple_est.py 104.) -/
def ExpVal.setField {K : Type*} (key : String) (v : K) : ExpVal K → ExpVal K
  | .record fs => .record (fs.map fun p => if p.1 = key then (p.1, some v) else p)
  | e => e

/-- `expparams[key] = column` for arrays of the same shape. (simple_est.py 104.) -/
def Arr01.setField {K : Type*} (key : String) : Arr01 (ExpVal K) → Arr01 K → Arr01 (ExpVal K)
  | .cell e, .cell v => .cell (e.setField key v)
  | .vec es, .vec vs => .vec (List.zipWith (fun e v => e.setField key v) es vs)
  | a, _ => a

section
variable {K : Type} [Ring K] [LinearOrder K] [FloorRing K]

/-- The loop at simple_est.py 103-104.  The right-hand side is evaluated first; a key that is not a
field of the dtype is a `ValueError`. -/
def fillFields (d : DataArr K) (fs : List (String × FieldTy)) :
    List (String × ColSpec) → Arr01 (ExpVal K) → Except PyErr (Arr01 (ExpVal K))
  | [], es => .ok es
  | (key, c) :: rest, es => do
    let j ← colIdx d.layout c
    match fs.lookup key with
    | none => .error .valueError
    | some t => fillFields d fs rest (es.setField key ((column d j).map t.cast))

/-- `data_to_params`, simple_est.py 70-106.  `np.issctype` is true for type objects only, so a dtype
given as a string takes the branch of the loop; a tuple and `None` have no `items`.  With a type
object and no columns, `idx[BY_IDX]` subscripts `None`: `TypeError`. -/
def dataToParams (d : DataArr K) (dt : ExpDtype) (colOut : ColSpec) (cols : ColsArg) :
    Except PyErr (Arr01 ℤ × Arr01 (ExpVal K)) := do
  let jo ← colIdx d.layout colOut
  let outcomes := (column d jo).map trunc
  match dt, cols with
  | .typeObj t, .one c => do
    let j ← colIdx d.layout c
    return (outcomes, (column d j).map fun x => .num (some (t.cast x)))
  | .typeObj _, _ => .error .typeError
  | .str _, .dict [] => return (outcomes, outcomes.map fun _ => .num none)
  | .str _, .dict ((_, c) :: _) => do
    let _ ← colIdx d.layout c
    .error .indexError
  | .str _, _ => .error .attributeError
  | .fields fs, .dict items => do
    let es ← fillFields d fs items (outcomes.map fun _ => .record (fs.map fun p => (p.1, none)))
    return (outcomes, es)
  | .fields _, _ => .error .attributeError

end

/-- What a caller may pass as data, simple_est.py 108-118: an array, text with the given lines, or
something else. -/
inductive DataArg (K : Type*)
  | array (d : DataArr K)
  | text (lines : List (List K))
  | other

/-- `load_data_or_txt`, simple_est.py 108-118.  `np.loadtxt` drops axes of length one, so a file with
one line gives an array without an axis.  A line with the wrong number of entries is a `ValueError`. -/
def loadData {K : Type*} (arg : DataArg K) (names : List String) : Except PyErr (DataArr K) :=
  match arg with
  | .array d => .ok d
  | .text lines =>
    if lines.all fun l => l.length == names.length then
      .ok ⟨.record names, match lines with
        | [l] => .cell l
        | ls => .vec ls⟩
    else .error .valueError
  | .other => .error .typeError

section
variable {K O ω : Type*} [Field K] [LinearOrder K]

/-- `est_mean` of an updater with `d` parameters, distributions.py 336-348. -/
def smcMean (d : Nat) (w : List K) (locs : List (List K)) : List K :=
  (List.range d).map fun j => (List.zipWith (fun a x => a * x.getD j 0) w locs).sum

/-- `est_covariance_mtx`, distributions.py 350-399. -/
def smcCov (d : Nat) (w : List K) (locs : List (List K)) : List (List K) :=
  (List.range d).map fun a => (List.range d).map fun b =>
    (List.zipWith (fun v x => v * x.getD a 0 * x.getD b 0) w locs).sum -
      (smcMean d w locs).getD a 0 * (smcMean d w locs).getD b 0

/-- What the estimation functions return: two numbers or a vector and a matrix, and the updater if
`return_all` is set. (simple_est.py 130-139.) -/
inductive EstRet (K O ω : Type*)
  | scalar (mean var : K) (extra : Option (Smc K O ω))
  | vector (mean : List K) (cov : List (List K)) (extra : Option (Smc K O ω))

/-- `batch_update` on arrays with or without an axis: `outcomes.shape[0]` of an array without an axis
is an `IndexError`, smc.py 475. -/
def batchUpdate01 {E : Type*} (cfg : SmcConfig K) (env : Env K O E ω) (s : Smc K O ω)
    (os : Arr01 O) (es : Arr01 E) (interval : Int) : Res K O ω :=
  match os, es with
  | .vec os, .vec es => batchUpdate cfg env s os es interval
  | _, _ => (s, .error .indexError)

/-- `do_update`, simple_est.py 121-139.  `n` is `n_particles`, `d` is `model.n_modelparams`; the
updater has the default options, in `cfg`. -/
def doUpdate {E : Type*} (cfg : SmcConfig K) (env : Env K O E ω) (d n : Nat) (seed : ω)
    (os : Arr01 O) (es : Arr01 E) (returnAll : Bool) : Except PyErr (EstRet K O ω) :=
  match construct cfg env n false seed with
  | (_, .error err) => .error err
  | (s, .ok ()) =>
    match batchUpdate01 cfg env s os es 1 with
    | (_, .error err) => .error err
    | (s, .ok ()) =>
      let mean := smcMean d s.weights s.locs
      let cov := smcCov d s.weights s.locs
      let extra := if returnAll then some s else none
      .ok (if d = 1 then .scalar (mean.getD 0 0) ((cov.getD 0 []).getD 0 0) extra
        else .vector mean cov extra)

end

/-- Default options of the updater, smc.py 123-135 and 171-175. -/
noncomputable def defaultCfg : SmcConfig ℝ where
  resampleThresh := 1 / 2
  policy := "error"
  zeroThresh := zeroThreshOf none
  canonicalize := true

/-- The parts of the surroundings that these functions do not fix: the resampler, the divergence and
the source of uniform variates (rows of the given width). (simple_est.py 121-125.) -/
structure EstWorld (ω : Type) where
  uniform : ω → Nat → Nat → List (List ℝ) × ω
  resampler : (List ℝ → Bool) → ω → List ℝ → List (List ℝ) →
    Except PyErr (List ℝ × List (List ℝ)) × ω
  kl : List ℝ → List (List ℝ) → List ℝ → List (List ℝ) → ℝ

/-- A field of an experiment. (test_models.py 188-206.) -/
def ExpVal.get (key : String) : ExpVal ℝ → ℝ
  | .record fs => ((fs.lookup key).join).getD 0
  | _ => 0

/-- Surroundings of the updater of `simple_est_prec`, simple_est.py 168-169: likelihood of a
`BinomialModel` over a `SimplePrecessionModel(freq_min)` and the prior
`UniformDistribution([0, freq_max])`.  The validity test, `freq_min` in it, is seen by the resampler
only. -/
noncomputable def precEnv {ω : Type} (world : EstWorld ω) (freqMin freqMax : ℝ) :
    Env ℝ ℤ (ExpVal ℝ) ω where
  likelihood o x e :=
    (binomialPdf (trunc (e.get "n_meas")).toNat o
      (twoOutcome (precessionPr0 (x.getD 0 0) (e.get "x")) 1)).getD 0
  timestep r l _ := (l, r)
  canon l := l
  clearCacheRaises := false
  prior r n := match boxInit (.vec [0, freqMax]) with
    | .ok b => let (z, r) := world.uniform r n 1; (b.uniform z, r)
    | .error _ => ([], r)
  resampler := world.resampler fun x => inversionValid freqMin (x.getD 0 0)
  kl := world.kl

/-- Fields of the experiments of `simple_est_prec`: derived_models.py 246. -/
def precFields : List (String × FieldTy) := [("x", .flt), ("n_meas", .int)]

/-- `simple_est_prec`, simple_est.py 141-188. -/
noncomputable def simpleEstPrec {ω : Type} (world : EstWorld ω) (data : DataArg ℝ)
    (freqMin freqMax : ℝ) (n : Nat) (returnAll : Bool) (seed : ω) :
    Except PyErr (EstRet ℝ ℤ ω) := do
  let d ← loadData data ["counts", "t", "n_shots"]
  let (os, es) ← dataToParams d (.fields precFields) (0, "counts")
    (.dict [("x", (1, "t")), ("n_meas", (2, "n_shots"))])
  doUpdate defaultCfg (precEnv world freqMin freqMax) 1 n seed os es returnAll

/-- The prior of `simple_est_rb`, simple_est.py 224-235: a postselected box.  `none`: the rejection
loop failed. -/
noncomputable def rbPrior {ω : Type} (world : EstWorld ω) (interleaved : Bool) (pMin pMax : ℝ)
    (maxiters : Nat) (seed : ω) (n : Nat) : Except PyErr (List (Option (List ℝ))) × ω :=
  let ranges := if interleaved then [[pMin, pMax], [pMin, pMax], [0, 1], [0, 1]]
    else [[pMin, pMax], [0, 1], [0, 1]]
  let valid : List ℝ → Bool := fun x => if interleaved
    then rbValidIl (x.getD 0 0) (x.getD 1 0) (x.getD 2 0) (x.getD 3 0)
    else rbValid (x.getD 0 0) (x.getD 1 0) (x.getD 2 0)
  match boxInit (.mat 2 ranges) with
  | .error err => (.error err, seed)
  | .ok b => postSample (fun r m => let (z, r) := world.uniform r m ranges.length; (b.uniform z, r))
      valid maxiters n seed

/-- Fields of the experiments of `simple_est_rb`: rb.py 141-144, derived_models.py 249. -/
def rbFields (interleaved : Bool) : List (String × FieldTy) :=
  [("m", .int)] ++ (if interleaved then [("reference", .bool)] else []) ++ [("n_meas", .int)]

/-- Probability that a sequence survives: outcome 1 of `RandomizedBenchmarkingModel`, rb.py 178-195. -/
noncomputable def rbPr1 (interleaved : Bool) (x : List ℝ) (e : ExpVal ℝ) : ℝ :=
  let m := (trunc (e.get "m")).toNat
  twoOutcome (if interleaved
    then rbPr0Il (x.getD 0 0) (x.getD 1 0) (x.getD 2 0) (x.getD 3 0) m (e.get "reference" != 0)
    else rbPr0 (x.getD 0 0) (x.getD 1 0) (x.getD 2 0) m) 1

/-- Surroundings of the updater of `simple_est_rb`, simple_est.py 223-235: likelihood of a
`BinomialModel` over a `RandomizedBenchmarkingModel`; the prior yields `draws`, it is asked only once
and for as many rows.  The NaN of a survival
probability outside `[0, 1]`, which no valid model has, is replaced by zero. -/
noncomputable def rbEnv {ω : Type} (world : EstWorld ω) (interleaved : Bool)
    (draws : List (List ℝ)) : Env ℝ ℤ (ExpVal ℝ) ω where
  likelihood o x e :=
    (binomialPdf (trunc (e.get "n_meas")).toNat o (rbPr1 interleaved x e)).getD 0
  timestep r l _ := (l, r)
  canon l := l
  clearCacheRaises := false
  prior r n := (if draws.length = n then draws else List.replicate n [], r)
  resampler := world.resampler fun x => if interleaved
    then rbValidIl (x.getD 0 0) (x.getD 1 0) (x.getD 2 0) (x.getD 3 0)
    else rbValid (x.getD 0 0) (x.getD 1 0) (x.getD 2 0)
  kl := world.kl

/-- `simple_est_rb`, simple_est.py 190-261.  The prior is asked once, by the constructor of the updater
(smc.py 178), with at most 100 rounds (distributions.py 1311). -/
noncomputable def simpleEstRb {ω : Type} (world : EstWorld ω) (data : DataArg ℝ) (interleaved : Bool)
    (pMin pMax : ℝ) (n : Nat) (returnAll : Bool) (seed : ω) : Except PyErr (EstRet ℝ ℤ ω) := do
  let d ← loadData data (["counts", "m", "n_shots"] ++ if interleaved then ["reference"] else [])
  let (os, es) ← dataToParams d (.fields (rbFields interleaved)) (0, "counts")
    (.dict ([("m", (1, "m")), ("n_meas", (2, "n_shots"))] ++
      if interleaved then [("reference", (3, "reference"))] else []))
  match rbPrior world interleaved pMin pMax 100 seed n with
  | (.error err, _) => .error err
  | (.ok draws, seed) =>
    doUpdate defaultCfg (rbEnv world interleaved (draws.map fun x => x.getD [])) (if interleaved then 4 else 3)
      n seed os es returnAll

end QInfer
