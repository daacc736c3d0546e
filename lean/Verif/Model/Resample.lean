import Verif.Model.Particle
import Mathlib.MeasureTheory.Integral.Bochner.Basic

/-!
# Models of `LiuWestResampler` (`src/qinfer/resamplers.py`) and `PostselectedDistribution`
(`src/qinfer/distributions.py`)

The rejection loops work on rows of an arbitrary type `ρ`.  `np.empty` leaves a row
uninitialised: `none`.  Randomness is a seed of type `ω`.
-/

namespace QInfer

variable {ρ Z ω : Type*}

/-- `a[idxs] = vals` for index arrays (numpy fancy assignment, in order). (resamplers.py 332.) -/
def assignAt {α : Type*} (a : List α) (idxs : List Nat) (vals : List α) : List α :=
  (idxs.zip vals).foldl (fun a p => a.set p.1 p.2) a

/-- Warnings of the resampler, resamplers.py 288-293 and 378-381. -/
inductive LwWarn
  | zeroCov
  | notAllValid (count : Nat) (maxiter : Nat)
  deriving DecidableEq, Repr

/-- Local variables of the loop of `LiuWestResampler.__call__`, resamplers.py 307-372. -/
structure LwState (ρ ω : Type*) where
  newLocs : List (Option ρ)
  idxs : List Nat
  js : List Nat
  mus : List ρ
  nIters : Nat
  seed : ω

/-- What the loop calls: `kernel seed m` are the `m` columns of `kernel(n_rvs, m)`, `disp mu z` is
`mu + S z`, `valid` is `are_models_valid` on a block of rows. (resamplers.py 332, 340.) -/
structure LwEnv (ρ Z ω : Type*) where
  kernel : ω → Nat → List Z × ω
  disp : ρ → Z → ρ
  valid : List ρ → List Bool
  postselect : Bool

/-- One pass through the loop body, resamplers.py 328-372.  The assertions at 344 and 355-363 require one
flag per row. -/
def lwBody (env : LwEnv ρ Z ω) (s : LwState ρ ω) : Except PyErr (LwState ρ ω) :=
  let (zs, seed) := env.kernel s.seed s.mus.length
  let rows := List.zipWith env.disp s.mus zs
  let newLocs := assignAt s.newLocs s.idxs (rows.map some)
  let mask := if env.postselect then env.valid rows else List.replicate rows.length true
  if mask.length ≠ rows.length then .error .assertionError
  else
    let idxs := select s.idxs (mask.map not)
    let js := select s.js (mask.map not)
    .ok { newLocs := newLocs, idxs := idxs, js := js, mus := s.mus.take idxs.length,
          nIters := s.nIters + 1, seed := seed }

/-- The `while` loop, resamplers.py 327-372; `fuel` is `maxiter - n_iters`. -/
def lwLoop (env : LwEnv ρ Z ω) : Nat → LwState ρ ω → Except PyErr (LwState ρ ω)
  | 0, s => .ok s
  | fuel + 1, s =>
    if s.idxs = [] then .ok s
    else match lwBody env s with
      | .error e => .error e
      | .ok s => lwLoop env fuel s

/-- The variables on entry to the loop, resamplers.py 307-325. -/
def lwStart (n : Nat) (js : List Nat) (mus : List ρ) (seed : ω) : LwState ρ ω :=
  { newLocs := List.replicate n none, idxs := List.range n, js := js, mus := mus, nIters := 0,
    seed := seed }

/-- `n_particles`, resamplers.py 275-279: the argument, else the default, else the cloud's. -/
def lwCount (arg dflt : Option Nat) (cloud : Nat) : Nat := arg.getD (dflt.getD cloud)

section
variable {K : Type*} [Field K] [LinearOrder K]

/-- `js` and `mus`, resamplers.py 308 and 318-325; `centre x` is `a * x + (1 - a) * mean`.  An index past
the end raises `IndexError` at 325. -/
def lwParents (w : List K) (l : List ρ) (centre : ρ → ρ) (us : List K) :
    Except PyErr (List Nat × List ρ) :=
  let js := us.map (searchsortedRight (cumsum w))
  if js.all (fun j => decide (j < l.length)) then .ok (js, js.filterMap fun j => (l[j]?).map centre)
  else .error .indexError

/-- `LiuWestResampler.__call__`, resamplers.py 256-392.  `us` are the `n` variates drawn at 319,
`covZero` tells whether the covariance has zero norm, `sqrtFinite` whether `sqrtm_psd` reports a
finite error. -/
def liuWest (env : LwEnv ρ Z ω) (maxiter : Nat) (covZero sqrtFinite : Bool) (w : List K)
    (l : List ρ) (centre : ρ → ρ) (n : Nat) (us : List K) (seed : ω) :
    Except PyErr (List (Option ρ) × List (Option K) × List LwWarn × Nat × ω) :=
  let warns := if covZero then [LwWarn.zeroCov] else []
  if sqrtFinite = false then .error .resamplerError
  else match lwParents w l centre us with
  | .error e => .error e
  | .ok (js, mus) =>
    match lwLoop env maxiter (lwStart n js mus seed) with
    | .error e => .error e
    | .ok s =>
      let warns := if s.idxs = [] then warns
        else warns ++ [LwWarn.notAllValid s.idxs.length maxiter]
      -- `np.ones((n,)) / n`, normalised again by `ParticleDistribution.__init__`
      let weights := List.replicate n (1 / (n : K))
      .ok (s.newLocs, weights.map (fun x => npDiv |x| (weights.map fun x => |x|).sum), warns,
        s.nIters, s.seed)

end

/-- The parameters `a`, `h` of a `LiuWestResampler`; `none` for `h` is NaN.
(resamplers.py 223-254.) -/
structure LwParams where
  a : ℝ
  h : Option ℝ
  overrideH : Bool

/-- `np.sqrt`: NaN on negative numbers. (resamplers.py 252.) -/
noncomputable def npSqrt (x : ℝ) : Option ℝ := if x < 0 then none else some (Real.sqrt x)

/-- The setter of `a`, resamplers.py 248-252. -/
noncomputable def LwParams.setA (p : LwParams) (a : ℝ) : LwParams :=
  { p with a := a, h := if p.overrideH then p.h else npSqrt (1 - a ^ 2) }

/-- `LiuWestResampler.__init__`, resamplers.py 223-238. -/
noncomputable def LwParams.init (a : ℝ) (h : Option ℝ) : LwParams :=
  let p := LwParams.setA { a := a, h := none, overrideH := false } a
  match h with
  | none => p
  | some h => { p with overrideH := true, h := some h }

/-- A new location for parent `j` and kernel draw `z`, resamplers.py 300, 325 and 332:
`a * l[j] + (1 - a) * mean + (h * S) z`. -/
def lwLocation {n d : Nat} (a h : ℝ) (mean : Fin d → ℝ) (S : Matrix (Fin d) (Fin d) ℝ)
    (x : Fin n → Fin d → ℝ) (j : Fin n) (z : Fin d → ℝ) : Fin d → ℝ :=
  fun m => a * x j m + (1 - a) * mean m + ∑ r, (h * S m r) * z r

/-! ## PostselectedDistribution -/

/-- The loop of `PostselectedDistribution.sample`, distributions.py 1335-1342; `fuel` is
`maxiters - iters`.  `valid` is `are_models_valid` on a block of rows, `dist` the underlying
`sample`. -/
def postLoop (dist : ω → Nat → List ρ × ω) (valid : ρ → Bool) :
    Nat → List (Option ρ) → List Nat → ω → List (Option ρ) × List Nat × ω
  | 0, samples, idxs, seed => (samples, idxs, seed)
  | fuel + 1, samples, idxs, seed =>
    if idxs = [] then (samples, idxs, seed)
    else
      let (rows, seed) := dist seed idxs.length
      postLoop dist valid fuel (assignAt samples idxs (rows.map some))
        (select idxs ((rows.map valid).map not)) seed

/-- `PostselectedDistribution.sample`, distributions.py 1321-1347. -/
def postSample (dist : ω → Nat → List ρ × ω) (valid : ρ → Bool) (maxiters n : Nat) (seed : ω) :
    Except PyErr (List (Option ρ)) × ω :=
  let r := postLoop dist valid maxiters (List.replicate n none) (List.range n) seed
  if r.2.1 = [] then (.ok r.1, r.2.2) else (.error .runtimeError, r.2.2)

end QInfer
