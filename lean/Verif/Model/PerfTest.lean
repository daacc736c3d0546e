import Verif.Model.SimpleEst

/-!
# Model of a single performance trial

`src/qinfer/perf_testing.py` 65-112 (`Timer`, `timing`), 155-180 (`promote_dims_left`,
`shorten_right`), 182-273 (`perf_test`) and `pretty_time`, `src/qinfer/utils.py` 535-545.
-/

namespace QInfer

/-! ## Arrays aligned at the right -/

/-- An array with any number of axes: its shape and its entries (by a list of one index per axis).
(The arrays at perf_testing.py 155-180.) -/
structure NdArr (α : Type*) where
  shape : List Nat
  get : List Nat → α

/-- `promote_dims_left`, perf_testing.py 155-159: new axes of length one on the left. -/
def NdArr.promoteLeft {α : Type*} (a : NdArr α) (ndim : Nat) : NdArr α :=
  if a.shape.length < ndim then
    ⟨List.replicate (ndim - a.shape.length) 1 ++ a.shape,
      fun idx => a.get (idx.drop (ndim - a.shape.length))⟩
  else a

/-- First position of the slice `-m:` of an axis of length `n`; for `m = 0` this is the slice `0:`.
(perf_testing.py 161-180.) -/
def sliceStart (n m : Nat) : Nat := if m = 0 then 0 else n - m

/-- `arr[-m₀:, -m₁:, …]`. (perf_testing.py 161-180.) -/
def NdArr.sliceRight {α : Type*} (a : NdArr α) (ms : List Nat) : NdArr α :=
  ⟨List.zipWith (fun n m => n - sliceStart n m) a.shape ms,
    fun idx => a.get (List.zipWith (fun i s => i + s) idx (List.zipWith sliceStart a.shape ms))⟩

/-- Minimum of a nonempty list. (perf_testing.py 161-180.) -/
def minOf : List Nat → Nat
  | [] => 0
  | [a] => a
  | a :: b :: l => min a (minOf (b :: l))

/-- `shorten_right`, perf_testing.py 161-180.  `max` of no arguments is a `ValueError`. -/
def shortenRight {α : Type*} (args : List (NdArr α)) : Except PyErr (List (NdArr α)) :=
  if args = [] then .error .valueError
  else
    let maxDims := (args.map fun a => a.shape.length).foldl max 0
    let args := args.map fun a => a.promoteLeft maxDims
    let minShapes := (List.range maxDims).map fun axis => minOf (args.map fun a => a.shape.getD axis 0)
    .ok (args.map fun a => a.sliceRight minShapes)

/-! ## `perf_test` -/

section
variable {K O E ω : Type}

/-- What a trial is given besides the updater's surroundings.  Randomness is the seed of the updater
(there is one global generator). (perf_testing.py 182-229.) -/
structure TrialEnv (K O E ω : Type) where
  /-- `heuristic()`: sees the updater. -/
  heuristic : Smc K O ω → Except PyErr (E × ω)
  /-- `true_model.simulate_experiment(true_mps, expparams)`. -/
  simulate : ω → List K → E → Except PyErr (O × ω)
  /-- `true_model.update_timestep(true_mps, expparams)[:, :, 0]`. -/
  trueStep : ω → List K → E → List K × ω
  /-- `model.n_modelparams`, `true_model.n_modelparams`. -/
  nModel : Nat
  nTrue : Nat
  /-- `model.Q`. -/
  Q : List K

/-- A row of the result (the elapsed time is left out). (perf_testing.py 130-153.) -/
structure PerfRow (K O E : Type) where
  true_ : List K
  est : List K
  loss : K
  resampleCount : Nat
  outcome : O
  experiment : E

variable [Field K] [LinearOrder K]

/-- A vector as an array with one axis, and as an array with one row. (perf_testing.py 253-266.) -/
def vecArr (v : List K) : NdArr K := ⟨[v.length], fun idx => v.getD (idx.getD 0 0) 0⟩

/-- Helper, perf_testing.py 253-266. -/
def rowArr (v : List K) : NdArr K := ⟨[1, v.length], fun idx => v.getD (idx.getD 1 0) 0⟩

/-- The loss, perf_testing.py 258-260: `np.dot(delta**2, model.Q[-n_min:])` where `delta` is the
difference of the two arrays shortened at the left. -/
def trialLoss (te : TrialEnv K O E ω) (est truth : List K) : Except PyErr K := do
  match ← shortenRight [vecArr est, rowArr truth] with
  | [a, b] =>
    let nMin := min te.nModel te.nTrue
    let q := te.Q.drop (sliceStart te.Q.length nMin)
    let m := a.shape.getD 1 0
    if m = q.length then
      .ok (((List.range m).map fun j => (a.get [0, j] - b.get [0, j]) ^ 2 * q.getD j 0).sum)
    else .error .valueError
  | _ => .error .valueError

/-- The loop of `perf_test`, perf_testing.py 242-271; the fuel is the number of experiments left. -/
def perfLoop (cfg : SmcConfig K) (env : Env K O E ω) (te : TrialEnv K O E ω) :
    Nat → List K → Smc K O ω → Except PyErr (List (PerfRow K O E) × Smc K O ω)
  | 0, _, s => .ok ([], s)
  | n + 1, truth, s => do
    let (e, seed) ← te.heuristic s
    let s := { s with seed := seed }
    let (o, seed) ← te.simulate s.seed truth e
    let s := { s with seed := seed }
    match update cfg env s o e true with
    | (_, .error err) => .error err
    | (s, .ok ()) =>
      let (truth', seed) := te.trueStep s.seed truth e
      let s := { s with seed := seed }
      let est := smcMean te.nModel s.weights s.locs
      let loss ← trialLoss te est truth'
      let (rows, fin) ← perfLoop cfg env te n truth' s
      .ok (⟨truth, est, loss, s.resampleCount, o, e⟩ :: rows, fin)

/-- `perf_test`, perf_testing.py 222-273.  `truth`: the argument `true_mps`, or else the draw from the
true prior. -/
def perfTest (cfg : SmcConfig K) (env : Env K O E ω) (te : TrialEnv K O E ω)
    (truePrior : ω → List K × ω) (trueMps : Option (List K)) (nParticles nExp : Nat) (seed : ω) :
    Except PyErr (List (PerfRow K O E) × Smc K O ω) :=
  let (truth, seed) := match trueMps with
    | some t => (t, seed)
    | none => truePrior seed
  match construct cfg env nParticles false seed with
  | (_, .error err) => .error err
  | (s, .ok ()) => perfLoop cfg env te nExp truth s

end

/-! ## Timing -/

/-- `Timer`, perf_testing.py 65-95. -/
structure Timer (K : Type*) where
  tic : K
  toc : Option K

section
variable {K : Type} [Field K] [LinearOrder K]

/-- Helper, perf_testing.py 74-75. -/
def Timer.start (now : K) : Timer K := ⟨now, none⟩

/-- Helper, perf_testing.py 77-78. -/
def Timer.stop (t : Timer K) (now : K) : Timer K := { t with toc := some now }

/-- `delta_t` read at time `now`. (perf_testing.py 91-98.) -/
def Timer.deltaT (t : Timer K) (now : K) : K := t.toc.getD now - t.tic

/-- `with timing() as t: block`, perf_testing.py 100-112: begun at `t0`, the block ends at the time it
gives.  There is no `finally`. -/
def withTiming {α : Type*} (t0 : K) (block : K → K × Except PyErr α) : Timer K × K × Except PyErr α :=
  let t := Timer.start t0
  match block t0 with
  | (t1, .ok a) => (t.stop t1, t1, .ok a)
  | (t1, .error err) => (t, t1, .error err)

variable [FloorRing K]

/-- A natural number in decimal. (utils.py 535-545.) -/
def showNat (n : Nat) : List Char :=
  if n = 0 then ['0'] else ((Nat.digits 10 n).map fun d => Char.ofNat (48 + d)).reverse

/-- `str(int)`. (utils.py 535-545.) -/
def showInt (z : ℤ) : List Char := if z < 0 then '-' :: showNat z.natAbs else showNat z.natAbs

/-- `{:0>2}`. (utils.py 535-545.) -/
def pad2 (s : List Char) : List Char := List.replicate (2 - s.length) '0' ++ s

/-- Python's `//` and `%`. (utils.py 535-545.) -/
def fdiv (x : K) (n : Nat) : ℤ := ⌊x / n⌋
/-- Helper, utils.py 535-545. -/
def fmod (x : K) (n : Nat) : K := x - n * ⌊x / n⌋

/-- Rounding to the nearest integer, half to even. (utils.py 535-545.) -/
def roundHalfEven (x : K) : ℤ :=
  let f := ⌊x⌋
  if x - f < 1 / 2 then f else if 1 / 2 < x - f then f + 1 else if f % 2 = 0 then f else f + 1

/-- `{0:0.2f}`. (utils.py 535-545.) -/
def showFixed2 (x : K) : List Char :=
  let r := (roundHalfEven (100 * |x|)).natAbs
  (if x < 0 then ['-'] else []) ++ showNat (r / 100) ++ '.' :: pad2 (showNat (r % 100))

/-- The branch at utils.py 540-543. -/
def prettyMin (secs : K) (force : Bool) : List Char :=
  (if force then pad2 (showInt (fdiv secs 60)) else showInt (fdiv secs 60)) ++
    ':' :: pad2 (showInt (trunc (fmod secs 60)))

/-- The branch at utils.py 538-539; the recursive call has `force_m` set and a remainder below an hour,
so it takes the next branch. -/
def prettyHour (secs : K) : List Char :=
  showInt (fdiv secs 3600) ++ ':' :: prettyMin (fmod secs 3600) true

/-- `pretty_time(secs)`, utils.py 535-545.  The recursive call for days has `force_h` set and a
remainder below a day. -/
def prettyTime (secs : K) : List Char :=
  if 86400 < secs then
    showInt (fdiv secs 86400) ++ " days, ".toList ++ prettyHour (fmod secs 86400)
  else if 3600 < secs then prettyHour secs
  else if 60 < secs then prettyMin secs false
  else showFixed2 secs ++ " seconds".toList

end

end QInfer
