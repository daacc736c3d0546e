import Verif.Model.Particle
import Mathlib.Analysis.SpecialFunctions.Pow.Real

/-!
# Models of distances between particles and of the experiment design heuristics

`src/qinfer/abstract_model.py` 336-355 (`distance`), `src/qinfer/metrics.py` 72-125,
`src/qinfer/expdesign.py` 92-225 (`EnsembleHeuristic`, `ExpSparseHeuristic`, `PGH`) and
`src/qinfer/tomography/expdesign.py` 215-245 (`BestOfKMetaheuristic`).

An `expparams` record is a function from field names to values; `np.empty` gives it arbitrary
contents.  `inv_func` and `t_func` return the value stored in their field.
-/

namespace QInfer

section
variable {K : Type} [Field K] [LinearOrder K]

/-- `Simulatable.distance`, abstract_model.py 351-355, for one pair of vectors as long as `Q`: the
1-norm of `Q * (a - b)`. -/
def modelDistance (Q a b : List K) : K :=
  ((List.zipWith (· * ·) Q (List.zipWith (· - ·) a b)).map fun v => |v|).sum

end

/-- One entry of `rescaled_distance_mtx`, metrics.py 95-106; `np.sqrt(Q)` of a negative `Q` is NaN
(`none`). -/
noncomputable def rescaledDistance {d : Nat} (Q p q : Fin d → ℝ) : Option ℝ :=
  if ∃ j, Q j < 0 then none
  else some (Real.sqrt (∑ j, (Real.sqrt (Q j) * (p j - q j)) ^ 2))

/-- One entry of `weighted_pairwise_distances`, metrics.py 121-125, for positive weights:
`base / (w_i w_j N²) ** w_pow`. -/
noncomputable def weightedDistance {n : Nat} (base : Fin n → Fin n → ℝ) (w : Fin n → ℝ) (pow : ℝ)
    (i j : Fin n) : ℝ :=
  base i j / (w i * w j * (n : ℝ) ^ 2) ^ pow

section
variable {K V F : Type} [Field K] [LinearOrder K] [DecidableEq F]

/-- `eps[field] = value` on a structured array: unknown field names raise `ValueError`.
(expdesign.py 150, 219-223.) -/
def setField (fields : List F) (r : F → V) (f : F) (v : V) : Except PyErr (F → V) :=
  if f ∈ fields then .ok fun g => if g = f then v else r g else .error .valueError

/-- The loop over `other_fields.items()`. (expdesign.py 149-150, 222-223.) -/
def setFields (fields : List F) : List (F × V) → (F → V) → Except PyErr (F → V)
  | [], r => .ok r
  | p :: ps, r => do
    let r ← setField fields r p.1 p.2
    setFields fields ps r

/-! ## PGH -/

/-- The attributes of a `PGH`, expdesign.py 190-203, with the field names of `expparams_dtype`. -/
structure Pgh (K V F : Type) where
  fields : List F
  invField : F
  tField : F
  invFunc : List K → V
  tFunc : K → V
  maxiters : Int
  other : List (F × V)

/-- The `while` loop, expdesign.py 207-214; `n` attempts are left, `k` were made, `last` is the value
of `x, xp`.  Attempt `k` draws with the variates `us k`. -/
def pghLoop (Q w : List K) (locs : List (List K)) (us : Nat → K × K) :
    Nat → Nat → Option (List K × List K) → Except PyErr (Option (List K × List K))
  | 0, _, last => .ok last
  | n + 1, k, _ =>
    match particleSample w locs [(us k).1, (us k).2] with
    | .error e => .error e
    | .ok [x, xp] =>
      if 0 < modelDistance Q x xp then .ok (some (x, xp)) else pghLoop Q w locs us n (k + 1) (some (x, xp))
    | .ok _ => .error .valueError

/-- Filling in the record, expdesign.py 219-225. -/
def pghRecord (p : Pgh K V F) (Q : List K) (junk : F → V) (x xp : List K) :
    Except PyErr (F → V) := do
  let r ← setField p.fields junk p.invField (p.invFunc x)
  let r ← setField p.fields r p.tField (p.tFunc (1 / modelDistance Q x xp))
  setFields p.fields p.other r

/-- `PGH.__call__`, expdesign.py 205-225, on a cloud `w`, `locs`. -/
def pghCall (p : Pgh K V F) (Q w : List K) (locs : List (List K)) (us : Nat → K × K)
    (junk : F → V) : Except PyErr (F → V) :=
  match pghLoop Q w locs us p.maxiters.toNat 0 none with
  | .error e => .error e
  | .ok none => .error .unboundLocalError
  | .ok (some (x, xp)) =>
    if modelDistance Q x xp = 0 then .error .runtimeError else pghRecord p Q junk x xp

/-! ## ExpSparseHeuristic -/

/-- The attributes of an `ExpSparseHeuristic`, expdesign.py 131-139. -/
structure ExpSparse (K V F : Type) where
  fields : List F
  scale : K
  base : K
  tField : Option F
  other : Option (List (F × V))

/-- The returned array: a scalar or a record. (expdesign.py 140-152.) -/
inductive SparseOut (K V F : Type)
  | scalar (t : K)
  | record (r : F → V)

/-- `ExpSparseHeuristic.__call__`, expdesign.py 141-152; `nExps` is `len(updater.data_record)` and
`ofTime` stores a number in a field. -/
def expSparseCall (h : ExpSparse K V F) (ofTime : K → V) (nExps : Nat) (junk : F → V) :
    Except PyErr (SparseOut K V F) :=
  let t := h.scale * h.base ^ nExps
  match h.tField with
  | none => .ok (.scalar t)
  | some f =>
    match h.other with
    | none => .error .attributeError
    | some other => do
      let r ← setFields h.fields other junk
      let r ← setField h.fields r f (ofTime t)
      .ok (.record r)

/-! ## EnsembleHeuristic -/

/-- `np.random.choice(n, p=p)` with the variate `u`: the checks of numpy (`atol` is its tolerance on
the sum), then `(cumsum(p) / cumsum(p)[-1]).searchsorted(u, side='right')`.
(Called at expdesign.py 108.) -/
def npChoice (atol : K) (n : Nat) (p : List K) (u : K) : Except PyErr Nat :=
  if n = 0 then .error .valueError
  else if p.length ≠ n then .error .valueError
  else if p.any fun x => decide (x < 0) then .error .valueError
  else if atol < |p.sum - 1| then .error .valueError
  else .ok (searchsortedRight ((cumsum p).map (· / p.sum)) u)

/-- `EnsembleHeuristic.__init__` and `__call__`, expdesign.py 102-109: `heuristics` are the results of
calling the members. -/
def ensembleCall {R : Type} (atol : K) (ensemble : List (R × K)) (u : K) : Except PyErr R :=
  let pr := ensemble.map Prod.snd
  let heuristics := ensemble.map Prod.fst
  match npChoice atol heuristics.length pr u with
  | .error e => .error e
  | .ok i => match heuristics[i]? with
    | some h => .ok h
    | none => .error .indexError

/-! ## BestOfKMetaheuristic -/

/-- `np.argmax`: the first position of the maximum; an empty array raises `ValueError`.
(Called at tomography/expdesign.py 239 and utils.py 342.) -/
def npArgmax : List K → Except PyErr Nat
  | [] => .error .valueError
  | x :: xs =>
    let best := xs.foldl max x
    .ok ((x :: xs).findIdx fun y => decide (best ≤ y))

/-- `BestOfKMetaheuristic.__call__`, tomography/expdesign.py 230-245: `cands` are the `k` drawn
experiments, `meas` reads their field of that name. -/
def bestOfK {n d : Nat} (fields : List F) (meas : (F → V) → Fin d → K) (other : List (F × V))
    (w : Fin n → K) (x : Fin n → Fin d → K) (cands : List (F → V)) : Except PyErr (F → V) := do
  let cov := pcov w x
  let i ← npArgmax (cands.map fun c => ∑ a, ∑ b, meas c a * cov a b * meas c b)
  match cands[i]? with
  | none => .error .indexError
  | some c => setFields fields other c

end

end QInfer
