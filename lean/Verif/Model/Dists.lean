import Verif.Model.Py
import Mathlib.Data.Real.Basic
import Mathlib.Data.Sign.Defs

/-!
# Models of some classes of `src/qinfer/distributions.py`

Parameters are exact; a division by an exact zero is Python's `ZeroDivisionError` (the parameters are
Python floats).
-/

namespace QInfer

section params
variable {K : Type} [Field K] [DecidableEq K]

/-- The attributes `alpha`, `beta`, `mean`, `var` after construction.
(distributions.py 984-1003.) -/
structure ShapeParams (K : Type) where
  alpha : K
  beta : K
  mean : K
  var : K
  deriving DecidableEq, Repr

/-- Python's `/` on floats. (distributions.py 984-1003, 1098-1113.) -/
def pyDiv (a b : K) : Except PyErr K := if b = 0 then .error .zeroDivisionError else .ok (a / b)

/-- `BetaDistribution.__init__`, distributions.py 985-1001, up to the call of `scipy.stats.beta`. -/
def betaInit (alpha beta mean var : Option K) : Except PyErr (ShapeParams K) :=
  match alpha, beta with
  | some a, some b => do
    let m ← pyDiv a (a + b)
    let v ← pyDiv (a * b) ((a + b) ^ 2 * (a + b + 1))
    .ok ⟨a, b, m, v⟩
  | _, _ => match mean, var with
    | some m, some v => do
      let q ← pyDiv (m ^ 2 * (1 - m)) v
      let r ← pyDiv ((1 - m) ^ 2 * m) v
      .ok ⟨q - m, r - (1 - m), m, v⟩
    | _, _ => .error .valueError

/-- `BetaBinomialDistribution.__init__`, distributions.py 1055-1072. -/
def betaBinomialInit (n : K) (alpha beta mean var : Option K) : Except PyErr (ShapeParams K) :=
  match alpha, beta with
  | some a, some b => do
    let m ← pyDiv (n * a) (a + b)
    let v ← pyDiv (n * a * b * (a + b + n)) ((a + b) ^ 2 * (a + b + 1))
    .ok ⟨a, b, m, v⟩
  | _, _ => match mean, var with
    | some m, some v => do
      let q ← pyDiv (-m * (v + m ^ 2 - n * m)) (m ^ 2 + n * (v - m))
      let r ← pyDiv ((n - m) * (v + m ^ 2 - n * m)) ((n - m) * m - n * v)
      .ok ⟨q, r, m, v⟩
    | _, _ => .error .valueError

/-- `GammaDistribution.__init__`, distributions.py 1097-1112. -/
def gammaInit (alpha beta mean var : Option K) : Except PyErr (ShapeParams K) :=
  match alpha, beta with
  | some a, some b => do
    let m ← pyDiv a b
    let v ← pyDiv a (b ^ 2)
    .ok ⟨a, b, m, v⟩
  | _, _ => match mean, var with
    | some m, some v => do
      let q ← pyDiv (m ^ 2) v
      let r ← pyDiv m v
      .ok ⟨q, r, m, v⟩
    | _, _ => .error .valueError

/-- One sample of `GammaDistribution` from a sample `x` of `scipy.stats.gamma(alpha)`,
distributions.py 1118-1119. -/
def gammaSample (p : ShapeParams K) (x : K) : K := x / p.beta

end params

/-! ## ConstrainedSumDistribution -/

section
variable {K : Type} [Field K] [LinearOrder K]

/-- `np.sign`. (distributions.py 1417.) -/
def npSign (x : K) : K := if 0 < x then 1 else if x < 0 then -1 else 0

/-- One row of `ConstrainedSumDistribution.sample`, distributions.py 1414-1417; `none` is NaN (from
the division by a zero total). -/
def constrainRow (desired : K) (s : List K) : List (Option K) :=
  let total := s.sum
  s.map fun x => if total = 0 then none else some (desired * npSign total * x / total)

/-- A sampler: seed, number of rows, resulting rows and seed. (distributions.py 116-127.) -/
abbrev Sampler (K ω : Type) := ω → Nat → List (List K) × ω

/-- `ConstrainedSumDistribution.sample`. (distributions.py 1414-1417.) -/
def constrainedSample {ω : Type} (ud : Sampler K ω) (desired : K) (seed : ω) (n : Nat) :
    List (List (Option K)) × ω :=
  let (s, seed) := ud seed n
  (s.map (constrainRow desired), seed)

end

/-! ## ProductDistribution and MixtureDistribution -/

section
variable {K ω : Type}

/-- A distribution object: `n_rvs` and `sample`. (distributions.py 101-127.) -/
structure Dist (K ω : Type) where
  nRvs : Nat
  sample : Sampler K ω

/-- A positional argument of `ProductDistribution`: a distribution or an iterable of them.
(distributions.py 764-771.) -/
inductive ProductArg (K ω : Type)
  | dist (d : Dist K ω)
  | iterable (ds : List (Dist K ω))

/-- `ProductDistribution.__init__`, distributions.py 767-774: a single iterable is unpacked, anything
else is kept as it is.  With several arguments no argument is unpacked; `none` marks an argument that
is no distribution and fails when used. -/
def productInit (args : List (ProductArg K ω)) : List (Option (Dist K ω)) :=
  match args with
  | [.iterable ds] => ds.map some
  | args => args.map fun a => match a with
    | .dist d => some d
    | .iterable _ => none

/-- `n_rvs`, distributions.py 776-778. -/
def productNRvs (fs : List (Dist K ω)) : Nat := (fs.map fun f => f.nRvs).sum

/-- Draw from each factor in turn. (distributions.py 781.) -/
def drawAll (n : Nat) : List (Dist K ω) → ω → List (List (List K)) × ω
  | [], seed => ([], seed)
  | f :: fs, seed =>
    let (s, seed) := f.sample seed n
    let (ss, seed) := drawAll n fs seed
    (s :: ss, seed)

/-- `np.hstack` of two-axis arrays: the row counts must agree, and there must be an array.
(distributions.py 781.) -/
def hstack : List (List (List K)) → Except PyErr (List (List K))
  | [] => .error .valueError
  | [a] => .ok a
  | a :: as => do
    let b ← hstack as
    if a.length = b.length then .ok (List.zipWith (· ++ ·) a b) else .error .valueError

/-- `ProductDistribution.sample`, distributions.py 780-781. -/
def productSample (fs : List (Dist K ω)) (seed : ω) (n : Nat) : Except PyErr (List (List K)) × ω :=
  let (ss, seed) := drawAll n fs seed
  (hstack ss, seed)

/-- The `dist` argument of `MixtureDistribution`: a list of instances, or a class given by its
constructor from the k-th row of `dist_args`. (distributions.py 180-221.) -/
inductive MixDist (K ω : Type)
  | list (ds : List (Dist K ω))
  | cls (make : List K → Dist K ω)

/-- A constructed mixture: the k-th component. (distributions.py 180-221.) -/
structure Mixture (K ω : Type) where
  weights : List K
  comps : List (Dist K ω)
  shuffle : Bool

/-- `MixtureDistribution.__init__`, distributions.py 172-193, without keyword argument arrays.  In the
list case a failing assertion (or an empty list) is caught by the bare `except`, after which the list
is treated as a class: `self._dist_args.shape` fails if there are no `dist_args`, and otherwise the
list is called. -/
def mixtureInit (weights : List K) (dist : MixDist K ω) (distArgs : Option (List (List K)))
    (shuffle : Bool) : Except PyErr (Mixture K ω) :=
  match dist with
  | .list ds =>
    if ds ≠ [] ∧ weights.length = ds.length then .ok ⟨weights, ds, shuffle⟩
    else match distArgs with
      | none => .error .attributeError
      | some args => if weights.length = args.length then
          (if args = [] then .error .indexError else .error .typeError)
        else .error .assertionError
  | .cls make =>
    match distArgs with
    | none => .error .attributeError
    | some args =>
      if weights.length = args.length then
        if args = [] then .error .indexError else .ok ⟨weights, args.map make, shuffle⟩
      else .error .assertionError

/-- Draw `ns[k]` rows from component `k`, skipping those with `ns[k] = 0`.
(distributions.py 234-258.) -/
def drawMix : List (Dist K ω × Nat) → ω → List (List (List K)) × ω
  | [], seed => ([], seed)
  | (d, m) :: rest, seed =>
    if 0 < m then
      let (s, seed) := d.sample seed m
      let (ss, seed) := drawMix rest seed
      (s :: ss, seed)
    else drawMix rest seed

/-- `MixtureDistribution.sample`, distributions.py 233-259.  `multinomial` and `shuffle` are the numpy
functions; `np.concatenate` of no arrays raises. -/
def mixtureSample (mix : Mixture K ω) (multinomial : ω → Nat → List K → List Nat × ω)
    (shuffle : ω → List (List K) → List (List K) × ω) (seed : ω) (n : Nat) :
    Except PyErr (List (List K)) × ω :=
  let (ns, seed) := multinomial seed n mix.weights
  let (ss, seed) := drawMix (mix.comps.zip ns) seed
  if ss = [] then (.error .valueError, seed)
  else if mix.shuffle then
    let (out, seed) := shuffle seed ss.flatten
    (.ok out, seed)
  else (.ok ss.flatten, seed)

end

end QInfer
