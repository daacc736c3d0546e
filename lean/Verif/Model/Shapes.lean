import Verif.Model.Py

/-!
# Shapes of samples

The distributions of distributions.py and tomography/distributions.py reduced to the shapes of the arrays that
`sample` returns.  What the random generators return is left open: `sample n` is the set of possible results.
-/

namespace QInfer

/-- The shape of an array. (distributions.py 101-127.) -/
abbrev Shape := List Nat

/-- A distribution object: `n_rvs` and the possible results of `sample(n)`. (distributions.py 101-127.) -/
structure DObj where
  nRvs : Nat
  sample : Nat → Except PyErr Shape → Prop

/-! ## numpy -/

/-- `np.concatenate(arrays, axis)`. (distributions.py 241-255.) -/
def concatShapes (axis : Nat) : List Shape → Except PyErr Shape
  | [] => .error .valueError
  | s :: rest =>
    if s.length ≤ axis then .error .valueError
    else if rest.all (fun t => decide (t.length = s.length) && decide (t.eraseIdx axis = s.eraseIdx axis)) then
      .ok (s.set axis (((s :: rest).map fun t => t.getD axis 0).sum))
    else .error .valueError

/-- `np.hstack(arrays)`: along axis 1 unless the first array has one axis only. (distributions.py 784.) -/
def hstackShapes (ss : List Shape) : Except PyErr Shape :=
  let arrs := ss.map fun s => if s = [] then [1] else s
  match arrs with
  | [] => .error .valueError
  | a :: _ => if a.length = 1 then concatShapes 0 arrs else concatShapes 1 arrs

/-- Whether an array of shape `src` can be assigned to a slice of shape `tgt`, both reversed: aligned at the right,
axes of length one are repeated, superfluous leading axes must have length one. (smc.py 316, distributions.py
1333.) -/
def fitsRev : Shape → Shape → Bool
  | [], _ => true
  | s :: src, t :: tgt => (decide (s = t) || decide (s = 1)) && fitsRev src tgt
  | s :: src, [] => decide (s = 1) && fitsRev src []

/-- Assignability of an array to a slice. (smc.py 316, distributions.py 1333.) -/
def fitsInto (src tgt : Shape) : Bool := fitsRev src.reverse tgt.reverse

/-- The first error of a list comprehension, otherwise all values. (distributions.py 242-254, 784.) -/
def firstError : List (Except PyErr Shape) → Except PyErr (List Shape)
  | [] => .ok []
  | .error e :: _ => .error e
  | .ok s :: rs => match firstError rs with
    | .error e => .error e
    | .ok ss => .ok (s :: ss)

/-! ## Elementary distributions -/

/-- An object whose samples always have the shape `shape n`.
(distributions.py 101-127.) -/
def fixedShape (nRvs : Nat) (shape : Nat → Shape) : DObj := ⟨nRvs, fun n r => r = .ok (shape n)⟩

/-- `UniformDistribution(ranges)` and `SlantedNormalDistribution(ranges)` for `ranges` of at most two axes,
distributions.py 806-827, 927-951.  (`other` stands for more axes, which are not modelled.) -/
def uniformNew (ranges : Shape) : Except PyErr DObj :=
  match ranges with
  | [] => .error .indexError
  | [k] => if 2 ≤ k then .ok (fixedShape 1 fun n => [n, 1]) else .error .indexError
  | [d, k] => if 2 ≤ k then .ok (fixedShape d fun n => [n, d]) else .error .indexError
  | _ => .error .other

/-- `ConstantDistribution(values)`, distributions.py 829-846. -/
def constantNew (values : Shape) : Except PyErr DObj :=
  match values with
  | [] => .error .indexError
  | d :: rest => .ok (fixedShape d fun n => n :: d :: rest)

/-- The distributions of one variable whose samples are given a second axis: `NormalDistribution` 856-880,
`LogNormalDistribution` 953-975, `BetaDistribution` 977-1009, `BetaBinomialDistribution` 1036-1082,
`GammaDistribution` 1084-1119, `InterpolatedUnivariateDistribution` 1352-1389 (distributions.py), with scalar
parameters. -/
def scalarDist : DObj := fixedShape 1 fun n => [n, 1]

/-- `MultivariateNormalDistribution(mean, cov)` with a mean of `d` entries and a `d × d` matrix,
distributions.py 892-906. -/
def mvnDist (d : Nat) : DObj := fixedShape d fun n => [n, d]

/-- `DirichletDistribution(alpha)`, distributions.py 1018-1034. -/
def dirichletNew (alpha : Shape) : Except PyErr DObj :=
  match alpha with
  | [d] => .ok (fixedShape d fun n => [n, d])
  | _ => .error .valueError

/-- `MVUniformDistribution(dim)`, distributions.py 1133-1146. -/
def mvUniformDist (dim : Nat) : DObj := fixedShape dim fun n => [n, dim]

/-- `DiscreteUniformDistribution(num_bits)`, distributions.py 1157-1166: there is no second axis. -/
def discreteDist : DObj := fixedShape 1 fun n => [n]

/-- `ParticleDistribution` with `N` particles of `d` parameters and as many weights, distributions.py 279-334; the
indices into the locations are in range when there is a particle. -/
def particleDist (N d : Nat) : DObj :=
  ⟨d, fun n r => r = if N = 0 ∧ n ≠ 0 then .error .indexError else .ok [n, d]⟩

/-- `SingleSampleMixin.sample`, distributions.py 139-143, for `_sample` with result `one`. -/
def singleShape (nRvs : Nat) (one : Except PyErr Shape) : DObj :=
  ⟨nRvs, fun n r => r =
    if n = 0 then .ok [0, nRvs]
    else match one with
      | .error e => .error e
      | .ok s => if fitsInto s [nRvs] then .ok [n, nRvs] else .error .valueError⟩

/-- `HaarUniform(dim)`, distributions.py 1223-1267: the product of a `dim × dim` matrix with a vector of two entries. -/
def haarDist (dim : Nat) : DObj := singleShape 3 (if dim = 2 then .ok [3] else .error .valueError)

/-- `GinibreUniform(dim, k)`, distributions.py 1269-1301: the product of a `dim × dim` matrix with a `2 × 2` matrix. -/
def ginibreDist (dim : Nat) : DObj := singleShape 3 (if dim = 2 then .ok [3] else .error .valueError)

/-- The density operator distributions with a basis of dimension `dim`, tomography/distributions.py 90-141:
`state_to_modelparams` returns `dim ** 2` numbers. -/
def densityDist (dim : Nat) : DObj := singleShape (dim ^ 2) (.ok [dim ^ 2])

/-! ## Composite distributions -/

/-- `ProductDistribution`, distributions.py 753-781. -/
def productDist (ds : List DObj) : DObj :=
  ⟨(ds.map DObj.nRvs).sum, fun n r => ∃ rs, List.Forall₂ (fun d q => d.sample n q) ds rs ∧
    r = match firstError rs with
      | .error e => .error e
      | .ok ss => hstackShapes ss⟩

/-- `MixtureDistribution` of a list of distributions, distributions.py 176-200 and 223-261, for a list as long as the
list of weights.  The numbers of draws from each are those of `np.random.multinomial`; components without draws are
skipped.  A class with an array of arguments is the list of its instances. -/
def mixtureDist (d₀ : DObj) (ds : List DObj) : DObj :=
  ⟨d₀.nRvs, fun n r => ∃ ns : List Nat, ns.length = (d₀ :: ds).length ∧ ns.sum = n ∧
    ∃ rs, List.Forall₂ (fun dm q => dm.1.sample dm.2 q) (((d₀ :: ds).zip ns).filter fun dm => decide (0 < dm.2)) rs ∧
    r = match firstError rs with
      | .error e => .error e
      | .ok ss => concatShapes 0 ss⟩

/-- The loop of `PostselectedDistribution.sample`, distributions.py 1329-1345, with `iters` rounds left and `m` rows
to fill; any of them may be rejected. -/
def postRows (d : DObj) (n : Nat) : Nat → Nat → Except PyErr Shape → Prop
  | 0, m, r => r = if m = 0 then .ok [n, d.nRvs] else .error .runtimeError
  | iters + 1, m, r =>
    if m = 0 then r = .ok [n, d.nRvs]
    else ∃ q, d.sample m q ∧ match q with
      | .error e => r = .error e
      | .ok s => if fitsInto s [m, d.nRvs] then ∃ m' ≤ m, postRows d n iters m' r else r = .error .valueError

/-- `PostselectedDistribution`, distributions.py 1311-1347. -/
def postDist (d : DObj) (maxiters : Nat) : DObj := ⟨d.nRvs, fun n r => postRows d n maxiters n r⟩

/-- `ConstrainedSumDistribution`, distributions.py 1401-1417: `np.sum(s, axis=1)` needs a second axis. -/
def constrainedDist (d : DObj) : DObj :=
  ⟨d.nRvs, fun n r => ∃ q, d.sample n q ∧ r = match q with
    | .error e => .error e
    | .ok s => if 2 ≤ s.length then .ok s else .error .valueError⟩

/-! ## The updater -/

/-- `SMCUpdater.reset`, smc.py 304-316: the locations drawn for `nP` particles and a model of `k` parameters. -/
def resetFromPrior (d : DObj) (nP k : Nat) (r : Except PyErr Shape) : Prop :=
  ∃ q, d.sample nP q ∧ r = match q with
    | .error e => .error e
    | .ok s => if s.length < 2 then .error .indexError
      else if fitsInto s [nP, k] then .ok [nP, k] else .error .valueError

end QInfer
