import Verif.Model.Py
import Mathlib.Algebra.Order.Field.Basic
import Mathlib.Algebra.BigOperators.Group.List.Basic

/-!
# Model of what a wrapped model passes on

`src/qinfer/derived_models.py` 82-144 (`DerivedModel`), 410-428 (`GaussianHyperparameterizedModel`),
714-740 (`RandomWalkModel`), 784-870 and 960-963 (`GaussianRandomWalkModel`),
`src/qinfer/abstract_model.py` 85-92, 171-187, 320-395 (`Simulatable`) and 531-542
(`LinearCostModelMixin`), `src/qinfer/smc.py` 600-609, `src/qinfer/perf_testing.py` 258-260,
`src/qinfer/expdesign.py` 323-339.

A model is the tree of its wrappers over a stand-alone model.  Arrays of model parameters are given
row by row, time steps for one row and one experiment.
-/

namespace QInfer
namespace Fwd

variable {K E : Type} [Field K] [LinearOrder K]

/-- A stand-alone model: its declared number of parameters and their names, the row-wise
`canonicalize` and `update_timestep`, and `experiment_cost` for one experiment.
(abstract_model.py 94-118, 320-395.) -/
structure Alone (K E : Type) where
  nParams : Nat
  names : List String
  canon : List K → Except PyErr (List K)
  step : E → List K → Except PyErr (List K)
  cost : E → K

/-- The wrappers, by what they override. (derived_models.py 149-963.)
`plain` are the poisoned, binomial, multinomial and maximum-likelihood models, which hand the
experiment on after the conversion `conv` (the identity, or the field `x`);
`hyper` is `GaussianHyperparameterizedModel`;
`walk` is `RandomWalkModel` with the row drawn from the step distribution;
`gwalk` is `GaussianRandomWalkModel` (without transformation) with the walking indices, the names
of the learned covariance parameters (none for a fixed covariance) and the row of steps. -/
inductive Wrap (K E : Type)
  | plain (conv : E → E)
  | hyper
  | walk (draw : List K)
  | gwalk (idxs : List Nat) (extra : List String) (steps : List K)

/-- A model with the models it wraps. (derived_models.py 92-106.) -/
inductive Tree (K E : Type)
  | alone (b : Alone K E)
  | wrap (w : Wrap K E) (u : Tree K E)

/-- `modelparam_names`: derived_models.py 117-119, 416-421, 864-866. -/
def Tree.names : Tree K E → List String
  | .alone b => b.names
  | .wrap .hyper u => u.names ++ ["\\mu_0", "\\mu_1", "\\sigma_0^2", "\\sigma_1^2"]
  | .wrap (.gwalk _ extra _) u => u.names ++ extra
  | .wrap _ u => u.names

/-- `n_modelparams`: derived_models.py 108-111, 423-425, 868-870. -/
def Tree.nParams : Tree K E → Nat
  | .alone b => b.nParams
  | .wrap .hyper u => (Tree.wrap .hyper u).names.length
  | .wrap (.gwalk i x s) u => (Tree.wrap (.gwalk i x s) u).names.length
  | .wrap _ u => u.nParams

/-- `Q`: ones for a stand-alone model (abstract_model.py 92, 171-187), forwarded by every wrapper
(derived_models.py 121-123). -/
def Tree.scale : Tree K E → List K
  | .alone b => List.replicate b.nParams 1
  | .wrap _ u => u.scale

/-- `experiment_cost`: not forwarded, so a wrapper has the default of abstract_model.py 334. -/
def Tree.cost : Tree K E → E → K
  | .alone b, e => b.cost e
  | .wrap _ _, _ => 1

/-- `canonicalize`: forwarded by every wrapper, derived_models.py 143-144. -/
def Tree.canon : Tree K E → List K → Except PyErr (List K)
  | .alone b, row => b.canon row
  | .wrap _ u, row => u.canon row

/-- Broadcasting of one axis. (numpy, used at derived_models.py 740, abstract_model.py 355,
smc.py 603.) -/
def bcast (f : K → K → K) (a b : List K) : Except PyErr (List K) :=
  if a.length = b.length then .ok (List.zipWith f a b)
  else match a, b with
    | [x], _ => .ok (b.map (f x))
    | _, [y] => .ok (a.map (fun x => f x y))
    | _, _ => .error .valueError

/-- `new_mps[:, idxs, :] += steps` for one row, with distinct indices; an index outside the row
raises. (derived_models.py 960-961.) -/
def addAt (row : List K) : List Nat → List K → Except PyErr (List K)
  | i :: is, s :: ss =>
    if i < row.length then addAt (row.set i (row.getD i 0 + s)) is ss else .error .indexError
  | _, _ => .ok row

/-- `update_timestep`: forwarded by default (derived_models.py 140-141), overridden by the two walks
(732-740 and 916-963), which do not call the wrapped model. -/
def Tree.step : Tree K E → E → List K → Except PyErr (List K)
  | .alone b, e, row => b.step e row
  | .wrap (.plain conv) u, e, row => u.step (conv e) row
  | .wrap .hyper u, e, row => u.step e row
  | .wrap (.walk draw) _, _, row => bcast (· + ·) row draw
  | .wrap (.gwalk idxs _ steps) _, _, row => addAt row idxs steps

/-- `distance` of two rows, abstract_model.py 336-356 (not overridden by any wrapper). -/
def Tree.distance (t : Tree K E) (a b : List K) : Except PyErr K := do
  let d ← bcast (· - ·) a b
  let v ← bcast (· * ·) t.scale d
  .ok (v.map (fun x => |x|)).sum

/-- The inner sum of `bayes_risk`, smc.py 603-606: the weighted squared distance of a particle to
a mean. -/
def Tree.riskTerm (t : Tree K E) (x mu : List K) : Except PyErr K := do
  let d ← bcast (· - ·) x mu
  let v ← bcast (· * ·) t.scale (d.map (fun z => z ^ 2))
  .ok v.sum

/-- The loss recorded by `perf_test`, perf_testing.py 258-260, for a true model with as many
parameters as the estimated one; `np.dot` does not broadcast. -/
def Tree.loss (t : Tree K E) (est true_ : List K) : Except PyErr K := do
  let d ← bcast (· - ·) est true_
  let q := t.scale.drop (t.scale.length - t.nParams)
  if d.length = q.length then .ok (List.zipWith (fun z w => z ^ 2 * w) d q).sum
  else .error .valueError

/-- The objective of `design_expparams_field` with `cost_mult=False`, expdesign.py 323-331. -/
def Tree.objective (t : Tree K E) (risk : E → K) (k : K) (e : E) : K := risk e + k * t.cost e

end Fwd
end QInfer
