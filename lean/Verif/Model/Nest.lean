import Verif.Model.Py
import Verif.Model.Domain

/-!
# Model of nested models: experiments and outcomes

`src/qinfer/derived_models.py` 92-94, 113-141, 237-300, 314-360, 397-402, 428-429, 529-549, 556-614, 630-668,
732-740, 874-876, `src/qinfer/abstract_model.py` 123-131, 602-631, `src/qinfer/domains.py` 365-371, 619-625.

A model is the tree of its wrappers over a stand-alone model with a fixed number of outcomes.  Arrays of
experiments are given experiment by experiment; `None` as experiment is `none`.
-/

namespace QInfer
namespace Nest

/-- `expparams_dtype`: a string for a scalar experiment, or a list of fields with their types.
(abstract_model.py 105-116.) -/
inductive Dtype
  | scalar (kind : String)
  | fields (fs : List (String × String))
  deriving DecidableEq, Repr

/-- One experiment: a number or a record of named values. (abstract_model.py 105-116.) -/
inductive Exp (V : Type)
  | scalar (v : V)
  | record (fs : List (String × V))
  deriving DecidableEq, Repr

/-- `expparams[name]`: numpy raises an `IndexError` for an array without fields and a `ValueError` for a
field that does not exist. (derived_models.py 285, 320, 598.) -/
def Exp.get {V : Type} (e : Exp V) (name : String) : Except PyErr V :=
  match e with
  | .scalar _ => .error .indexError
  | .record fs => match fs.find? (fun f => f.1 == name) with
    | some f => .ok f.2
    | none => .error .valueError

/-- `expparams[name]` where `expparams` may be `None`, which is not subscriptable.
(derived_models.py 285, 320, 598.) -/
def getOpt {V : Type} (e : Option (Exp V)) (name : String) : Except PyErr V :=
  match e with
  | none => .error .typeError
  | some e => e.get name

/-- A stand-alone model: `n_outcomes`, independent of the experiment as for all models of the library, and
`expparams_dtype`. (test_models.py 93-121, 185-186, 241-245, 286-315, 376-377, 433-463, rb.py 141-147.) -/
structure Base where
  nOut : Nat
  dtype : Dtype
  deriving DecidableEq, Repr

/-- The wrappers. (derived_models.py 148-963.) -/
inductive Wrap
  | poisoned | binomial | gaussHyper | multinomial | mle | randomWalk | gaussianRW
  deriving DecidableEq, Repr

/-- A model with the models it wraps. (derived_models.py 92-106.) -/
inductive Tree
  | base (b : Base)
  | wrap (w : Wrap) (u : Tree)
  deriving DecidableEq, Repr

/-- An outcome domain: `IntegerDomain(0, n - 1)`, `RealDomain()`, or `MultinomialDomain` with the number of
elements (`none` for `np.inf`) and the number of measurements. (domains.py 306-625.) -/
inductive Dom
  | ints (n : Nat)
  | reals
  | tuples (k : Option Nat) (n : Nat)
  deriving DecidableEq, Repr

/-- `n_members`; `none` is `np.inf`.  (domains.py 365-371, 459-467, 619-625: the last converts a NaN to
`int`, which raises, if the number of elements is infinite.) -/
def Dom.nMembers : Dom → Except PyErr (Option Nat)
  | .ints n => .ok (some n)
  | .reals => .ok none
  | .tuples (some k) n => .ok (some (multNMembers n k))
  | .tuples none _ => .error .valueError

/-- `is_n_outcomes_constant`, abstract_model.py 123-131, derived_models.py 264-272, 561-570, 874-876. -/
def Tree.isConst : Tree → Bool
  | .wrap .binomial _ => false
  | .wrap .multinomial _ => false
  | .wrap .gaussianRW _ => false
  | _ => true

variable {V : Type}

/-- `domain` for one experiment or `None`: abstract_model.py 624-631, derived_models.py 134-135, 298, 428-429,
611-614.  `count` reads the unsigned integer stored in the field `n_meas`. -/
def Tree.domain (count : V → Nat) : Tree → Option (Exp V) → Except PyErr Dom
  | .base b, _ => .ok (.ints b.nOut)
  | .wrap .binomial _, e => do
    let n ← getOpt e "n_meas"
    .ok (.ints (count n + 1))
  | .wrap .gaussHyper _, _ => .ok .reals
  | .wrap .multinomial u, e => do
    let d ← u.domain count none
    let k ← d.nMembers
    let n ← getOpt e "n_meas"
    .ok (.tuples k (count n))
  | .wrap _ u, e => u.domain count e

/-- `n_outcomes`; `none` is NaN.  See derived_models.py 128-129, 285, 598-601 (`n_sides` is read from the domain
of the wrapped model at 547-548). -/
def Tree.nOutcomes (count : V → Nat) : Tree → Option (Exp V) → Except PyErr (Option Nat)
  | .base b, _ => .ok (some b.nOut)
  | .wrap .binomial _, e => do
    let n ← getOpt e "n_meas"
    .ok (some (count n + 1))
  | .wrap .multinomial u, e => do
    let d ← u.domain count none
    let k ← d.nMembers
    let n ← getOpt e "n_meas"
    .ok (k.map (multNMembers (count n)))
  | .wrap _ u, e => u.nOutcomes count e

/-- The checks of the number of outcomes in the constructors: derived_models.py 240-241 and 400-401
(`and` does not ask for the number of outcomes if the flag is false), 543-548.  The other wrappers have none
(their checks of the parameters are in Model/Walk.lean). -/
def construct (count : V → Nat) (w : Wrap) (u : Tree) : Except PyErr Tree :=
  match w with
  | .binomial | .gaussHyper =>
    if u.isConst then do
      let n ← u.nOutcomes count none
      if n = some 2 then .ok (.wrap w u) else .error .valueError
    else .error .valueError
  | .multinomial =>
    if u.isConst then do
      let d ← u.domain count none
      let _ ← d.nMembers
      .ok (.wrap w u)
    else .error .assertionError
  | _ => .ok (.wrap w u)

/-- The fields of the counting models: derived_models.py 243-249 and 532-538. -/
def countDtype : Dtype → Dtype
  | .scalar k => .fields [("x", k), ("n_meas", "uint")]
  | .fields fs => .fields (fs ++ [("n_meas", "uint")])

/-- `expparams_dtype`: derived_models.py 113-115, 259-261, 556-558. -/
def Tree.dtype : Tree → Dtype
  | .base b => b.dtype
  | .wrap .binomial u => countDtype u.dtype
  | .wrap .multinomial u => countDtype u.dtype
  | .wrap _ u => u.dtype

/-- `expparams['x'] if self._expparams_scalar else expparams`, with the `expparams_dtype` of the wrapped
model. (derived_models.py 320, 341, 359, 637, 665.) -/
def unwrapExp (d : Dtype) (e : Exp V) : Except PyErr (Exp V) :=
  match d with
  | .scalar _ => do
    let v ← e.get "x"
    .ok (.scalar v)
  | .fields _ => .ok e

/-- The experiment that reaches the stand-alone model in `likelihood` and `simulate_experiment`:
derived_models.py 191, 219, 317-320, 338-341, 449, 634-637, 662-665, 702, 727, 731, 892, 896. -/
def Tree.seen : Tree → Exp V → Except PyErr (Exp V)
  | .base _, e => .ok e
  | .wrap .binomial u, e => do
    let e' ← unwrapExp u.dtype e
    u.seen e'
  | .wrap .multinomial u, e => do
    let e' ← unwrapExp u.dtype e
    u.seen e'
  | .wrap _ u, e => u.seen e

/-- The experiment that reaches the stand-alone model in `update_timestep`, if any: derived_models.py 140-141
(also for `MultinomialModel`, which does not override it) and 357-360; the walks at 733-740 and 920-963 do not
call the wrapped model (`none`). -/
def Tree.seenStep : Tree → Exp V → Except PyErr (Option (Exp V))
  | .base _, e => .ok (some e)
  | .wrap .binomial u, e => do
    let e' ← unwrapExp u.dtype e
    u.seenStep e'
  | .wrap .randomWalk _, _ => .ok none
  | .wrap .gaussianRW _, _ => .ok none
  | .wrap _ u, e => u.seenStep e

end Nest
end QInfer
