import Verif.Model.Smc
import Verif.Model.Outcome
import Verif.Model.PerfTest
import Verif.Model.Multinomial
import Mathlib.Analysis.SpecialFunctions.Pow.Real

/-!
# Models derived from other models, and defaults

`MLEModel` (`src/qinfer/derived_models.py` 681-703), `DifferentiableBinomialModel` (362-383), the
defaults of `Simulatable` and the settings of `Model` and `FiniteOutcomeModel`
(`src/qinfer/abstract_model.py`).
-/

namespace QInfer

/-! ## `MLEModel` -/

/-- `MLEModel.likelihood`, derived_models.py 701-703: the updater's surroundings with the likelihood
of the wrapped model raised to a power. -/
noncomputable def mleEnv {O E ω : Type*} (γ : ℝ) (env : Env ℝ O E ω) : Env ℝ O E ω :=
  { env with likelihood := fun o x e => env.likelihood o x e ^ γ }

/-! ## `DifferentiableBinomialModel` -/

/-- An array of experiments: plain numbers, or records with named fields of numbers.
(derived_models.py 260-274, 321, 340.) -/
inductive EpArr (K : Type*)
  | plain (xs : List K)
  | record (fields : List (String × List K))

/-- Indexing by a field name; `ValueError` if there is none (numpy), `IndexError` on a plain array.
(derived_models.py 321, 340.) -/
def EpArr.field {K : Type*} : EpArr K → String → Except PyErr (List K)
  | .plain _, _ => .error .indexError
  | .record fs, name => match fs.find? fun f => f.1 == name with
    | some f => .ok f.2
    | none => .error .valueError

/-- `expparams['x'] if self._expparams_scalar else expparams`, derived_models.py 320-321. -/
def binomEps {K : Type*} (scalar : Bool) (eps : EpArr K) : Except PyErr (EpArr K) :=
  if scalar then do return .plain (← eps.field "x") else .ok eps

/-- `fisher_information`, derived_models.py 376-383: `under` is the Fisher information of the wrapped
model, by pairs of parameters, models and experiments, which is given the experiments as they are;
`n_meas` multiplies the last axis. -/
def diffBinomFisher {K : Type*} [Field K] {d nM : Nat}
    (under : EpArr K → Except PyErr (List (Fin d → Fin d → Fin nM → K))) (eps : EpArr K) :
    Except PyErr (List (Fin d → Fin d → Fin nM → K)) := do
  let fi ← under eps
  let n ← eps.field "n_meas"
  if fi.length = n.length then
    .ok (List.zipWith (fun f m i j k => f i j k * m) fi n)
  else .error .valueError

/-- How `SimplePrecessionModel.score` reads its experiments, test_models.py 203-209: plain numbers, else
the field `t` (assigning records to an array of numbers raises `ValueError`). -/
def precTimes {K : Type*} : EpArr K → Except PyErr (List K)
  | .plain ts => .ok ts
  | .record fs => (EpArr.record fs).field "t"

/-! ## Settings -/

/-- The settings of a `FiniteOutcomeModel`, abstract_model.py 420-425 and 568-580. -/
structure Settings (K : Type*) where
  identical : Bool
  threshold : K
  cutoff : Option Nat
  deriving DecidableEq

/-- Assignments to the three properties. (abstract_model.py 482-516, 596-606.) -/
inductive SetOp (K : Type*)
  | identical (v : Bool)
  | threshold (v : K)
  | cutoff (v : Option Nat)

/-- One assignment, abstract_model.py 482-516 and 596-606.  The setter of `n_outcomes_cutoff` assigns
to the property `n_outcomes_cutoff`, that is, calls itself; the argument is the depth the interpreter
allows. -/
def setSetting {K : Type*} : Nat → Settings K → SetOp K → Except PyErr (Settings K)
  | 0, _, _ => .error .recursionError
  | _ + 1, s, .identical v => .ok { s with identical := v }
  | _ + 1, s, .threshold v => .ok { s with threshold := v }
  | depth + 1, s, .cutoff v => setSetting depth s (.cutoff v)

/-- Assignments one after another; a failing one is caught and leaves the object as it is.
(abstract_model.py 482-516, 596-606.) -/
def setAll {K : Type*} (depth : Nat) (s : Settings K) (ops : List (SetOp K)) : Settings K :=
  ops.foldl (fun s op => (setSetting depth s op).toOption.getD s) s

/-! ## Defaults of `Simulatable` -/

/-- `np.tile(a, (n, 1, 1))` of an array with two axes. (abstract_model.py 374.) -/
def NdArr.tileFront {α : Type*} (a : NdArr α) (n : Nat) : NdArr α :=
  ⟨n :: a.shape, fun idx => a.get (idx.drop 1)⟩

/-- `update_timestep`, abstract_model.py 357-374. -/
def defaultTimestep {α : Type*} (modelparams : NdArr α) (nExp : Nat) : Except PyErr (NdArr α) :=
  (modelparams.tileFront nExp).transpose [1, 2, 0]

/-- `are_expparam_dtypes_consistent`, abstract_model.py 218-240: `dtypes` are those of the domains of
the experiments. -/
def dtypesConsistent {D : Type*} [DecidableEq D] (constant : Bool) (dtypes : List D) : Bool :=
  if constant then true
  else match dtypes with
    | [] => true
    | first :: rest => rest.all fun d => decide (d = first)

/-- `experiment_cost`, abstract_model.py 320-333. -/
def defaultCost {K E : Type*} [One K] (eps : List E) : List K := eps.map fun _ => 1

/-- `LinearCostModelMixin.experiment_cost`, abstract_model.py 530-542. -/
def linearCost {K : Type*} (eps : EpArr K) : Except PyErr (List K) := eps.field "t"

end QInfer
