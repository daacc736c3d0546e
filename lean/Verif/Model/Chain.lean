import Verif.Model.Py

/-!
# Model of nested models: chains and counters

`src/qinfer/abstract_model.py` 85-170 (`Simulatable`), 306, 420-439 and 465-468 (`Model`),
633-659 (`FiniteOutcomeModel.simulate_experiment`), `src/qinfer/derived_models.py` 82-741 and
874-895, `src/qinfer/test_models.py`, `src/qinfer/rb.py` 178-195.

A model is the tree of its wrappers.  Calls are reduced to the shapes of their arguments, which is all
the counters depend on.
-/

namespace QInfer

/-- Stand-alone models. (test_models.py 64-472.) -/
inductive BaseK
  | inversion | precession | unknownT2 | coin | noisyCoin | die (n : Nat) | rb
  deriving DecidableEq, Repr

/-- Wrappers (subclasses of `DerivedModel`). (derived_models.py 82-985.) -/
inductive DerK
  | poisoned | binomial | gaussHyper | multinomial (sides : Nat) | mle | randomWalk | gaussianRW
  deriving DecidableEq, Repr

/-- A model object with the models it wraps. (derived_models.py 92-107.) -/
inductive Mdl
  | base (b : BaseK)
  | der (d : DerK) (u : Mdl)
  deriving DecidableEq, Repr

/-- `model_chain`, abstract_model.py 133-141 and derived_models.py 104-106. -/
def Mdl.chain : Mdl → List Mdl
  | .base _ => []
  | .der _ u => u.chain ++ [u]

/-- `base_model`, abstract_model.py 143-149 and derived_models.py 100-102. -/
def Mdl.baseModel : Mdl → Mdl
  | .base b => .base b
  | .der _ u => u.baseModel

/-- `underlying_model`, abstract_model.py 151-158 (last element of the chain, else `None`) and
derived_models.py 96-98 (the wrapped model). -/
def Mdl.underlying : Mdl → Option Mdl
  | .base b => (Mdl.base b).chain.getLast?
  | .der _ u => some u

/-- `is_n_outcomes_constant`: the default of abstract_model.py 123-131 is `True`, and
`DerivedModel` does not forward it; overridden at derived_models.py 264-272 (binomial), 561-570
(multinomial) and 874-876 (Gaussian random walk). -/
def Mdl.nOutcomesConstant : Mdl → Bool
  | .base _ => true
  | .der .binomial _ => false
  | .der (.multinomial _) _ => false
  | .der .gaussianRW _ => false
  | .der _ _ => true

/-- Number of outcomes of a stand-alone model. (test_models.py 108-117, 306-315, 454-463.) -/
def BaseK.nOutcomes : BaseK → Nat
  | .die n => n
  | _ => 2

/-- The counters `_call_count`, `_sim_count` of one model object. (abstract_model.py 89, 423.) -/
structure Ctr where
  call : Nat
  sim : Nat
  deriving DecidableEq, Repr

/-- `safe_shape(arr)`, utils.py 547-549: the length of the first axis, 1 for a scalar. -/
def safeShape (shape : List Nat) : Nat :=
  match shape with
  | [] => 1
  | n :: _ => n

/-- Whether a stand-alone model's `likelihood` calls the counting superclass method:
`UnknownT2Model` (test_models.py 249) and `NoisyCoinModel` (393) do not. -/
def BaseK.countsCalls : BaseK → Bool
  | .unknownT2 => false
  | .noisyCoin => false
  | _ => true

/-- Whether a wrapper's `likelihood` does: all but `MLEModel` (derived_models.py 701-703). -/
def DerK.countsCalls : DerK → Bool
  | .mle => false
  | _ => true

/-- The number of outcomes a wrapper passes to the likelihood of the wrapped model:
`BinomialModel` asks for outcome 1 (derived_models.py 318), `GaussianHyperparameterizedModel` for
both (479), `MultinomialModel` for all but the last (633). -/
def DerK.innerOutcomes : DerK → Nat → Nat
  | .binomial, _ => 1
  | .gaussHyper, _ => 2
  | .multinomial sides, _ => sides - 1
  | _, o => o

/-- `likelihood` with `o` outcomes, `m` models and `e` experiments: the effect on the counters of
the whole chain, outermost first. (abstract_model.py 466-468.) -/
def likCall : Mdl → Nat → Nat → Nat → List Ctr → List Ctr
  | .base b, o, m, e, c :: cs =>
    (if b.countsCalls then { c with call := c.call + o * m * e } else c) :: cs
  | .der d u, o, m, e, c :: cs =>
    (if d.countsCalls then { c with call := c.call + o * m * e } else c) ::
      likCall u (d.innerOutcomes o) m e cs
  | _, _, _, _, [] => []

/-- What a wrapper's `simulate_experiment` adds to its own `sim_count`: `BinomialModel` nothing (the
call is commented out, derived_models.py 332-334), `GaussianHyperparameterizedModel` (488) and
`MultinomialModel` (653) do not pass `repeat` on. -/
def DerK.simIncr : DerK → Nat → Nat → Nat → Nat
  | .binomial, _, _, _ => 0
  | .gaussHyper, m, e, _ => m * e * 1
  | .multinomial _, m, e, _ => m * e * 1
  | _, m, e, r => m * e * r

/-- `simulate_experiment` with `m` models, `e` experiments and `r` repetitions.  A stand-alone
finite-outcome model evaluates its own likelihood for all outcomes (abstract_model.py 640); the
binomial and multinomial models evaluate the likelihood of the wrapped model, the others simulate
it. -/
def simCall : Mdl → Nat → Nat → Nat → List Ctr → List Ctr
  | .base b, m, e, r, c :: cs =>
    likCall (.base b) b.nOutcomes m e ({ c with sim := c.sim + m * e * r } :: cs)
  | .der d u, m, e, r, c :: cs =>
    { c with sim := c.sim + d.simIncr m e r } ::
      (match d with
        | .binomial => likCall u 1 m e cs
        | .multinomial sides => likCall u (sides - 1) m e cs
        | _ => simCall u m e r cs)
  | _, _, _, _, [] => []

/-- A call on the outermost model, with the shapes of its array arguments.
(abstract_model.py 284-307, 444-468.) -/
inductive MOp
  | likelihood (outcomes models exps : List Nat)
  | simulate (nModels nExps rep : Nat)
  | clearCache
  deriving DecidableEq, Repr

/-- The effect of a call. (abstract_model.py 306, 466-468.) -/
def applyMOp (mdl : Mdl) (s : List Ctr) : MOp → List Ctr
  | .likelihood os ms es => likCall mdl (safeShape os) (safeShape ms) (safeShape es) s
  | .simulate m e r => simCall mdl m e r s
  | .clearCache => s

/-- A history of calls. (abstract_model.py 306, 466-468.) -/
def runMOps (mdl : Mdl) (s : List Ctr) (ops : List MOp) : List Ctr := ops.foldl (applyMOp mdl) s

/-- Freshly constructed models, abstract_model.py 89 and 423: one counter pair for each object of the
chain. -/
def freshCtrs : Mdl → List Ctr
  | .base _ => [⟨0, 0⟩]
  | .der _ u => ⟨0, 0⟩ :: freshCtrs u

end QInfer
