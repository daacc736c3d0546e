import Verif.Model.Outcome
import Verif.Model.SimpleDists

/-!
# Model: the legacy tomography models

`src/qinfer/tomography/legacy.py` 60-415.  An array `L[outcome, model, experiment]` is a list of lists of
lists.  The counters are left out; QuTiP is outside the model.
-/

namespace QInfer

open Matrix

/-! ## The classes -/

/-- The abstract methods and properties of `Simulatable` and `Model`, abstract_model.py 96, 106, 243, 260,
274, 283 and 443. -/
def modelAbstracts : List String :=
  ["n_modelparams", "expparams_dtype", "n_outcomes", "domain", "are_models_valid", "simulate_experiment",
    "likelihood"]

/-- The methods of `QubitStatePauliModel`, legacy.py 181-231, of `RebitStatePauliModel`, 239-287, and of
`MultiQubitStatePauliModel` (and its constructor), 297-341. -/
def pauliModelMethods : List String :=
  ["n_modelparams", "expparams_dtype", "are_models_valid", "n_outcomes", "likelihood", "__init__"]

/-- The methods of `HTCircuitModel`, legacy.py 345-415. -/
def htMethods : List String :=
  ["__init__", "n_modelparams", "expparams_dtype", "is_n_outcomes_constant", "are_models_valid", "n_outcomes",
    "likelihood", "simulate_experiment"]

/-- The attributes of the class `Model`, abstract_model.py 65-528, apart from those of `object`.
`pr0_to_likelihood_array` is an attribute of `FiniteOutcomeModel`, 665. -/
def modelAttrs : List String :=
  ["__init__", "n_modelparams", "expparams_dtype", "is_n_outcomes_constant", "model_chain", "base_model",
    "underlying_model", "sim_count", "Q", "modelparam_names", "_repr_html_",
    "are_expparam_dtypes_consistent", "n_outcomes", "domain", "are_models_valid", "simulate_experiment",
    "clear_cache", "experiment_cost", "distance", "update_timestep", "canonicalize", "call_count",
    "likelihood", "allow_identical_outcomes", "outcome_warning_threshold", "is_model_valid"]

/-- `Model.pr0_to_likelihood_array(outcomes, pr0)`, legacy.py 231, 287, 341, 389: the attribute is looked up
in the class, then called (abstract_model.py 665-686). -/
def legacyArray {K : Type*} [Field K] (attrs : List String) (outcomes : OutcomesArg) (pr0 : List (List K)) :
    Except PyErr (List (List (List K))) :=
  if "pr0_to_likelihood_array" ∈ attrs then
    let os := match outcomes with
      | .scalar o => [o]
      | .array os => os
    if os = [] then .error .valueError
    else .ok (os.map fun o => if o = 0 then pr0 else pr0.map fun r => r.map fun p => 1 - p)
  else .error .attributeError

/-! ## Qubits and rebits -/

/-- Product of arrays of shapes `(n, d)` and `(m, d)`. (legacy.py 222, 277.) -/
def bcastRows {K : Type*} [Field K] (a b : List (List K)) : Except PyErr (List (List K)) :=
  if a.length = b.length then .ok (List.zipWith (List.zipWith (· * ·)) a b)
  else match a, b with
    | [x], b => .ok (b.map fun y => List.zipWith (· * ·) x y)
    | a, [y] => .ok (a.map fun x => List.zipWith (· * ·) x y)
    | _, _ => .error .valueError

/-- `QubitStatePauliModel.likelihood`, legacy.py 201-231.  (The 32-bit rounding of the axes is left out.) -/
def qubitLikelihood {K : Type*} [Field K] (attrs : List String) (outcomes : OutcomesArg)
    (mps axes : List (List K)) (vis : List K) : Except PyErr (List (List (List K))) := do
  let prod ← bcastRows mps axes
  let pr0 := prod.map fun r => 1 / 2 * (1 + r.sum)
  let seen ← bcast (· * ·) vis pr0
  let pr0 ← bcast (· + ·) seen (vis.map fun v => (1 - v) * (1 / 2))
  legacyArray attrs outcomes (pr0.map fun p => [p])

/-- `QubitStatePauliModel.are_models_valid`, legacy.py 194-196, of one row. -/
def qubitValid {K : Type*} [Field K] [LinearOrder K] (x : List K) : Bool :=
  decide (x.getD 0 0 ^ 2 + x.getD 1 0 ^ 2 + x.getD 2 0 ^ 2 ≤ 1)

/-- `pr0[pr0 < 0] = 0; pr0[pr0 > 1] = 1`, legacy.py 280-281 and 332-333. -/
def hackClip {K : Type*} [Field K] [LinearOrder K] (p : K) : K :=
  let p := if p < 0 then 0 else p
  if p > 1 then 1 else p

/-- `RebitStatePauliModel.likelihood`, legacy.py 254-287; the visibility is not used. -/
def rebitLikelihood {K : Type*} [Field K] [LinearOrder K] (attrs : List String) (outcomes : OutcomesArg)
    (mps axes : List (List K)) : Except PyErr (List (List (List K))) := do
  let prod ← bcastRows mps axes
  let pr0 := prod.map fun r => 1 / 2 * (1 + r.sum)
  legacyArray attrs outcomes ((pr0.map hackClip).map fun p => [p])

/-- `MultiQubitStatePauliModel.likelihood`, legacy.py 317-341; an experiment is an index and a
visibility. -/
def multiLikelihood {K : Type*} [Field K] [LinearOrder K] (attrs : List String) (outcomes : OutcomesArg)
    (mps : List (List K)) (exps : List (ℤ × K)) : Except PyErr (List (List (List K))) := do
  let picked ← mps.mapM fun x => exps.mapM fun e => pyIndex x e.1
  let pr0 := picked.map fun r => r.map fun y => hackClip (1 / 2 * (1 + y))
  legacyArray attrs outcomes (pr0.map fun r => List.zipWith (fun e p => e.2 * p + (1 - e.2) * (1 / 2)) exps r)

/-! ## Hadamard-Toffoli circuits -/

/-- `self.f[:2**m]`, legacy.py 378 and 399. -/
def htFirst (f : List ℤ) (m : Nat) : List ℤ := f.take (2 ^ m)

/-- `self.f[-2**m:]`, legacy.py 379 and 400. -/
def htLast (f : List ℤ) (m : Nat) : List ℤ := f.drop (f.length - 2 ^ m)

/-- `np.sum((F+1) % 2)`, legacy.py 382-383. -/
def evenCount (l : List ℤ) : ℤ := (l.map fun y => (y + 1) % 2).sum

/-- `HTCircuitModel.likelihood`, legacy.py 374-389, for parameters of shape `(n, 1)`. -/
def htLikelihood {K : Type*} [Field K] (attrs : List String) (f : List ℤ) (m : Nat) (outcomes : OutcomesArg)
    (mps : List (List K)) : Except PyErr (List (List (List K))) :=
  legacyArray attrs outcomes (mps.map fun x => x.map fun lam =>
    lam * (evenCount (htFirst f m) : K) / 2 ^ m + (1 - lam) * (evenCount (htLast f m) : K) / 2 ^ m)

/-- One cell of `HTCircuitModel.simulate_experiment` with `use_like=False`, legacy.py 395-415: `u` is the
variate that selects the state, 404, and `x` the input of the circuit, 409 or 413. -/
def htSimulate {K : Type*} [Field K] [LinearOrder K] (f : List ℤ) (m : Nat) (lam u : K) (x : Nat) :
    Except PyErr ℤ :=
  let part := if u > 1 / 2 * (1 - lam) then htFirst f m else htLast f m
  match part[x]? with
  | some y => .ok (y % 2)
  | none => .error .indexError

/-! ## Random channels -/

/-- `conjugate(B, X)`, legacy.py 66-67. -/
noncomputable def conjugateBy {D : Nat} (B X : Matrix (Fin D) (Fin D) ℂ) : Matrix (Fin D) (Fin D) ℂ :=
  B * (X * Bᴴ)

/-- `[1:, :].flatten(order='F')` of a `(D + 1, D + 1)` array, legacy.py 148-154: column by column. -/
def flattenTail {K : Type*} {D : Nat} (X : Matrix (Fin (D + 1)) (Fin (D + 1)) K) : List K :=
  (List.ofFn fun j : Fin (D + 1) => List.ofFn fun i : Fin D => X i.succ j).flatten

/-- `BCSZQubitDistribution._sample`, legacy.py 144-154, for the superoperator `S` that QuTiP drew and the
basis change `B`, 129. -/
noncomputable def bcszSample {D : Nat} (B S : Matrix (Fin (D + 1)) (Fin (D + 1)) ℂ) : List ℝ :=
  flattenTail (Matrix.of fun i j => (conjugateBy B S i j).re)

/-- `np.vstack((e0, ...))` on top of entries in column-major order, legacy.py 161-166. -/
noncomputable def stackRows {D : Nat} (entries : List ℝ) : Matrix (Fin (D + 1)) (Fin (D + 1)) ℂ :=
  Matrix.of fun i j => if h : i = 0 then (if j = 0 then 1 else 0)
    else (entries.getD (j * D + (i.pred h)) 0 : ℂ)

/-- `np.vstack((e0, modelparams.reshape((D - 1, D), order='F')))`, legacy.py 161-166: the reshape fails
unless the number of entries fits. -/
noncomputable def stackReshape {D : Nat} (entries : List ℝ) :
    Except PyErr (Matrix (Fin (D + 1)) (Fin (D + 1)) ℂ) :=
  if entries.length = D * (D + 1) then .ok (stackRows entries) else .error .valueError

/-- `BCSZQubitDistribution.to_qobj(modelparams)`, legacy.py 156-171: in every turn of the comprehension
the whole array is reshaped, with `order='F'`, that is read column by column. -/
noncomputable def toQobj {D : Nat} (B : Matrix (Fin (D + 1)) (Fin (D + 1)) ℂ) (mps : List (List ℝ)) :
    Except PyErr (List (Matrix (Fin (D + 1)) (Fin (D + 1)) ℂ)) :=
  let whole := (List.range ((mps.map List.length).headD 0)).flatMap fun j => mps.map fun x => x.getD j 0
  mps.mapM fun _ => do
    let S ← stackReshape whole
    .ok (conjugateBy Bᴴ S)

end QInfer
