import Verif.Model.Py
import Mathlib.Algebra.BigOperators.Fin
import Mathlib.Algebra.Field.Basic
import Mathlib.Algebra.Order.Ring.Defs

/-!
# Models of Fisher information and numerical gradients

`src/qinfer/abstract_model.py` 707-761 (`DifferentiableModel.fisher_information`),
`src/qinfer/score.py` (`ScoreMixin`) and `src/qinfer/finite_difference.py`.
-/

namespace QInfer

open scoped BigOperators

section
variable {K : Type} [Field K]

/-- The array returned by `score`: the parameter axis may be left out for models with one
parameter. (abstract_model.py 691-705, 731-761.) -/
inductive ScoreArr (K : Type) (nM nE : Nat)
  | three (s : Nat → Fin nM → Fin nE → K)
  | four (nP : Nat) (s : Nat → Nat → Fin nM → Fin nE → K)

/-- `np.einsum("ome,iome,jome->ijme", L, scores, scores)` for `n` outcomes.
(abstract_model.py 736, 757.) -/
def fisherSum {nM nE : Nat} (n : Nat) (L : Nat → Fin nM → Fin nE → K)
    (s : Nat → Nat → Fin nM → Fin nE → K) (i j : Nat) (m : Fin nM) (e : Fin nE) : K :=
  ∑ o ∈ Finset.range n, L o m e * s i o m e * s j o m e

/-- Whether `fisher[:, :, :, e] = a` is allowed for `a` of shape `(p, p, nM, 1)` and a slice of shape
`(q, q, nM)`: leading axes of length one of the longer array are dropped, here at most one, then its
shape `(p, nM, 1)` must broadcast to `(q, q, nM)`. (abstract_model.py 757.) -/
def fisherAssignable (p q nM : Nat) : Bool :=
  decide (p = 1) && (decide (p = q) || decide (p = 1)) && (decide (nM = q) || decide (nM = 1))

/-- `DifferentiableModel.fisher_information`, abstract_model.py 726-761.  `constant` is
`is_n_outcomes_constant`, `nAll` is `n_outcomes(expparams)` and `nOut e` is `n_outcomes` of
experiment `e`; `score` and `L` are what `score(..., return_L=True)` returns (entry by entry the
same in both branches).  The result is the number of parameters and the array. -/
def fisherInformation {nM nE : Nat} (constant : Bool) (nParams nAll : Nat) (nOut : Fin nE → Nat)
    (score : ScoreArr K nM nE) (L : Nat → Fin nM → Fin nE → K) :
    Except PyErr (Nat × (Nat → Nat → Fin nM → Fin nE → K)) :=
  if constant then
    match score with
    | .three s => .ok (1, fisherSum nAll L fun _ => s)
    | .four p s => .ok (p, fisherSum nAll L s)
  else if nE = 0 then .ok (nParams, fun _ _ _ _ => 0)
  else
    match score with
    | .three _ => .error .valueError
    | .four p s =>
      if fisherAssignable p nParams nM then
        .ok (nParams, fun _ _ m e => fisherSum (nOut e) L s 0 0 m e)
      else .error .valueError

/-! ## ScoreMixin -/

/-- `ScoreMixin.h`, score.py 70-74, for a step size array `h` (a scalar has one entry). -/
def scoreSteps (h : List K) (n : Nat) : Except PyErr (List K) :=
  if 1 < h.length then
    if h.length = n then .ok h else .error .assertionError
  else match h with
    | [x] => .ok ((List.replicate n (1 : K)).map (x * ·))
    | _ => if n ≤ 1 then .ok [] else .error .valueError

/-- `modelparams + h_perturb` for one model, score.py 111-117. -/
def perturb {d : Nat} (x : Fin d → K) (i : Fin d) (h : K) : Fin d → K :=
  fun j => x j + if j = i then h else 0

open Classical in
/-- One entry of `ScoreMixin.score`, score.py 115-118: `none` for a division by zero. -/
noncomputable def numScore {d : Nat} (L : (Fin d → K) → K) (x : Fin d → K) (i : Fin d) (h : K) :
    Option K :=
  if 2 * h * L x = 0 then none
  else some ((L (perturb x i h) - L fun j => x j - if j = i then h else 0) / (2 * h * L x))

/-! ## FiniteDifference -/

/-- `FiniteDifference.__init__`, finite_difference.py 75-78: a scalar step is repeated. -/
def fdSteps (n : Nat) : K ⊕ List K → List K
  | .inl h => (List.replicate n (1 : K)).map (h * ·)
  | .inr h => h

/-- One entry of `grad` before the division, finite_difference.py 85-87. -/
def fdDiff {d : Nat} (f : (Fin d → K) → K) (x : Fin d → K) (i : Fin d) (h : K) : K :=
  f (fun j => x j + (if j = i then h else 0) / 2) - f fun j => x j - (if j = i then h else 0) / 2

open Classical in
/-- `FiniteDifference.central`, finite_difference.py 80-89: `grad[idx]` needs `h[idx]`
(`IndexError`), and `grad / h` broadcasts an `n_args` vector against `h`.  `none` for a division by
zero. -/
noncomputable def fdCentral {d : Nat} (f : (Fin d → K) → K) (h : List K) (x : Fin d → K) :
    Except PyErr (List (Option K)) :=
  if h.length < d then .error .indexError
  else
    let grad := List.ofFn fun i : Fin d => fdDiff f x i (h.getD i 0)
    let div := fun (a b : K) => if b = 0 then none else some (a / b)
    if h.length = d then .ok (List.zipWith div grad h)
    else match grad with
      | [g] => .ok (h.map (div g))
      | _ => if d = 0 ∧ h.length = 1 then .ok [] else .error .valueError

end

end QInfer
