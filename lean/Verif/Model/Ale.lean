import Verif.Model.Outcome
import Mathlib.Analysis.SpecialFunctions.Sqrt

/-!
# Model of adaptive likelihood estimation

`src/qinfer/ale.py` 66-162 (`ALEApproximateModel`) and `src/qinfer/utils.py` 667-688.

The numbers are reals.  `min_samp` and `samp_step` are the integers of the caller (an integral float is
the same number; a fractional one, which `int` truncates after the check, is not modelled).  The
simulator is the table of the outcomes it produces: `sims k r i j` is the outcome of repetition `r` of
round `k` for model `i` and experiment `j`.
-/

namespace QInfer

open scoped BigOperators

/-- The fields set by `ALEApproximateModel.__init__`, ale.py 122-126. -/
structure AleCfg where
  errorTol : ℝ
  minSamp : ℤ
  sampStep : ℤ
  estHedge : ℝ
  adaptHedge : ℝ

/-- `ALEApproximateModel.__init__`, ale.py 91-126.  `isSim`: the argument is a `Simulatable`;
`const`, `nOut`: its `is_n_outcomes_constant` and `n_outcomes(None)`. -/
noncomputable def aleInit (isSim const : Bool) (nOut : Nat) (c : AleCfg) : Except PyErr AleCfg :=
  if isSim = false then .error .typeError
  else if c.errorTol ≤ 0 then .error .valueError
  else if c.errorTol > 1 then .error .valueError
  else if c.minSamp ≤ 0 then .error .valueError
  else if c.sampStep ≤ 0 then .error .valueError
  else if c.estHedge < 0 then .error .valueError
  else if c.adaptHedge < 0 then .error .valueError
  else if ¬ (const = true ∧ nOut = 2) then .error .valueError
  else .ok c

/-- `binom_est_p`, utils.py 667-681 (`N + 2 * hedge` is positive in every call). -/
noncomputable def binomEstP (n N hedge : ℝ) : ℝ := (n + hedge) / (N + 2 * hedge)

/-- `binom_est_error`, utils.py 683-688.  `np.sqrt` of a negative number is NaN (`none`). -/
noncomputable def binomEstError (p N hedge : ℝ) : Option ℝ :=
  let v := p * (1 - p) / (N + 2 * hedge + 1)
  if v < 0 then none else some (Real.sqrt v)

/-- `e < tol` with NaN comparing false. (ale.py 160.) -/
def nanLt (e : Option ℝ) (tol : ℝ) : Prop :=
  match e with
  | some e => e < tol
  | none => False

/-- `np.sum(sim_data, axis=0)`, ale.py 154, for round `k`. -/
def aleHits {nM nE s : Nat} (batch : Fin s → Fin nM → Fin nE → ℤ) (i : Fin nM) (j : Fin nE) : ℝ :=
  ((∑ r, batch r i j : ℤ) : ℝ)

/-- The test `np.all(error_est_p1 < self._error_tol)`, ale.py 156-157. -/
def aleDone {nM nE : Nat} (c : AleCfg) (n : Fin nM → Fin nE → ℝ) (N : ℝ) : Prop :=
  ∀ i j, nanLt (binomEstError (binomEstP (n i j) N c.adaptHedge) N c.adaptHedge) c.errorTol

open Classical in
/-- The loop of ale.py 149-157, run for at most `fuel` rounds; `none` when it has not stopped by
then.  `k` is the number of rounds already run, `N = min_samp + k * samp_step`. -/
noncomputable def aleLoop {nM nE : Nat} (c : AleCfg)
    (sims : Nat → Fin c.sampStep.toNat → Fin nM → Fin nE → ℤ) :
    Nat → Nat → (Fin nM → Fin nE → ℝ) → ℝ → Option ((Fin nM → Fin nE → ℝ) × ℝ)
  | 0, _, _, _ => none
  | fuel + 1, k, n, N =>
    let n' : Fin nM → Fin nE → ℝ := fun i j => n i j + aleHits (sims k) i j
    if aleDone c n' N then some (n', N)
    else aleLoop c sims fuel (k + 1) n' (N + c.sampStep)

/-- `likelihood`, ale.py 140-162. -/
noncomputable def aleLikelihood {nM nE : Nat} (c : AleCfg)
    (sims : Nat → Fin c.sampStep.toNat → Fin nM → Fin nE → ℤ) (outcomes : OutcomesArg)
    (fuel : Nat) : Option (Except PyErr (List (Fin nM → Fin nE → ℝ))) :=
  match aleLoop c sims fuel 0 (fun _ _ => 0) c.minSamp with
  | none => none
  | some (n, N) => some (pr0ToLikelihood outcomes fun i j => 1 - binomEstP (n i j) N c.estHedge)

end QInfer
