import Verif.Model.Outcome
import Mathlib.Analysis.SpecialFunctions.Pow.Real

/-!
# Model of `GaussianHyperparameterizedModel`

`src/qinfer/derived_models.py` 385-508.  A row of model parameters is a list: the parameters of the
wrapped model, then `μ₀, μ₁, σ₀², σ₁²`.  The wrapped model is given by its likelihood, its validity
test and its simulated outcomes.  Missing columns, which make numpy's broadcasting fail, are not
covered: they read as 0.
-/

namespace QInfer

/-- `__init__`, derived_models.py 398-402: the check of the number of outcomes.  `constant` is
`is_n_outcomes_constant`, `nOut` the value of `n_outcomes(None)`. -/
def ghInit (constant : Bool) (nOut : Nat) : Except PyErr Unit :=
  if constant && nOut == 2 then .ok () else .error .valueError

/-- `modelparam_names`, derived_models.py 416-421. -/
def ghNames (names : List String) : List String :=
  names ++ ["\\mu_0", "\\mu_1", "\\sigma_0^2", "\\sigma_1^2"]

/-- `n_modelparams`, derived_models.py 423-425. -/
def ghNParams (names : List String) : Nat := (ghNames names).length

/-- The slice `[:n]`, derived_models.py 405. -/
def ghOrig (n : Nat) (row : List ℝ) : List ℝ := row.take n

/-- The slice `[n:n+2]`, derived_models.py 406. -/
def ghMu (n : Nat) (row : List ℝ) : List ℝ := (row.drop n).take 2

/-- The slice `[n+2:n+4]`, derived_models.py 407. -/
def ghSigma2 (n : Nat) (row : List ℝ) : List ℝ := (row.drop (n + 2)).take 2

open Classical in
/-- `are_models_valid`, derived_models.py 435-442, for one row. -/
noncomputable def ghValid (underValid : List ℝ → Bool) (n : Nat) (row : List ℝ) : Bool :=
  underValid (ghOrig n row) && (ghSigma2 n row).all fun s => decide (0 < s)

/-- `scipy.stats.norm(0, 1).pdf`. (derived_models.py 471.) -/
noncomputable def normPdf (z : ℝ) : ℝ := Real.exp (-z ^ 2 / 2) / Real.sqrt (2 * Real.pi)

/-- One entry of `likelihood`, derived_models.py 460-483: the outcome is rescaled to a standard normal
variate, whose density is averaged over the outcomes 0 and 1 of the wrapped model. -/
noncomputable def ghCell {E : Type} (under : Nat → List ℝ → E → ℝ) (n : Nat) (o : ℝ) (row : List ℝ)
    (e : E) : ℝ :=
  ([0, 1].map fun u =>
    under u (ghOrig n row) e *
      normPdf ((o - (ghMu n row).getD u 0) / Real.sqrt ((ghSigma2 n row).getD u 0))).sum

open Classical in
/-- `likelihood`, derived_models.py 451-483, indexed by outcome, model and experiment.  The assertion
fails if any standard deviation is not positive. -/
noncomputable def ghLikelihood {E : Type} (under : Nat → List ℝ → E → ℝ) (n : Nat) (os : List ℝ)
    (rows : List (List ℝ)) (es : List E) : Except PyErr (List (List (List ℝ))) :=
  if rows.all fun row => (ghSigma2 n row).all fun s => decide (0 < Real.sqrt s) then
    .ok (os.map fun o => rows.map fun row => es.map fun e => ghCell under n o row e)
  else .error .assertionError

/-- The result of a simulation: one number or an array over repetition, model and experiment.
(derived_models.py 503-508.) -/
inductive GhOut
  | scalar (x : ℝ)
  | array (x : List (List (List ℝ)))

/-- One entry of `simulate_experiment`, derived_models.py 502-505: `u` is the underlying outcome, `z`
the normal variate. -/
noncomputable def ghSimCell (n : Nat) (row : List ℝ) (u : Nat) (z : ℝ) : ℝ :=
  (if u ≠ 0 then (ghMu n row).getD 1 0 else (ghMu n row).getD 0 0) +
    (if u ≠ 0 then Real.sqrt ((ghSigma2 n row).getD 1 0)
      else Real.sqrt ((ghSigma2 n row).getD 0 0)) * z

/-- `simulate_experiment`, derived_models.py 488-507.  `sim` gives the outcomes of the wrapped model by
repetition, model and experiment, for the rows without their last four columns; `zs` the variates
of `np.random.randn(n_models, n_experiments)`: numpy's broadcasting uses the same ones for each
repetition. -/
noncomputable def ghSimulate {E : Type} (sim : Nat → Nat → Nat → List (List ℝ) → List E → Nat)
    (zs : Nat → Nat → ℝ) (n : Nat) (rows : List (List ℝ)) (es : List E) (reps : Nat) : GhOut :=
  let orig := rows.map fun row => row.take (row.length - 4)
  let out := (List.range reps).map fun r => rows.zipIdx.map fun (row, m) =>
    (List.range es.length).map fun e => ghSimCell n row (sim r m e orig es) (zs m e)
  if reps * rows.length * es.length = 1 then
    .scalar (((out.getD 0 []).getD 0 []).getD 0 0)
  else .array out

end QInfer
