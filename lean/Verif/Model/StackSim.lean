import Verif.Model.Stack

/-!
# Model of nested models: simulated data

`src/qinfer/derived_models.py` 210-220, 331-356, 488-508, 654-679, 697-699, 730-732, 894-896,
`src/qinfer/abstract_model.py` 633-656.

A simulated outcome of one row of model parameters and one experiment is described by its law: the probability
of every outcome, or the density for real outcomes.  That the samplers have the laws used here is proved from
the code for stand-alone models (C28) and `sample_multinomial` (C87); for `scipy.stats.binom` and
`np.random.randn` it is assumed.
-/

namespace QInfer
namespace Nest

variable {V : Type}

/-- The binomial law `binom(n, p).rvs()`, for `p` in the unit interval. (derived_models.py 342-345.) -/
noncomputable def binomLaw (n : Nat) (p : ℝ) : Outc → ℝ
  | .int (.ofNat k) => (n.choose k : ℝ) * p ^ k * (1 - p) ^ (n - k)
  | _ => 0

open Classical in
/-- The law of `np.random.multinomial(n, ps + [_])`, which does not read the last entry.
(derived_models.py 660-673, utils.py 185-187.) -/
noncomputable def multinomLaw (n : Nat) (ps : List ℝ) : Outc → ℝ
  | .tuple c => if c.length = ps.length + 1 ∧ (∀ m ∈ c, 0 ≤ m) ∧ c.sum = n then
      (n.factorial : ℝ) / (c.map fun m => (m.toNat.factorial : ℝ)).prod *
        (List.zipWith (fun (m : ℤ) q => q ^ m.toNat) c (ps ++ [1 - ps.sum])).prod
    else 0
  | _ => 0

/-- The density of a normal variate with mean `μ` and standard deviation `σ`.
(derived_models.py 493, 503-506.) -/
noncomputable def normDensity (μ σ x : ℝ) : ℝ := normPdf ((x - μ) / σ) / σ

open Classical in
/-- The law of one outcome of `simulate_experiment`.
* Stand-alone models, abstract_model.py 633-656: the likelihoods of the outcomes.
* `PoisonedModel`, derived_models.py 210-220, `MLEModel`, 697-699, `RandomWalkModel`, 730-732,
  `GaussianRandomWalkModel`, 894-896: the wrapped model is simulated.
* `BinomialModel`, 331-356: a binomial variate with the wrapped model's *likelihood* of outcome 1.  SciPy
  raises for a probability outside the unit interval.
* `MultinomialModel`, 654-679: a multinomial variate with the wrapped model's likelihoods.  NumPy raises if one
  is negative or their sum exceeds one (it tolerates an excess of 1e-12, which is left out).
* `GaussianHyperparameterizedModel`, 488-508: outcome 0 or not of the wrapped model with all but the last four
  columns chooses the mean and the deviation. -/
noncomputable def Stack.simLaw (count : V → Nat) : Stack V → List ℝ → Exp V → Except PyErr (Outc → ℝ)
  | .base b _ f, row, e => .ok fun o => match o with
    | .int (.ofNat k) => if k < b.nOut then f k row e else 0
    | _ => 0
  | .wrap (.poisoned _ _) u, row, e => u.simLaw count row e
  | .wrap (.mle _) u, row, e => u.simLaw count row e
  | .wrap .randomWalk u, row, e => u.simLaw count row e
  | .wrap (.gaussianRW _) u, row, e => u.simLaw count (row.take u.nParams) e
  | .wrap .binomial u, row, e => do
    let e' ← unwrapExp u.tree.dtype e
    let pr1 ← u.like count (.int 1) row e'
    let n ← e.get "n_meas"
    match pr1 with
    | some p => if 0 ≤ p ∧ p ≤ 1 then .ok (binomLaw (count n) p) else .error .valueError
    | none => .error .valueError
  | .wrap .multinomial u, row, e => do
    let e' ← unwrapExp u.tree.dtype e
    let d ← u.tree.domain count (none : Option (Exp V))
    match d with
    | .ints k => do
      let prs ← ((List.range k).dropLast).mapM fun (i : Nat) => u.like count (.int i) row e'
      let n ← e.get "n_meas"
      if prs.any Option.isNone then .error .valueError
      else
        let ps := prs.map fun p => p.getD 0
        if (∀ p ∈ ps, 0 ≤ p) ∧ ps.sum ≤ 1 then .ok (multinomLaw (count n) ps)
        else .error .valueError
    | _ => .error .other
  | .wrap .gaussHyper u, row, e => do
    let P ← u.simLaw count (row.take (row.length - 4)) e
    .ok fun o => match o with
      | .real x =>
        P (.int 0) * normDensity ((ghMu u.nParams row).getD 0 0)
          (Real.sqrt ((ghSigma2 u.nParams row).getD 0 0)) x +
        P (.int 1) * normDensity ((ghMu u.nParams row).getD 1 0)
          (Real.sqrt ((ghSigma2 u.nParams row).getD 1 0)) x
      | _ => 0

end Nest
end QInfer
