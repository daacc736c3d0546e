import Verif.Model.Derived
import Mathlib.Analysis.SpecialFunctions.Pow.Real

/-!
# Costs of experiments

What `ExperimentDesigner.design_expparams_field` minimises (`src/qinfer/expdesign.py` 321-339), with the costs of
`src/qinfer/abstract_model.py` 320-334 and 530-542.
-/

namespace QInfer

/-- The objective for one experiment, expdesign.py 323-339: `r` is its Bayes risk, `c` its cost, `k` is `cost_scale_k`.
Simplified: costs are not negative (numpy's power of a negative number is NaN). -/
noncomputable def costObjective (costMult : Bool) (k r c : ℝ) : ℝ := if costMult then r * c ^ k else r + k * c

/-- The objective for an array of experiments, expdesign.py 331 and 339; the risk is evaluated first. -/
noncomputable def designObjective (costMult : Bool) (k : ℝ) (risk cost : EpArr ℝ → Except PyErr (List ℝ))
    (eps : EpArr ℝ) : Except PyErr (List ℝ) := do
  let r ← risk eps
  let c ← cost eps
  .ok (List.zipWith (costObjective costMult k) r c)

/-- The number of experiments in an array. (`expparams.shape` at abstract_model.py 334.) -/
def EpArr.experiments {K : Type*} : EpArr K → List Nat
  | .plain xs => List.range xs.length
  | .record fs => match fs with
    | [] => []
    | f :: _ => List.range f.2.length

end QInfer
