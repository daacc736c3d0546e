import Mathlib.Probability.Distributions.Gaussian.Real

/-!
# Specification: jointly normal quantities
-/

namespace QInfer.Spec

open MeasureTheory ProbabilityTheory

/-- The quantities `X` are jointly normal with the given means and covariances: every linear combination of them
is normal, with the mean and the variance that these prescribe. -/
def JointlyNormal {Ω ι : Type} [MeasurableSpace Ω] [Fintype ι] (P : Measure Ω) (X : Ω → ι → ℝ) (mean : ι → ℝ)
    (cov : ι → ι → ℝ) : Prop :=
  ∀ c : ι → ℝ, 0 ≤ ∑ i, ∑ j, c i * c j * cov i j ∧
    P.map (fun ω => ∑ i, c i * X ω i) =
      gaussianReal (∑ i, c i * mean i) (∑ i, ∑ j, c i * c j * cov i j).toNNReal

end QInfer.Spec
