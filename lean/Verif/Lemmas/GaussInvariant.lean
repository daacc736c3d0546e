import Mathlib.Probability.Distributions.Gaussian.Multivariate
import Mathlib.Analysis.InnerProductSpace.PiL2

/-!
# Independent standard normal variates under rotations
-/

namespace QInfer

open MeasureTheory ProbabilityTheory Finset

/-- The law of independent standard normal variates. -/
noncomputable def normals (ι : Type) [Fintype ι] : Measure (ι → ℝ) := Measure.pi fun _ => gaussianReal 0 1

instance normals_prob (ι : Type) [Fintype ι] : IsProbabilityMeasure (normals ι) := by
  unfold normals; infer_instance

/-- A linear map that preserves the sum of squares preserves the law. -/
theorem normals_invariant {ι : Type} [Fintype ι] (f : (ι → ℝ) →ₗ[ℝ] (ι → ℝ))
    (hf : ∀ x, ∑ i, f x i ^ 2 = ∑ i, x i ^ 2) :
    ∃ e : (ι → ℝ) ≃ᵐ (ι → ℝ), (∀ x, e x = f x) ∧ (normals ι).map e = normals ι := by
  classical
  let L : EuclideanSpace ℝ ι →ₗ[ℝ] EuclideanSpace ℝ ι :=
    (WithLp.linearEquiv 2 ℝ (ι → ℝ)).symm.toLinearMap ∘ₗ f ∘ₗ (WithLp.linearEquiv 2 ℝ (ι → ℝ)).toLinearMap
  have hL : ∀ x, ‖L x‖ = ‖x‖ := fun x => by
    rw [EuclideanSpace.norm_eq, EuclideanSpace.norm_eq]
    simp only [Real.norm_eq_abs, sq_abs]
    exact congrArg _ (hf _)
  let I : EuclideanSpace ℝ ι →ₗᵢ[ℝ] EuclideanSpace ℝ ι := ⟨L, hL⟩
  let J : EuclideanSpace ℝ ι ≃ₗᵢ[ℝ] EuclideanSpace ℝ ι := I.toLinearIsometryEquiv rfl
  let w : (ι → ℝ) ≃ᵐ EuclideanSpace ℝ ι := MeasurableEquiv.toLp 2 (ι → ℝ)
  let e : (ι → ℝ) ≃ᵐ (ι → ℝ) := (w.trans J.toHomeomorph.toMeasurableEquiv).trans w.symm
  have hw : (normals ι).map w = stdGaussian (EuclideanSpace ℝ ι) := map_pi_eq_stdGaussian
  refine ⟨e, fun x => rfl, ?_⟩
  have h2 : ((normals ι).map w).map J = (normals ι).map w := by
    rw [hw]; exact stdGaussian_map J
  have h3 : (((normals ι).map w).map J).map w.symm = normals ι := by
    rw [h2, Measure.map_map w.symm.measurable w.measurable]; simp
  rw [Measure.map_map J.continuous.measurable w.measurable,
    Measure.map_map w.symm.measurable (J.continuous.measurable.comp w.measurable)] at h3
  exact h3

end QInfer
