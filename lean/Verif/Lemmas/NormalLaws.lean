import Verif.Lemmas.GaussInvariant

/-!
# Linear combinations of independent standard normal variates
-/

namespace QInfer

open MeasureTheory ProbabilityTheory Finset

/-- A linear combination of independent standard normal variates is normal, with the sum of the squares of the
coefficients as its variance. -/
theorem normals_linear {ι : Type} [Fintype ι] (a : ι → ℝ) :
    (normals ι).map (fun z => ∑ i, a i * z i) = gaussianReal 0 (∑ i, a i ^ 2).toNNReal := by
  classical
  let w : (ι → ℝ) ≃ᵐ EuclideanSpace ℝ ι := MeasurableEquiv.toLp 2 (ι → ℝ)
  have hw : (normals ι).map w = stdGaussian (EuclideanSpace ℝ ι) := map_pi_eq_stdGaussian
  let L : StrongDual ℝ (EuclideanSpace ℝ ι) := innerSL ℝ (WithLp.toLp 2 a)
  have h1 : (fun z : ι → ℝ => ∑ i, a i * z i) = L ∘ w := by
    funext z
    simp only [Function.comp, L, innerSL_apply_apply]
    rw [PiLp.inner_apply]
    refine Finset.sum_congr rfl fun i _ => ?_
    exact mul_comm _ _
  rw [h1, ← Measure.map_map L.continuous.measurable w.measurable, hw, IsGaussian.map_eq_gaussianReal,
    integral_strongDual_stdGaussian, variance_dual_stdGaussian]
  congr 2
  rw [innerSL_apply_norm, EuclideanSpace.norm_sq_eq]
  simp

/-- Laws with the same linear combinations are the same. -/
theorem law_ext {ι : Type} [Fintype ι] (μ ν : Measure (ι → ℝ)) [IsFiniteMeasure μ] [IsFiniteMeasure ν]
    (h : ∀ c : ι → ℝ, μ.map (fun x => ∑ i, c i * x i) = ν.map (fun x => ∑ i, c i * x i)) : μ = ν := by
  classical
  refine Measure.ext_of_charFunDual (funext fun L => ?_)
  have hL : (fun x : ι → ℝ => ∑ i, L (Pi.single i 1) * x i) = L := by
    funext x
    conv_rhs => rw [← Finset.univ_sum_single x]
    rw [map_sum]
    refine Finset.sum_congr rfl fun i _ => ?_
    have : Pi.single i (x i) = x i • (Pi.single i 1 : ι → ℝ) := by
      rw [← Pi.single_smul, smul_eq_mul, mul_one]
    rw [this, map_smul, smul_eq_mul, mul_comm]
  have := h fun i => L (Pi.single i 1)
  rw [hL] at this
  rw [charFunDual_eq_charFun_map_one, charFunDual_eq_charFun_map_one, this]

end QInfer
