import Verif.Spec.Normal
import Mathlib.Probability.Moments.Variance

/-!
# Moments of jointly normal quantities
-/

namespace QInfer

open MeasureTheory ProbabilityTheory Finset

theorem gaussianReal_second (μ : ℝ) (v : NNReal) :
    Integrable (fun y => y) (gaussianReal μ v) ∧ Integrable (fun y => y ^ 2) (gaussianReal μ v) ∧
      ∫ y, y ∂gaussianReal μ v = μ ∧ ∫ y, y ^ 2 ∂gaussianReal μ v = μ ^ 2 + v := by
  have h2 : MemLp id 2 (gaussianReal μ v) := memLp_id_gaussianReal 2
  have hi := h2.integrable_sq
  have h1 : ∫ y, y ∂gaussianReal μ v = μ := integral_id_gaussianReal
  refine ⟨(h2.integrable (by norm_num)), hi, h1, ?_⟩
  have hv : Var[id; gaussianReal μ v] = v := variance_id_gaussianReal
  rw [variance_eq_sub h2] at hv
  have h3 : ∫ y, y ^ 2 ∂gaussianReal μ v = (gaussianReal μ v)[id ^ 2] := rfl
  have h4 : (gaussianReal μ v)[id] = μ := h1
  rw [h4] at hv
  rw [h3]; linarith

/-- Means and second moments of jointly normal quantities. -/
theorem JointlyNormal.moments {Ω ι : Type} [MeasurableSpace Ω] [Fintype ι] [DecidableEq ι] {P : Measure Ω}
    {X : Ω → ι → ℝ} {mean : ι → ℝ} {cov : ι → ι → ℝ} (h : Spec.JointlyNormal P X mean cov)
    (hs : ∀ i j, cov i j = cov j i) :
    (∀ i, Integrable (fun ω => X ω i) P) ∧ (∀ i j, Integrable (fun ω => X ω i * X ω j) P) ∧
      (∀ i, ∫ ω, X ω i ∂P = mean i) ∧ ∀ i j, ∫ ω, X ω i * X ω j ∂P = mean i * mean j + cov i j := by
  have key : ∀ c : ι → ℝ, Integrable (fun ω => ∑ i, c i * X ω i) P ∧
      Integrable (fun ω => (∑ i, c i * X ω i) ^ 2) P ∧ ∫ ω, ∑ i, c i * X ω i ∂P = ∑ i, c i * mean i ∧
      ∫ ω, (∑ i, c i * X ω i) ^ 2 ∂P = (∑ i, c i * mean i) ^ 2 + ∑ i, ∑ j, c i * c j * cov i j := by
    intro c
    obtain ⟨hV, hl⟩ := h c
    have hm : AEMeasurable (fun ω => ∑ i, c i * X ω i) P := by
      by_contra hc
      rw [Measure.map_of_not_aemeasurable hc] at hl
      exact absurd hl.symm (IsProbabilityMeasure.ne_zero _)
    obtain ⟨g1, g2, g3, g4⟩ := gaussianReal_second (∑ i, c i * mean i) (∑ i, ∑ j, c i * c j * cov i j).toNNReal
    rw [← hl] at g1 g2 g3 g4
    refine ⟨g1.comp_aemeasurable hm, g2.comp_aemeasurable hm, ?_, ?_⟩
    · rw [← g3, integral_map hm (by fun_prop)]
    · have : ∫ y, y ^ 2 ∂(P.map fun ω => ∑ i, c i * X ω i) = ∫ ω, (∑ i, c i * X ω i) ^ 2 ∂P :=
        integral_map hm (by fun_prop)
      rw [← this, g4, Real.coe_toNNReal _ hV]
  have k1 : ∀ i, Integrable (fun ω => X ω i) P ∧ Integrable (fun ω => X ω i ^ 2) P ∧
      ∫ ω, X ω i ∂P = mean i ∧ ∫ ω, X ω i ^ 2 ∂P = mean i ^ 2 + cov i i := by
    intro i
    have := key fun q => if q = i then 1 else 0
    simpa using this
  have k2 : ∀ i j, Integrable (fun ω => (X ω i + X ω j) ^ 2) P ∧
      ∫ ω, (X ω i + X ω j) ^ 2 ∂P = (mean i + mean j) ^ 2 + (cov i i + cov i j + (cov j i + cov j j)) := by
    intro i j
    have := key fun q => (if q = i then 1 else 0) + (if q = j then 1 else 0)
    simp only [add_mul, mul_add, Finset.sum_add_distrib, ite_mul, mul_ite, one_mul, mul_one, zero_mul, mul_zero,
      Finset.sum_ite_eq', Finset.mem_univ, if_true] at this
    refine ⟨this.2.1, ?_⟩
    rw [this.2.2.2]
    simp
    ring
  have hsplit : ∀ i j ω, X ω i * X ω j = ((X ω i + X ω j) ^ 2 - X ω i ^ 2 - X ω j ^ 2) / 2 := by
    intro i j ω; ring
  refine ⟨fun i => (k1 i).1, fun i j => ?_, fun i => (k1 i).2.2.1, fun i j => ?_⟩
  · simp only [hsplit]
    exact (((k2 i j).1.sub (k1 i).2.1).sub (k1 j).2.1).div_const 2
  · simp only [hsplit]
    have h1 : Integrable (fun ω => (X ω i + X ω j) ^ 2 - X ω i ^ 2) P := (k2 i j).1.sub (k1 i).2.1
    rw [integral_div, integral_sub h1 (k1 j).2.1, integral_sub (k2 i j).1 (k1 i).2.1,
      (k2 i j).2, (k1 i).2.2.2, (k1 j).2.2.2, hs j i]
    ring

end QInfer
