import Mathlib.Analysis.Calculus.LineDeriv.IntegrationByParts
import Mathlib.Analysis.Calculus.FDeriv.Measurable
import Mathlib.MeasureTheory.Measure.Haar.OfBasis
import Mathlib.Algebra.QuadraticDiscriminant
import Mathlib.Tactic

/-!
# The van Trees inequality

A smooth prior density on parameter vectors and a smooth model with finitely many outcomes: the mean
squared error of any estimate and the information of prior and model together cannot both be small.
-/

namespace QInfer
open MeasureTheory

variable {d : Nat} {D : Type*} [Fintype D]

/-- A differentiable density with second moments and finite information. -/
structure Spec.SmoothPrior (r : (Fin d → ℝ) → ℝ) : Prop where
  diff : Differentiable ℝ r
  nonneg : ∀ x, 0 ≤ r x
  int : Integrable r
  total : ∫ x, r x = 1
  sq : Integrable fun x => ‖x‖ ^ 2 * r x
  info : ∀ v, Integrable fun x => (fderiv ℝ r x v) ^ 2 / r x

/-- Probabilities of finitely many outcomes, differentiable in the parameters, with bounded Fisher
information. -/
structure Spec.SmoothModel (p : D → (Fin d → ℝ) → ℝ) : Prop where
  diff : ∀ o, Differentiable ℝ (p o)
  nonneg : ∀ o x, 0 ≤ p o x
  total : ∀ x, ∑ o, p o x = 1
  bound : ∀ o, ∃ C, ∀ x v, (fderiv ℝ (p o) x v) ^ 2 ≤ C * ‖v‖ ^ 2 * p o x

namespace VanTrees

/-- A differentiable function without negative values has derivative zero where it vanishes. -/
theorem fderiv_of_zero {f : (Fin d → ℝ) → ℝ} (hf : ∀ x, 0 ≤ f x) (x : Fin d → ℝ) (h : f x = 0) :
    fderiv ℝ f x = 0 :=
  IsLocalMin.fderiv_eq_zero (Filter.Eventually.of_forall fun y => by rw [h]; exact hf y)

theorem le_one {p : D → (Fin d → ℝ) → ℝ} (hp : Spec.SmoothModel p) (o : D) (x : Fin d → ℝ) :
    p o x ≤ 1 := by
  rw [← hp.total x]
  exact Finset.single_le_sum (f := fun o => p o x) (fun o _ => hp.nonneg o x) (Finset.mem_univ o)

theorem bound' {p : D → (Fin d → ℝ) → ℝ} (hp : Spec.SmoothModel p) (o : D) :
    ∃ C, 0 ≤ C ∧ ∀ x v, (fderiv ℝ (p o) x v) ^ 2 ≤ C * ‖v‖ ^ 2 * p o x := by
  obtain ⟨C, hC⟩ := hp.bound o
  refine ⟨|C|, abs_nonneg C, fun x v => (hC x v).trans ?_⟩
  gcongr
  · exact hp.nonneg o x
  · exact le_abs_self C

variable {r : (Fin d → ℝ) → ℝ} {p : D → (Fin d → ℝ) → ℝ}

/-- Functions growing at most quadratically are integrable against the prior. -/
theorem integrable_quad (hr : Spec.SmoothPrior r) (f : (Fin d → ℝ) → ℝ) (hf : Measurable f) (C : ℝ)
    (hC : ∀ x, |f x| ≤ C * (1 + ‖x‖ ^ 2)) : Integrable fun x => f x * r x := by
  have h1 : Integrable fun x => C * (r x + ‖x‖ ^ 2 * r x) := (hr.int.add hr.sq).const_mul C
  refine h1.mono' (hf.mul hr.diff.continuous.measurable).aestronglyMeasurable
    (Filter.Eventually.of_forall fun x => ?_)
  rw [Real.norm_eq_abs, abs_mul, abs_of_nonneg (hr.nonneg x)]
  calc |f x| * r x ≤ C * (1 + ‖x‖ ^ 2) * r x := by
        gcongr
        · exact hr.nonneg x
        · exact hC x
    _ = C * (r x + ‖x‖ ^ 2 * r x) := by ring

theorem abs_dot_le (u x : Fin d → ℝ) : |∑ i, u i * x i| ≤ (∑ i, |u i|) * ‖x‖ := by
  rw [Finset.sum_mul]
  refine (Finset.abs_sum_le_sum_abs _ _).trans (Finset.sum_le_sum fun i _ => ?_)
  rw [abs_mul]
  gcongr
  exact norm_le_pi_norm x i

/-- The square of an affine function grows quadratically. -/
theorem affine_sq (c : ℝ) (u x : Fin d → ℝ) :
    (c - ∑ i, u i * x i) ^ 2 ≤ 2 * (c ^ 2 + (∑ i, |u i|) ^ 2) * (1 + ‖x‖ ^ 2) := by
  have h := abs_dot_le u x
  have h1 : (∑ i, u i * x i) ^ 2 ≤ ((∑ i, |u i|) * ‖x‖) ^ 2 := by
    rw [← sq_abs]; gcongr
  have h2 : (c - ∑ i, u i * x i) ^ 2 ≤ 2 * c ^ 2 + 2 * (∑ i, u i * x i) ^ 2 := by
    nlinarith [sq_nonneg (c + ∑ i, u i * x i)]
  have : 0 ≤ c ^ 2 * ‖x‖ ^ 2 := by positivity
  have : 0 ≤ (∑ i, |u i|) ^ 2 := by positivity
  nlinarith

theorem measurable_affine (c : ℝ) (u : Fin d → ℝ) : Measurable fun x : Fin d → ℝ => c - ∑ i, u i * x i := by
  fun_prop

/-- Product rule for prior times likelihood. -/
theorem fderiv_joint (hr : Spec.SmoothPrior r) (hp : Spec.SmoothModel p) (o : D) (x v : Fin d → ℝ) :
    fderiv ℝ (fun x => r x * p o x) x v = r x * fderiv ℝ (p o) x v + p o x * fderiv ℝ r x v := by
  rw [fderiv_fun_mul (hr.diff x) (hp.diff o x)]
  simp

theorem measurable_fderiv (f : (Fin d → ℝ) → ℝ) (v : Fin d → ℝ) :
    Measurable fun x => fderiv ℝ f x v := measurable_fderiv_apply_const ℝ f v

/-- The derivative of the prior, times an affine function, is integrable. -/
theorem integrable_affine_deriv (hr : Spec.SmoothPrior r) (c : ℝ) (u v : Fin d → ℝ) :
    Integrable fun x => (c - ∑ i, u i * x i) * fderiv ℝ r x v := by
  have h1 : Integrable fun x => (c - ∑ i, u i * x i) ^ 2 * r x :=
    integrable_quad hr _ ((measurable_affine c u).pow_const 2)
      (2 * (c ^ 2 + (∑ i, |u i|) ^ 2)) fun x => by
        rw [abs_of_nonneg (sq_nonneg _)]; exact affine_sq c u x
  refine (h1.add (hr.info v)).mono'
    ((measurable_affine c u).mul (measurable_fderiv r v)).aestronglyMeasurable
    (Filter.Eventually.of_forall fun x => ?_)
  obtain ⟨a, ha⟩ : ∃ a, a = c - ∑ i, u i * x i := ⟨_, rfl⟩
  obtain ⟨b, hb⟩ : ∃ b, b = fderiv ℝ r x v := ⟨_, rfl⟩
  simp only [Pi.add_apply, ← ha, ← hb, Real.norm_eq_abs]
  rcases (hr.nonneg x).eq_or_lt with h0 | h0
  · have : b = 0 := by rw [hb, fderiv_of_zero hr.nonneg x h0.symm]; rfl
    simp [this, ← h0]
  · rw [abs_mul]
    have h2 : 2 * (|a| * |b|) ≤ a ^ 2 * r x + b ^ 2 / r x := by
      rw [← sub_nonneg]
      have : a ^ 2 * r x + b ^ 2 / r x - 2 * (|a| * |b|) = (|a| * r x - |b|) ^ 2 / r x := by
        rw [← sq_abs a, ← sq_abs b]; field_simp; ring
      rw [this]; positivity
    have : 0 ≤ |a| * |b| := by positivity
    linarith

theorem integrable_joint (hr : Spec.SmoothPrior r) (hp : Spec.SmoothModel p) (o : D) :
    Integrable fun x => r x * p o x := by
  refine hr.int.mono' (hr.diff.continuous.mul (hp.diff o).continuous).aestronglyMeasurable
    (Filter.Eventually.of_forall fun x => ?_)
  rw [Real.norm_eq_abs, abs_of_nonneg (mul_nonneg (hr.nonneg x) (hp.nonneg o x))]
  exact mul_le_of_le_one_right (hr.nonneg x) (le_one hp o x)

theorem abs_deriv_le (hp : Spec.SmoothModel p) (o : D) (v : Fin d → ℝ) :
    ∃ C, 0 ≤ C ∧ ∀ x, |fderiv ℝ (p o) x v| ≤ C := by
  obtain ⟨C, hC0, hC⟩ := bound' hp o
  refine ⟨Real.sqrt (C * ‖v‖ ^ 2), Real.sqrt_nonneg _, fun x => Real.abs_le_sqrt ?_⟩
  refine (hC x v).trans (mul_le_of_le_one_right (by positivity) (le_one hp o x))

theorem integrable_affine_joint_deriv (hr : Spec.SmoothPrior r) (hp : Spec.SmoothModel p) (o : D)
    (c : ℝ) (u v : Fin d → ℝ) :
    Integrable fun x => (c - ∑ i, u i * x i) * fderiv ℝ (fun x => r x * p o x) x v := by
  obtain ⟨C, hC0, hC⟩ := abs_deriv_le hp o v
  have h1 : Integrable fun x => ((c - ∑ i, u i * x i) * fderiv ℝ (p o) x v) * r x := by
    refine integrable_quad hr _ ((measurable_affine c u).mul (measurable_fderiv (p o) v))
      ((2 * (c ^ 2 + (∑ i, |u i|) ^ 2) + 1) * C) fun x => ?_
    rw [abs_mul]
    have h2 := affine_sq c u x
    have h3 : |c - ∑ i, u i * x i| ≤ (c - ∑ i, u i * x i) ^ 2 + 1 := by
      rw [← sq_abs]; nlinarith [sq_nonneg (|c - ∑ i, u i * x i| - 1), abs_nonneg (c - ∑ i, u i * x i)]
    have h4 : |c - ∑ i, u i * x i| ≤ (2 * (c ^ 2 + (∑ i, |u i|) ^ 2) + 1) * (1 + ‖x‖ ^ 2) := by
      nlinarith [sq_nonneg ‖x‖]
    calc |c - ∑ i, u i * x i| * |fderiv ℝ (p o) x v|
        ≤ ((2 * (c ^ 2 + (∑ i, |u i|) ^ 2) + 1) * (1 + ‖x‖ ^ 2)) * C := by
          gcongr
          exact hC x
      _ = _ := by ring
  have h2 : Integrable fun x => ((c - ∑ i, u i * x i) * fderiv ℝ r x v) * p o x := by
    refine (integrable_affine_deriv hr c u v).norm.mono'
      (((measurable_affine c u).mul (measurable_fderiv r v)).mul
        (hp.diff o).continuous.measurable).aestronglyMeasurable
      (Filter.Eventually.of_forall fun x => ?_)
    rw [norm_mul, Real.norm_eq_abs (p o x), abs_of_nonneg (hp.nonneg o x)]
    exact mul_le_of_le_one_right (norm_nonneg _) (le_one hp o x)
  refine (h1.add h2).congr (Filter.Eventually.of_forall fun x => ?_)
  simp only [Pi.add_apply]
  rw [fderiv_joint hr hp o x v]
  ring

theorem integrable_affine_joint (hr : Spec.SmoothPrior r) (hp : Spec.SmoothModel p) (o : D)
    (c : ℝ) (u : Fin d → ℝ) :
    Integrable fun x => (c - ∑ i, u i * x i) * (r x * p o x) := by
  have h1 : Integrable fun x => ((c - ∑ i, u i * x i) * p o x) * r x := by
    refine integrable_quad hr _ ((measurable_affine c u).mul (hp.diff o).continuous.measurable)
      (2 * (c ^ 2 + (∑ i, |u i|) ^ 2) + 1) fun x => ?_
    rw [abs_mul, abs_of_nonneg (hp.nonneg o x)]
    have h2 := affine_sq c u x
    have h3 : |c - ∑ i, u i * x i| ≤ (c - ∑ i, u i * x i) ^ 2 + 1 := by
      rw [← sq_abs]; nlinarith [sq_nonneg (|c - ∑ i, u i * x i| - 1), abs_nonneg (c - ∑ i, u i * x i)]
    refine (mul_le_of_le_one_right (abs_nonneg _) (le_one hp o x)).trans ?_
    nlinarith [sq_nonneg ‖x‖]
  exact h1.congr (Filter.Eventually.of_forall fun x => by ring)

theorem integrable_sq_joint (hr : Spec.SmoothPrior r) (hp : Spec.SmoothModel p) (o : D)
    (c : ℝ) (u : Fin d → ℝ) :
    Integrable fun x => (c - ∑ i, u i * x i) ^ 2 * (r x * p o x) := by
  have h1 : Integrable fun x => ((c - ∑ i, u i * x i) ^ 2 * p o x) * r x := by
    refine integrable_quad hr _
      (((measurable_affine c u).pow_const 2).mul (hp.diff o).continuous.measurable)
      (2 * (c ^ 2 + (∑ i, |u i|) ^ 2)) fun x => ?_
    rw [abs_mul, abs_of_nonneg (hp.nonneg o x), abs_of_nonneg (sq_nonneg _)]
    exact (mul_le_of_le_one_right (sq_nonneg _) (le_one hp o x)).trans (affine_sq c u x)
  exact h1.congr (Filter.Eventually.of_forall fun x => by ring)

theorem fderiv_affine (c : ℝ) (u x v : Fin d → ℝ) :
    fderiv ℝ (fun x : Fin d → ℝ => c - ∑ i, u i * x i) x v = -∑ i, u i * v i := by
  have h : HasFDerivAt (fun x : Fin d → ℝ => c - ∑ i, u i * x i)
      (-(∑ i, u i • ContinuousLinearMap.proj (R := ℝ) (φ := fun _ : Fin d => ℝ) i)) x := by
    have h1 : HasFDerivAt (fun x : Fin d → ℝ => ∑ i, u i * x i)
        (∑ i, u i • ContinuousLinearMap.proj (R := ℝ) (φ := fun _ : Fin d => ℝ) i) x := by
      have := (∑ i, u i • ContinuousLinearMap.proj (R := ℝ) (φ := fun _ : Fin d => ℝ) i).hasFDerivAt (x := x)
      refine this.congr_of_eventuallyEq (Filter.Eventually.of_forall fun y => ?_)
      simp
    exact h1.const_sub c
  rw [h.fderiv]
  simp

/-- Integration by parts. -/
theorem parts (hr : Spec.SmoothPrior r) (hp : Spec.SmoothModel p) (o : D) (c : ℝ)
    (u v : Fin d → ℝ) :
    ∫ x, (c - ∑ i, u i * x i) * fderiv ℝ (fun x => r x * p o x) x v =
      (∑ i, u i * v i) * ∫ x, r x * p o x := by
  have hd : Differentiable ℝ fun x : Fin d → ℝ => c - ∑ i, u i * x i := by fun_prop
  have hg : Differentiable ℝ fun x => r x * p o x := hr.diff.mul (hp.diff o)
  rw [integral_mul_fderiv_eq_neg_fderiv_mul_of_integrable (μ := volume) (v := v)
    (f := fun x => c - ∑ i, u i * x i) (g := fun x => r x * p o x)]
  · simp only [fderiv_affine]
    rw [integral_const_mul]
    ring
  · simp only [fderiv_affine]
    exact (integrable_joint hr hp o).const_mul _
  · exact integrable_affine_joint_deriv hr hp o c u v
  · exact integrable_affine_joint hr hp o c u
  · exact fun x _ => hd x
  · exact fun x _ => hg x

/-- The information of prior and likelihood together at one point. -/
theorem joint_info (hr : Spec.SmoothPrior r) (hp : Spec.SmoothModel p) (o : D) (x v : Fin d → ℝ) :
    (fderiv ℝ (fun x => r x * p o x) x v) ^ 2 / (r x * p o x) =
      (fderiv ℝ r x v) ^ 2 / r x * p o x + 2 * (fderiv ℝ r x v * fderiv ℝ (p o) x v) +
        (fderiv ℝ (p o) x v) ^ 2 / p o x * r x := by
  rw [fderiv_joint hr hp o x v]
  rcases (hr.nonneg x).eq_or_lt with h0 | h0
  · have : fderiv ℝ r x v = 0 := by rw [fderiv_of_zero hr.nonneg x h0.symm]; rfl
    simp [this, ← h0]
  rcases (hp.nonneg o x).eq_or_lt with h1 | h1
  · have : fderiv ℝ (p o) x v = 0 := by rw [fderiv_of_zero (hp.nonneg o) x h1.symm]; rfl
    simp [this, ← h1]
  · field_simp
    ring

theorem integrable_prior_deriv (hr : Spec.SmoothPrior r) (v : Fin d → ℝ) :
    Integrable fun x => fderiv ℝ r x v := by
  have := integrable_affine_deriv hr 1 0 v
  simpa using this

theorem integrable_joint_info (hr : Spec.SmoothPrior r) (hp : Spec.SmoothModel p) (o : D)
    (v : Fin d → ℝ) :
    (Integrable fun x => (fderiv ℝ r x v) ^ 2 / r x * p o x) ∧
    (Integrable fun x => 2 * (fderiv ℝ r x v * fderiv ℝ (p o) x v)) ∧
    (Integrable fun x => (fderiv ℝ (p o) x v) ^ 2 / p o x * r x) := by
  obtain ⟨C, hC0, hC⟩ := abs_deriv_le hp o v
  obtain ⟨B, hB0, hB⟩ := bound' hp o
  refine ⟨?_, ?_, ?_⟩
  · refine (hr.info v).mono' ((((measurable_fderiv r v).pow_const 2).div
      hr.diff.continuous.measurable).mul (hp.diff o).continuous.measurable).aestronglyMeasurable
      (Filter.Eventually.of_forall fun x => ?_)
    have h0 : 0 ≤ (fderiv ℝ r x v) ^ 2 / r x := div_nonneg (sq_nonneg _) (hr.nonneg x)
    rw [Real.norm_eq_abs, abs_of_nonneg (mul_nonneg h0 (hp.nonneg o x))]
    exact mul_le_of_le_one_right h0 (le_one hp o x)
  · refine ((integrable_prior_deriv hr v).norm.const_mul (2 * C)).mono'
      (((measurable_fderiv r v).mul (measurable_fderiv (p o) v)).const_mul 2).aestronglyMeasurable
      (Filter.Eventually.of_forall fun x => ?_)
    rw [norm_mul, norm_mul, Real.norm_eq_abs (2 : ℝ), abs_two, Real.norm_eq_abs (fderiv ℝ (p o) x v)]
    have := hC x
    have h0 : 0 ≤ ‖fderiv ℝ r x v‖ := norm_nonneg _
    nlinarith
  · refine integrable_quad hr _ (((measurable_fderiv (p o) v).pow_const 2).div
      (hp.diff o).continuous.measurable) (B * ‖v‖ ^ 2) fun x => ?_
    rw [abs_of_nonneg (div_nonneg (sq_nonneg _) (hp.nonneg o x))]
    have h2 : (fderiv ℝ (p o) x v) ^ 2 / p o x ≤ B * ‖v‖ ^ 2 := by
      rcases (hp.nonneg o x).eq_or_lt with h1 | h1
      · rw [← h1, div_zero]; positivity
      · rw [div_le_iff₀ h1]; exact hB x v
    nlinarith [sq_nonneg ‖x‖, mul_nonneg hB0 (sq_nonneg ‖v‖),
      mul_nonneg (mul_nonneg hB0 (sq_nonneg ‖v‖)) (sq_nonneg ‖x‖)]

theorem integral_add3 {f g h : (Fin d → ℝ) → ℝ} (hf : Integrable f) (hg : Integrable g)
    (hh : Integrable h) :
    ∫ x, (f x + g x + h x) = (∫ x, f x) + (∫ x, g x) + ∫ x, h x := by
  have h1 : Integrable fun x => f x + g x := hf.add hg
  rw [integral_add h1 hh, integral_add hf hg]

/-- Derivatives of the probabilities add up to zero. -/
theorem sum_deriv (hp : Spec.SmoothModel p) (x v : Fin d → ℝ) : ∑ o, fderiv ℝ (p o) x v = 0 := by
  have h1 : fderiv ℝ (fun x => ∑ o, p o x) x = ∑ o, fderiv ℝ (p o) x :=
    fderiv_fun_sum fun o _ => hp.diff o x
  have h2 : (fun x => ∑ o, p o x) = fun _ => 1 := funext hp.total
  rw [h2] at h1
  have h3 := congrArg (fun f => f v) h1
  simpa using h3.symm

/-- **The van Trees inequality**, for every linear function of the parameters, every estimate of it
from the outcome, and every direction. -/
theorem van_trees (hr : Spec.SmoothPrior r) (hp : Spec.SmoothModel p) (c : D → ℝ)
    (u v : Fin d → ℝ) :
    (∑ i, u i * v i) ^ 2 ≤
      (∑ o, ∫ x, (c o - ∑ i, u i * x i) ^ 2 * (r x * p o x)) *
        ((∫ x, (fderiv ℝ r x v) ^ 2 / r x) +
          ∑ o, ∫ x, (fderiv ℝ (p o) x v) ^ 2 / p o x * r x) := by
  obtain ⟨A, hA⟩ : ∃ A, A = ∑ o, ∫ x, (c o - ∑ i, u i * x i) ^ 2 * (r x * p o x) := ⟨_, rfl⟩
  obtain ⟨J, hJ⟩ : ∃ J, J = (∫ x, (fderiv ℝ r x v) ^ 2 / r x) +
      ∑ o, ∫ x, (fderiv ℝ (p o) x v) ^ 2 / p o x * r x := ⟨_, rfl⟩
  rw [← hA, ← hJ]
  have hint := fun o => integrable_joint_info hr hp o v
  have hB : ∑ o, ∫ x, (c o - ∑ i, u i * x i) * fderiv ℝ (fun x => r x * p o x) x v =
      ∑ i, u i * v i := by
    simp_rw [parts hr hp]
    rw [← Finset.mul_sum, ← integral_finsetSum _ fun o _ => integrable_joint hr hp o]
    have : ∀ x, ∑ o, r x * p o x = r x := fun x => by rw [← Finset.mul_sum, hp.total, mul_one]
    simp_rw [this]
    rw [hr.total, mul_one]
  have hJ' : ∑ o, ∫ x, (fderiv ℝ (fun x => r x * p o x) x v) ^ 2 / (r x * p o x) = J := by
    simp_rw [joint_info hr hp]
    have h1 : ∀ o, ∫ x, ((fderiv ℝ r x v) ^ 2 / r x * p o x +
        2 * (fderiv ℝ r x v * fderiv ℝ (p o) x v) + (fderiv ℝ (p o) x v) ^ 2 / p o x * r x) =
        (∫ x, (fderiv ℝ r x v) ^ 2 / r x * p o x) +
          (∫ x, 2 * (fderiv ℝ r x v * fderiv ℝ (p o) x v)) +
          ∫ x, (fderiv ℝ (p o) x v) ^ 2 / p o x * r x := by
      intro o
      exact integral_add3 (hint o).1 (hint o).2.1 (hint o).2.2
    simp_rw [h1]
    rw [Finset.sum_add_distrib, Finset.sum_add_distrib, hJ,
      ← integral_finsetSum _ fun o _ => (hint o).1, ← integral_finsetSum _ fun o _ => (hint o).2.1]
    have h2 : ∀ x, ∑ o, (fderiv ℝ r x v) ^ 2 / r x * p o x = (fderiv ℝ r x v) ^ 2 / r x :=
      fun x => by rw [← Finset.mul_sum, hp.total, mul_one]
    have h3 : ∀ x, ∑ o, 2 * (fderiv ℝ r x v * fderiv ℝ (p o) x v) = 0 := fun x => by
      rw [← Finset.mul_sum, ← Finset.mul_sum, sum_deriv hp, mul_zero, mul_zero]
    simp_rw [h2, h3]
    simp
  have hq : ∀ t : ℝ, 0 ≤ A * (t * t) + 2 * (∑ i, u i * v i) * t + J := by
    intro t
    have h1 : ∀ o, 0 ≤ ∫ x, (t ^ 2 * ((c o - ∑ i, u i * x i) ^ 2 * (r x * p o x)) +
        2 * t * ((c o - ∑ i, u i * x i) * fderiv ℝ (fun x => r x * p o x) x v) +
        (fderiv ℝ (fun x => r x * p o x) x v) ^ 2 / (r x * p o x)) := by
      intro o
      refine integral_nonneg fun x => ?_
      have hg : ∀ x, 0 ≤ r x * p o x := fun x => mul_nonneg (hr.nonneg x) (hp.nonneg o x)
      obtain ⟨a, ha⟩ : ∃ a, a = c o - ∑ i, u i * x i := ⟨_, rfl⟩
      obtain ⟨b, hb⟩ : ∃ b, b = fderiv ℝ (fun x => r x * p o x) x v := ⟨_, rfl⟩
      simp only [Pi.zero_apply, ← ha, ← hb]
      rcases (hg x).eq_or_lt with h0 | h0
      · have : b = 0 := by
          rw [hb, fderiv_of_zero (f := fun x => r x * p o x) hg x h0.symm]; rfl
        simp [this, ← h0]
      · have : t ^ 2 * (a ^ 2 * (r x * p o x)) + 2 * t * (a * b) + b ^ 2 / (r x * p o x) =
            (t * a * (r x * p o x) + b) ^ 2 / (r x * p o x) := by
          obtain ⟨g, hgg⟩ : ∃ g, g = r x * p o x := ⟨_, rfl⟩
          rw [← hgg] at h0 ⊢
          field_simp
          ring
        rw [this]; positivity
    have h2 := Finset.sum_nonneg fun o (_ : o ∈ Finset.univ) => h1 o
    have h3 : ∀ o, ∫ x, (t ^ 2 * ((c o - ∑ i, u i * x i) ^ 2 * (r x * p o x)) +
        2 * t * ((c o - ∑ i, u i * x i) * fderiv ℝ (fun x => r x * p o x) x v) +
        (fderiv ℝ (fun x => r x * p o x) x v) ^ 2 / (r x * p o x)) =
        t ^ 2 * (∫ x, (c o - ∑ i, u i * x i) ^ 2 * (r x * p o x)) +
        2 * t * (∫ x, (c o - ∑ i, u i * x i) * fderiv ℝ (fun x => r x * p o x) x v) +
        ∫ x, (fderiv ℝ (fun x => r x * p o x) x v) ^ 2 / (r x * p o x) := by
      intro o
      have i1 : Integrable fun x => t ^ 2 * ((c o - ∑ i, u i * x i) ^ 2 * (r x * p o x)) :=
        (integrable_sq_joint hr hp o (c o) u).const_mul _
      have i2 : Integrable fun x =>
          2 * t * ((c o - ∑ i, u i * x i) * fderiv ℝ (fun x => r x * p o x) x v) :=
        (integrable_affine_joint_deriv hr hp o (c o) u v).const_mul _
      have i3 : Integrable fun x => (fderiv ℝ (fun x => r x * p o x) x v) ^ 2 / (r x * p o x) := by
        simp_rw [joint_info hr hp]
        exact ((hint o).1.add (hint o).2.1).add (hint o).2.2
      rw [integral_add3 i1 i2 i3, integral_const_mul, integral_const_mul]
    simp_rw [h3] at h2
    rw [Finset.sum_add_distrib, Finset.sum_add_distrib, ← Finset.mul_sum, ← Finset.mul_sum, hB, hJ',
      ← hA] at h2
    linarith
  have h4 := discrim_le_zero hq
  unfold discrim at h4
  nlinarith

end VanTrees
end QInfer
