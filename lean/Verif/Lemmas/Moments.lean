import Mathlib.Probability.Distributions.Beta
import Mathlib.Probability.Distributions.Gamma
import Mathlib.MeasureTheory.Function.L1Space.Integrable
import Mathlib.RingTheory.Polynomial.Bernstein
import Mathlib.Tactic.FieldSimp
import Mathlib.Tactic.Ring
import Mathlib.Tactic.Linarith

/-! # First and second moments of the beta and gamma measures -/

namespace QInfer

open MeasureTheory ProbabilityTheory Real

/-! ## Beta -/

theorem betaPDFReal_nonneg' {a b : ℝ} (ha : 0 < a) (hb : 0 < b) (x : ℝ) : 0 ≤ betaPDFReal a b x := by
  by_cases h : 0 < x ∧ x < 1
  · exact (betaPDFReal_pos h.1 h.2 ha hb).le
  · rw [betaPDFReal, if_neg h]

theorem integral_betaPDFReal {a b : ℝ} (ha : 0 < a) (hb : 0 < b) : ∫ x, betaPDFReal a b x = 1 := by
  rw [integral_eq_lintegral_of_nonneg_ae (.of_forall (betaPDFReal_nonneg' ha hb))
    (stronglyMeasurable_betaPDFReal a b).aestronglyMeasurable]
  have := lintegral_betaPDF_eq_one ha hb
  unfold betaPDF at this
  rw [this, ENNReal.toReal_one]

theorem betaMeasure_integral {a b : ℝ} (ha : 0 < a) (hb : 0 < b) (f : ℝ → ℝ) :
    ∫ x, f x ∂(betaMeasure a b) = ∫ x, betaPDFReal a b x * f x := by
  unfold betaMeasure
  rw [integral_withDensity_eq_integral_toReal_smul]
  · apply integral_congr_ae
    refine .of_forall fun x => ?_
    simp only [betaPDF, ENNReal.toReal_ofReal (betaPDFReal_nonneg' ha hb x), smul_eq_mul]
  · exact (measurable_betaPDFReal a b).ennreal_ofReal
  · exact .of_forall fun x => ENNReal.ofReal_lt_top

theorem beta_succ {a b : ℝ} (ha : 0 < a) (hb : 0 < b) :
    beta (a + 1) b = a / (a + b) * beta a b := by
  unfold beta
  rw [Real.Gamma_add_one ha.ne', show a + 1 + b = (a + b) + 1 by ring,
    Real.Gamma_add_one (by positivity)]
  have := (Real.Gamma_pos_of_pos (add_pos ha hb)).ne'
  have : a + b ≠ 0 := by positivity
  field_simp

theorem betaPDF_mul {a b : ℝ} (ha : 0 < a) (hb : 0 < b) (x : ℝ) :
    betaPDFReal a b x * x = a / (a + b) * betaPDFReal (a + 1) b x := by
  unfold betaPDFReal
  by_cases h : 0 < x ∧ x < 1
  · rw [if_pos h, if_pos h, beta_succ ha hb]
    have hb0 := (beta_pos ha hb).ne'
    have : a + b ≠ 0 := by positivity
    have hx : x ^ (a + 1 - 1) = x ^ (a - 1) * x := by
      rw [show a + 1 - 1 = (a - 1) + 1 by ring, Real.rpow_add_one h.1.ne']
    rw [hx]
    field_simp
  · rw [if_neg h, if_neg h]; simp

theorem beta_mean {a b : ℝ} (ha : 0 < a) (hb : 0 < b) :
    ∫ x, x ∂(betaMeasure a b) = a / (a + b) := by
  rw [betaMeasure_integral ha hb]
  simp_rw [betaPDF_mul ha hb]
  rw [integral_const_mul, integral_betaPDFReal (by linarith) hb, mul_one]

theorem beta_second {a b : ℝ} (ha : 0 < a) (hb : 0 < b) :
    ∫ x, x ^ 2 ∂(betaMeasure a b) = a * (a + 1) / ((a + b) * (a + b + 1)) := by
  rw [betaMeasure_integral ha hb]
  have : ∀ x : ℝ, betaPDFReal a b x * x ^ 2 =
      (a / (a + b) * ((a + 1) / (a + 1 + b))) * betaPDFReal (a + 1 + 1) b x := by
    intro x
    rw [pow_two, ← mul_assoc, betaPDF_mul ha hb, mul_assoc, betaPDF_mul (by linarith) hb]
    ring
  simp_rw [this]
  rw [integral_const_mul, integral_betaPDFReal (by linarith) hb, mul_one,
    show a + 1 + b = a + b + 1 by ring]
  field_simp

theorem beta_integrable {a b : ℝ} (ha : 0 < a) (hb : 0 < b) :
    Integrable (fun x : ℝ => x) (betaMeasure a b) ∧
    Integrable (fun x : ℝ => x ^ 2) (betaMeasure a b) := by
  constructor
  · apply Integrable.of_integral_ne_zero
    rw [beta_mean ha hb]; positivity
  · apply Integrable.of_integral_ne_zero
    rw [beta_second ha hb]; positivity

/-! ## Gamma -/

theorem integral_gammaPDFReal {a r : ℝ} (ha : 0 < a) (hr : 0 < r) : ∫ x, gammaPDFReal a r x = 1 := by
  rw [integral_eq_lintegral_of_nonneg_ae (.of_forall (gammaPDFReal_nonneg ha hr))
    (stronglyMeasurable_gammaPDFReal a r).aestronglyMeasurable]
  have := lintegral_gammaPDF_eq_one ha hr
  unfold gammaPDF at this
  rw [this, ENNReal.toReal_one]

theorem gammaMeasure_integral {a r : ℝ} (ha : 0 < a) (hr : 0 < r) (f : ℝ → ℝ) :
    ∫ x, f x ∂(gammaMeasure a r) = ∫ x, gammaPDFReal a r x * f x := by
  unfold gammaMeasure
  rw [integral_withDensity_eq_integral_toReal_smul]
  · apply integral_congr_ae
    refine .of_forall fun x => ?_
    simp only [gammaPDF, ENNReal.toReal_ofReal (gammaPDFReal_nonneg ha hr x), smul_eq_mul]
  · exact (measurable_gammaPDFReal a r).ennreal_ofReal
  · exact .of_forall fun x => ENNReal.ofReal_lt_top

theorem gammaPDF_mul {a r : ℝ} (ha : 0 < a) (hr : 0 < r) {x : ℝ} (hx : x ≠ 0) :
    gammaPDFReal a r x * x = a / r * gammaPDFReal (a + 1) r x := by
  unfold gammaPDFReal
  by_cases h : 0 ≤ x
  · rw [if_pos h, if_pos h, Real.Gamma_add_one ha.ne', Real.rpow_add_one hr.ne']
    have hx' : x ^ (a + 1 - 1) = x ^ (a - 1) * x := by
      rw [show a + 1 - 1 = (a - 1) + 1 by ring, Real.rpow_add_one hx]
    rw [hx']
    have := (Real.Gamma_pos_of_pos ha).ne'
    field_simp
  · rw [if_neg h, if_neg h]; simp

theorem ae_ne_zero : ∀ᵐ x : ℝ, x ≠ 0 := by
  rw [ae_iff]
  simp

theorem gamma_mean {a r : ℝ} (ha : 0 < a) (hr : 0 < r) :
    ∫ x, x ∂(gammaMeasure a r) = a / r := by
  rw [gammaMeasure_integral ha hr,
    integral_congr_ae (ae_ne_zero.mono fun x hx => gammaPDF_mul ha hr hx),
    integral_const_mul, integral_gammaPDFReal (by linarith) hr, mul_one]

theorem gamma_second {a r : ℝ} (ha : 0 < a) (hr : 0 < r) :
    ∫ x, x ^ 2 ∂(gammaMeasure a r) = a * (a + 1) / r ^ 2 := by
  rw [gammaMeasure_integral ha hr]
  have : ∀ᵐ x : ℝ, gammaPDFReal a r x * x ^ 2 =
      (a / r * ((a + 1) / r)) * gammaPDFReal (a + 1 + 1) r x := by
    refine ae_ne_zero.mono fun x hx => ?_
    rw [pow_two, ← mul_assoc, gammaPDF_mul ha hr hx, mul_assoc, gammaPDF_mul (by linarith) hr hx]
    ring
  rw [integral_congr_ae this, integral_const_mul, integral_gammaPDFReal (by linarith) hr, mul_one]
  field_simp

theorem gamma_integrable {a r : ℝ} (ha : 0 < a) (hr : 0 < r) :
    Integrable (fun x : ℝ => x) (gammaMeasure a r) ∧
    Integrable (fun x : ℝ => x ^ 2) (gammaMeasure a r) := by
  constructor
  · apply Integrable.of_integral_ne_zero
    rw [gamma_mean ha hr]; positivity
  · apply Integrable.of_integral_ne_zero
    rw [gamma_second ha hr]; positivity

/-- Second central moment from the first two moments. -/
theorem central_second (μ : Measure ℝ) [IsProbabilityMeasure μ] (c m s : ℝ)
    (h1 : Integrable (fun x : ℝ => x) μ) (h2 : Integrable (fun x : ℝ => x ^ 2) μ)
    (hm : ∫ x, x ∂μ = m) (hs : ∫ x, x ^ 2 ∂μ = s) :
    ∫ x, (x - c) ^ 2 ∂μ = s - 2 * c * m + c ^ 2 := by
  have : ∀ x : ℝ, (x - c) ^ 2 = x ^ 2 - (2 * c) * x + c ^ 2 := fun x => by ring
  simp_rw [this]
  rw [integral_add, integral_sub h2 (h1.const_mul _), integral_const_mul, hm, hs]
  · simp
  · exact h2.sub (h1.const_mul _)
  · exact integrable_const _

/-! ## Binomial -/

theorem binomial_mean (n : ℕ) (p : ℝ) :
    ∑ k ∈ Finset.range (n + 1), (k : ℝ) * (n.choose k * p ^ k * (1 - p) ^ (n - k)) = n * p := by
  have := congrArg (Polynomial.eval p) (bernsteinPolynomial.sum_smul ℝ n)
  simp only [Polynomial.eval_finset_sum, bernsteinPolynomial, nsmul_eq_mul] at this
  simpa using this

theorem binomial_factorial (n : ℕ) (p : ℝ) :
    ∑ k ∈ Finset.range (n + 1), ((k * (k - 1) : ℕ) : ℝ) * (n.choose k * p ^ k * (1 - p) ^ (n - k))
      = (n * (n - 1) : ℕ) * p ^ 2 := by
  have := congrArg (Polynomial.eval p) (bernsteinPolynomial.sum_mul_smul ℝ n)
  simp only [Polynomial.eval_finset_sum, bernsteinPolynomial, nsmul_eq_mul] at this
  simpa using this

theorem binomial_total (n : ℕ) (p : ℝ) :
    ∑ k ∈ Finset.range (n + 1), (n.choose k * p ^ k * (1 - p) ^ (n - k)) = 1 := by
  have := congrArg (Polynomial.eval p) (bernsteinPolynomial.sum ℝ n)
  simp only [Polynomial.eval_finset_sum, bernsteinPolynomial] at this
  simpa using this

theorem binomial_central (n : ℕ) (p c : ℝ) :
    ∑ k ∈ Finset.range (n + 1), ((k : ℝ) - c) ^ 2 * (n.choose k * p ^ k * (1 - p) ^ (n - k))
      = (n : ℝ) * (n - 1) * p ^ 2 + (1 - 2 * c) * (n * p) + c ^ 2 := by
  have h : ∀ k : ℕ, ((k : ℝ) - c) ^ 2 * (n.choose k * p ^ k * (1 - p) ^ (n - k)) =
      ((k * (k - 1) : ℕ) : ℝ) * (n.choose k * p ^ k * (1 - p) ^ (n - k)) +
      (1 - 2 * c) * ((k : ℝ) * (n.choose k * p ^ k * (1 - p) ^ (n - k))) +
      c ^ 2 * (n.choose k * p ^ k * (1 - p) ^ (n - k)) := by
    intro k
    have : ((k * (k - 1) : ℕ) : ℝ) = (k : ℝ) * (k - 1) := by
      cases k with
      | zero => simp
      | succ k => simp
    rw [this]; ring
  simp_rw [h]
  rw [Finset.sum_add_distrib, Finset.sum_add_distrib, ← Finset.mul_sum, ← Finset.mul_sum,
    binomial_factorial, binomial_mean, binomial_total]
  have : ((n * (n - 1) : ℕ) : ℝ) = (n : ℝ) * (n - 1) := by
    cases n with
    | zero => simp
    | succ k => simp
  rw [this]; ring

end QInfer
