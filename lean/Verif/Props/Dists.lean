import Verif.Model.Dists
import Verif.Lemmas.Moments
import Mathlib.Algebra.BigOperators.Group.List.Basic
import Mathlib.Data.List.Basic
import Mathlib.Algebra.Order.Ring.Rat
import Mathlib.Algebra.Field.Rat

/-! # C42, C43, C44: moments, constrained sums, products and mixtures -/

set_option linter.unusedSectionVars false

namespace QInfer

open MeasureTheory ProbabilityTheory

/-! ## C42 -/

/-- **C42, Beta from moments.**  For every mean in `(0,1)` and variance in `(0, mean(1-mean))` the
constructor succeeds with positive shape parameters, and the beta measure with those parameters has
exactly the requested mean and variance. -/
theorem C42_beta_from_moments (m v : ℝ) (hm0 : 0 < m) (hm1 : m < 1) (hv : 0 < v)
    (hv1 : v < m * (1 - m)) (a b : Option ℝ) (hab : a = none ∨ b = none) :
    ∃ p, betaInit a b (some m) (some v) = .ok p ∧ p.mean = m ∧ p.var = v ∧
      0 < p.alpha ∧ 0 < p.beta ∧
      ∫ x, x ∂(betaMeasure p.alpha p.beta) = m ∧
      ∫ x, (x - m) ^ 2 ∂(betaMeasure p.alpha p.beta) = v := by
  have h1m : 0 < 1 - m := by linarith
  have hinit : betaInit a b (some m) (some v) =
      .ok ⟨m ^ 2 * (1 - m) / v - m, (1 - m) ^ 2 * m / v - (1 - m), m, v⟩ := by
    rcases hab with rfl | rfl
    · cases b <;> simp [betaInit, pyDiv, hv.ne'] <;> rfl
    · cases a <;> simp [betaInit, pyDiv, hv.ne'] <;> rfl
  have ha : m ^ 2 * (1 - m) / v - m = m * ((m * (1 - m) - v) / v) := by field_simp
  have hb : (1 - m) ^ 2 * m / v - (1 - m) = (1 - m) * ((m * (1 - m) - v) / v) := by field_simp
  have hc : 0 < (m * (1 - m) - v) / v := div_pos (by linarith) hv
  have hapos : 0 < m ^ 2 * (1 - m) / v - m := by rw [ha]; positivity
  have hbpos : 0 < (1 - m) ^ 2 * m / v - (1 - m) := by rw [hb]; positivity
  refine ⟨_, hinit, rfl, rfl, hapos, hbpos, ?_, ?_⟩
  · rw [beta_mean hapos hbpos, ha, hb]
    generalize (m * (1 - m) - v) / v = c at hc
    rw [show m * c + (1 - m) * c = c by ring]
    field_simp
  · have := isProbabilityMeasureBeta hapos hbpos
    obtain ⟨i1, i2⟩ := beta_integrable hapos hbpos
    rw [central_second _ m _ _ i1 i2 (beta_mean hapos hbpos) (beta_second hapos hbpos), ha, hb]
    have hcv : (m * (1 - m) - v) / v = m * (1 - m) / v - 1 := by field_simp
    generalize hcdef : (m * (1 - m) - v) / v = c at hc
    have hvc : v = m * (1 - m) / (c + 1) := by
      have : c + 1 = m * (1 - m) / v := by rw [← hcdef, hcv]; ring
      rw [this]; field_simp
    have hc1 : c + 1 ≠ 0 := by positivity
    rw [show m * c + (1 - m) * c = c by ring]
    conv_rhs => rw [hvc]
    field_simp
    ring

/-- **C42, inadmissible variances.**  For a mean in `(0,1)`, shape parameters that come out positive
come from a variance in `(0, mean(1-mean))`; a zero variance raises `ZeroDivisionError`. -/
theorem C42_beta_admissible (m v : ℝ) (hm0 : 0 < m) (hm1 : m < 1) :
    (∀ p, betaInit none none (some m) (some v) = .ok p → 0 < p.alpha → 0 < v ∧ v < m * (1 - m)) ∧
    betaInit none none (some m) (some 0) = .error .zeroDivisionError := by
  refine ⟨?_, by simp [betaInit, pyDiv]; rfl⟩
  intro p hp ha
  by_cases hv : v = 0
  · simp [betaInit, pyDiv, hv] at hp; cases hp
  simp only [betaInit, pyDiv, if_neg hv] at hp
  cases hp
  simp only at ha
  have h1 : m ^ 2 * (1 - m) / v - m = m * ((m * (1 - m) - v) / v) := by field_simp
  rw [h1] at ha
  have h1m : 0 < m * (1 - m) := mul_pos hm0 (by linarith)
  rcases div_pos_iff.1 ((mul_pos_iff_of_pos_left hm0).1 ha) with ⟨h2, h3⟩ | ⟨h2, h3⟩
  · exact ⟨h3, by linarith⟩
  · linarith

/-- **C42, Beta from shapes.**  With positive shape parameters given, the stored `mean` and `var` are
those of the distribution; `mean` and `var` arguments are ignored. -/
theorem C42_beta_from_shapes (a b : ℝ) (ha : 0 < a) (hb : 0 < b) (m v : Option ℝ) :
    ∃ p, betaInit (some a) (some b) m v = .ok p ∧ p.alpha = a ∧ p.beta = b ∧
      ∫ x, x ∂(betaMeasure a b) = p.mean ∧ ∫ x, (x - p.mean) ^ 2 ∂(betaMeasure a b) = p.var := by
  have hab : a + b ≠ 0 := by positivity
  have hab2 : (a + b) ^ 2 * (a + b + 1) ≠ 0 := by positivity
  refine ⟨⟨a, b, a / (a + b), a * b / ((a + b) ^ 2 * (a + b + 1))⟩, ?_, rfl, rfl,
    beta_mean ha hb, ?_⟩
  · simp only [betaInit, pyDiv, if_neg hab, if_neg hab2]; rfl
  · have := isProbabilityMeasureBeta ha hb
    obtain ⟨i1, i2⟩ := beta_integrable ha hb
    rw [central_second _ _ _ _ i1 i2 (beta_mean ha hb) (beta_second ha hb)]
    have : a + b + 1 ≠ 0 := by positivity
    field_simp
    ring

/-- **C42, Gamma from moments.**  For every positive mean and variance the constructor succeeds, and
samples (a standard gamma variable of the chosen shape divided by `beta`) have exactly that mean and
variance. -/
theorem C42_gamma_from_moments (m v : ℝ) (hm : 0 < m) (hv : 0 < v) (a b : Option ℝ)
    (hab : a = none ∨ b = none) :
    ∃ p, gammaInit a b (some m) (some v) = .ok p ∧ p.mean = m ∧ p.var = v ∧
      0 < p.alpha ∧ 0 < p.beta ∧
      ∫ x, gammaSample p x ∂(gammaMeasure p.alpha 1) = m ∧
      ∫ x, (gammaSample p x - m) ^ 2 ∂(gammaMeasure p.alpha 1) = v := by
  have hinit : gammaInit a b (some m) (some v) = .ok ⟨m ^ 2 / v, m / v, m, v⟩ := by
    rcases hab with rfl | rfl
    · cases b <;> simp [gammaInit, pyDiv, hv.ne'] <;> rfl
    · cases a <;> simp [gammaInit, pyDiv, hv.ne'] <;> rfl
  have ha : 0 < m ^ 2 / v := by positivity
  have hb : 0 < m / v := by positivity
  refine ⟨_, hinit, rfl, rfl, ha, hb, ?_, ?_⟩
  · simp only [gammaSample, div_eq_mul_inv _ (m / v)]
    rw [integral_mul_const, gamma_mean ha one_pos]
    field_simp
  · have := isProbabilityMeasure_gammaMeasure ha one_pos
    obtain ⟨i1, i2⟩ := gamma_integrable ha one_pos
    have hq : ∀ x : ℝ, (gammaSample ⟨m ^ 2 / v, m / v, m, v⟩ x - m) ^ 2 =
        (v / m) ^ 2 * (x - m ^ 2 / v) ^ 2 := by
      intro x; simp only [gammaSample]; field_simp
    simp_rw [hq]
    rw [integral_const_mul, central_second _ _ _ _ i1 i2 (gamma_mean ha one_pos)
      (gamma_second ha one_pos)]
    field_simp
    ring

/-- **C42, Gamma from shapes.** -/
theorem C42_gamma_from_shapes (a b : ℝ) (ha : 0 < a) (hb : 0 < b) (m v : Option ℝ) :
    ∃ p, gammaInit (some a) (some b) m v = .ok p ∧ p.alpha = a ∧ p.beta = b ∧
      ∫ x, gammaSample p x ∂(gammaMeasure a 1) = p.mean ∧
      ∫ x, (gammaSample p x - p.mean) ^ 2 ∂(gammaMeasure a 1) = p.var := by
  have hb2 : b ^ 2 ≠ 0 := by positivity
  refine ⟨⟨a, b, a / b, a / b ^ 2⟩, ?_, rfl, rfl, ?_, ?_⟩
  · simp only [gammaInit, pyDiv, if_neg hb.ne', if_neg hb2]; rfl
  · simp only [gammaSample, div_eq_mul_inv _ b]
    rw [integral_mul_const, gamma_mean ha one_pos]
    field_simp
  · have := isProbabilityMeasure_gammaMeasure ha one_pos
    obtain ⟨i1, i2⟩ := gamma_integrable ha one_pos
    have hq : ∀ x : ℝ, (gammaSample ⟨a, b, a / b, a / b ^ 2⟩ x - a / b) ^ 2 =
        (1 / b) ^ 2 * (x - a) ^ 2 := by
      intro x; simp only [gammaSample]; field_simp
    simp_rw [hq]
    rw [integral_const_mul, central_second _ _ _ _ i1 i2 (gamma_mean ha one_pos)
      (gamma_second ha one_pos)]
    field_simp
    ring

/-- Expectation of a function of a beta-binomial variable: the bias is drawn from the beta measure,
then the count from the binomial law (distributions.py 1078-1082). -/
noncomputable def betaBinomialMean (n : ℕ) (a b : ℝ) (f : ℕ → ℝ) : ℝ :=
  ∫ p, (∑ k ∈ Finset.range (n + 1), f k * (n.choose k * p ^ k * (1 - p) ^ (n - k))) ∂(betaMeasure a b)

theorem betaBinomial_moments (n : ℕ) {a b : ℝ} (ha : 0 < a) (hb : 0 < b) (c : ℝ) :
    betaBinomialMean n a b (fun k => k) = n * (a / (a + b)) ∧
    betaBinomialMean n a b (fun k => ((k : ℝ) - c) ^ 2) =
      (n : ℝ) * (n - 1) * (a * (a + 1) / ((a + b) * (a + b + 1))) +
        (1 - 2 * c) * (n * (a / (a + b))) + c ^ 2 := by
  have := isProbabilityMeasureBeta ha hb
  obtain ⟨i1, i2⟩ := beta_integrable ha hb
  constructor
  · unfold betaBinomialMean
    simp_rw [binomial_mean]
    rw [integral_const_mul, beta_mean ha hb]
  · unfold betaBinomialMean
    simp_rw [binomial_central]
    rw [integral_add, integral_add, integral_const_mul, integral_const_mul, integral_const_mul,
      beta_mean ha hb, beta_second ha hb]
    · simp
    · exact i2.const_mul _
    · exact (i1.const_mul _).const_mul _
    · exact (i2.const_mul _).add ((i1.const_mul _).const_mul _)
    · exact integrable_const _

/-- **C42, beta-binomial from moments.**  For `0 < mean < n` and a variance strictly between that of
the binomial law, `mean(n-mean)/n`, and the largest possible one, `mean(n-mean)`, the constructor
succeeds with positive shapes, and the compound distribution has exactly that mean and variance.
For any other variance the shapes are not both positive (or the constructor divides by zero). -/
theorem C42_beta_binomial_from_moments (n : ℕ) (m v : ℝ) (hm0 : 0 < m) (hm1 : m < n)
    (a b : Option ℝ) (hab : a = none ∨ b = none) :
    (m * (n - m) < n * v → v < m * (n - m) →
      ∃ p, betaBinomialInit (n : ℝ) a b (some m) (some v) = .ok p ∧ p.mean = m ∧ p.var = v ∧
        0 < p.alpha ∧ 0 < p.beta ∧
        betaBinomialMean n p.alpha p.beta (fun k => k) = m ∧
        betaBinomialMean n p.alpha p.beta (fun k => ((k : ℝ) - m) ^ 2) = v) ∧
    (∀ p, betaBinomialInit (n : ℝ) a b (some m) (some v) = .ok p → 0 < p.alpha → 0 < p.beta →
      m * (n - m) < n * v ∧ v < m * (n - m)) := by
  have hnm : 0 < (n : ℝ) - m := by linarith
  have hn : (0 : ℝ) < n := by linarith
  have hinit : betaBinomialInit (n : ℝ) a b (some m) (some v) = (do
      let q ← pyDiv (-m * (v + m ^ 2 - n * m)) (m ^ 2 + n * (v - m))
      let r ← pyDiv ((n - m) * (v + m ^ 2 - n * m)) ((n - m) * m - n * v)
      .ok ⟨q, r, m, v⟩) := by
    rcases hab with rfl | rfl
    · cases b <;> rfl
    · cases a <;> rfl
  have hd1 : m ^ 2 + n * (v - m) = n * v - m * (n - m) := by ring
  have hd2 : (n - m) * m - n * v = -(n * v - m * (n - m)) := by ring
  constructor
  · intro hlo hhi
    have hD : 0 < n * v - m * (n - m) := by linarith
    have hN : 0 < m * (n - m) - v := by linarith
    have h1 : m ^ 2 + n * (v - m) ≠ 0 := by rw [hd1]; exact hD.ne'
    have h2 : (n - m) * m - n * v ≠ 0 := by rw [hd2]; exact neg_ne_zero.2 hD.ne'
    have hok : betaBinomialInit (n : ℝ) a b (some m) (some v) =
        .ok ⟨-m * (v + m ^ 2 - n * m) / (m ^ 2 + n * (v - m)),
          (n - m) * (v + m ^ 2 - n * m) / ((n - m) * m - n * v), m, v⟩ := by
      rw [hinit]; simp only [pyDiv, if_neg h1, if_neg h2]; rfl
    have ha : -m * (v + m ^ 2 - n * m) / (m ^ 2 + n * (v - m)) =
        m * ((m * (n - m) - v) / (n * v - m * (n - m))) := by
      rw [hd1, mul_div_assoc']; congr 1; ring
    have hb : (n - m) * (v + m ^ 2 - n * m) / ((n - m) * m - n * v) =
        (n - m) * ((m * (n - m) - v) / (n * v - m * (n - m))) := by
      rw [hd2, mul_div_assoc', div_neg, ← neg_div]; congr 1; ring
    have hc : 0 < (m * (n - m) - v) / (n * v - m * (n - m)) := div_pos hN hD
    have hcv : ((m * (n - m) - v) / (n * v - m * (n - m))) * (n * v - m * (n - m)) =
        m * (n - m) - v := div_mul_cancel₀ _ hD.ne'
    refine ⟨_, hok, rfl, rfl, ?_⟩
    simp only
    rw [ha, hb]
    generalize (m * (n - m) - v) / (n * v - m * (n - m)) = c at hc hcv
    have hsum : m * c + (n - m) * c = n * c := by ring
    have hap : 0 < m * c := by positivity
    have hbp : 0 < (n - m) * c := by positivity
    obtain ⟨e1, e2⟩ := betaBinomial_moments n hap hbp m
    refine ⟨hap, hbp, ?_, ?_⟩
    · rw [e1, hsum]; field_simp
    · rw [e2, hsum]
      have hnc : (n : ℝ) * c + 1 ≠ 0 := by positivity
      have hv : v = m * (n - m) * (1 + c) / (n * c + 1) := by
        field_simp; linarith
      rw [hv]
      field_simp
      ring
  · intro p hp hap hbp
    rw [hinit] at hp
    by_cases h1 : m ^ 2 + n * (v - m) = 0
    · simp [pyDiv, h1] at hp; cases hp
    have h2 : (n - m) * m - n * v ≠ 0 := by
      rw [hd2, ← hd1]; exact neg_ne_zero.2 h1
    simp only [pyDiv, if_neg h1, if_neg h2] at hp
    cases hp
    simp only at hap hbp
    have hap' : 0 < (m * (n - m) - v) / (n * v - m * (n - m)) := by
      have : -m * (v + m ^ 2 - n * m) / (m ^ 2 + n * (v - m)) =
          m * ((m * (n - m) - v) / (n * v - m * (n - m))) := by
        rw [hd1, mul_div_assoc']; congr 1; ring
      rw [this] at hap
      exact (mul_pos_iff_of_pos_left hm0).1 hap
    rcases div_pos_iff.1 hap' with ⟨hN, hD⟩ | ⟨hN, hD⟩
    · exact ⟨by linarith, by linarith⟩
    · exfalso
      -- variance above the maximum and below the binomial one cannot both hold
      have hge : m * (n - m) < v := by linarith
      have hn1 : (1 : ℝ) ≤ n := by
        have : 1 ≤ n := by
          rcases Nat.eq_zero_or_pos n with h | h
          · rw [h] at hn; simp at hn
          · exact h
        exact_mod_cast this
      have hvpos : 0 < v := lt_trans (by positivity) hge
      have : v ≤ n * v := le_mul_of_one_le_left hvpos.le hn1
      linarith

/-- **C42, beta-binomial from shapes.** -/
theorem C42_beta_binomial_from_shapes (n : ℕ) (a b : ℝ) (ha : 0 < a) (hb : 0 < b)
    (m v : Option ℝ) :
    ∃ p, betaBinomialInit (n : ℝ) (some a) (some b) m v = .ok p ∧ p.alpha = a ∧ p.beta = b ∧
      betaBinomialMean n a b (fun k => k) = p.mean ∧
      betaBinomialMean n a b (fun k => ((k : ℝ) - p.mean) ^ 2) = p.var := by
  have hab : a + b ≠ 0 := by positivity
  have hab2 : (a + b) ^ 2 * (a + b + 1) ≠ 0 := by positivity
  refine ⟨⟨a, b, n * a / (a + b), n * a * b * (a + b + n) / ((a + b) ^ 2 * (a + b + 1))⟩,
    ?_, rfl, rfl, ?_, ?_⟩
  · simp only [betaBinomialInit, pyDiv, if_neg hab, if_neg hab2]; rfl
  · rw [(betaBinomial_moments n ha hb 0).1]; ring
  · rw [(betaBinomial_moments n ha hb _).2]
    have : a + b + 1 ≠ 0 := by positivity
    field_simp
    ring

/-- **C42, incomplete parameters.**  Each constructor raises `ValueError` exactly if neither pair is
complete. -/
theorem C42_incomplete (n : ℝ) (a b m v : Option ℝ) :
    let complete := (a.isSome ∧ b.isSome) ∨ (m.isSome ∧ v.isSome)
    (betaInit a b m v = .error .valueError ↔ ¬ complete) ∧
    (betaBinomialInit n a b m v = .error .valueError ↔ ¬ complete) ∧
    (gammaInit a b m v = .error .valueError ↔ ¬ complete) := by
  have hd : ∀ x y : ℝ, (∃ z, pyDiv x y = .ok z) ∨ pyDiv x y = .error .zeroDivisionError := by
    intro x y
    unfold pyDiv
    split
    · exact Or.inr rfl
    · exact Or.inl ⟨_, rfl⟩
  have two : ∀ (x y z w : ℝ) (f : ℝ → ℝ → ShapeParams ℝ), (do
      let q ← pyDiv x y
      let r ← pyDiv z w
      .ok (f q r) : Except PyErr (ShapeParams ℝ)) ≠ .error .valueError := by
    intro x y z w f
    rcases hd x y with ⟨q, h⟩ | h <;> rw [h]
    · rcases hd z w with ⟨r, h'⟩ | h' <;> rw [h']
      · intro hc; cases hc
      · intro hc; cases hc
    · intro hc; cases hc
  intro complete
  have err : (Except.error PyErr.valueError : Except PyErr (ShapeParams ℝ)) = .error .valueError := rfl
  refine ⟨?_, ?_, ?_⟩ <;>
  · cases a <;> cases b <;> cases m <;> cases v <;>
      first
        | exact iff_of_true rfl (by simp [complete])
        | exact iff_of_false (two _ _ _ _ (fun q r => ⟨_, _, q, r⟩)) (by simp [complete])
        | exact iff_of_false (two _ _ _ _ (fun q r => ⟨q, r, _, _⟩)) (by simp [complete])
        | exact iff_of_false (two _ _ _ _ (fun q r => ⟨q - _, r - _, _, _⟩)) (by simp [complete])

/-- Case for C42. -/
example :
    (betaInit (K := ℚ) none none (some (1/2)) (some (1/12))).toOption = some ⟨1, 1, 1/2, 1/12⟩ ∧
    (gammaInit (K := ℚ) none none (some 6) (some 12)).toOption = some ⟨3, 1/2, 6, 12⟩ ∧
    (betaBinomialInit (K := ℚ) 2 none none (some 1) (some (2/3))).toOption
      = some ⟨1, 1, 1, 2/3⟩ := by decide +kernel

/-! ## C43 -/

section
variable {K : Type} [Field K] [LinearOrder K] [IsStrictOrderedRing K]

theorem sum_map_scale (c t : K) (s : List K) : (s.map fun x => c * x / t).sum = c * s.sum / t := by
  induction s with
  | nil => simp
  | cons a s ih => rw [List.map_cons, List.sum_cons, List.sum_cons, ih]; ring

/-- **C43.**  For an underlying sample with non-zero sum the result is a proper vector `r`, a multiple
of the sample by a factor with the sign of `desired_total`; it sums to `desired_total` if the
underlying sum is positive and to minus `desired_total` if it is negative.  If the sum is zero every
entry is NaN. -/
theorem C43_constrained_row (desired : K) (s : List K) :
    (s.sum ≠ 0 → ∃ (r : List K) (c : K), constrainRow desired s = r.map some ∧
      r = s.map (fun x => c * x) ∧ c = desired / |s.sum| ∧
      (0 < s.sum → r.sum = desired) ∧ (s.sum < 0 → r.sum = -desired)) ∧
    (s.sum = 0 → ∀ x ∈ constrainRow desired s, x = none) := by
  constructor
  · intro h
    refine ⟨s.map (fun x => desired / |s.sum| * x), desired / |s.sum|, ?_, rfl, rfl, ?_, ?_⟩
    · unfold constrainRow
      dsimp only
      rw [List.map_map]
      apply List.map_congr_left
      intro x _
      rw [if_neg h]
      simp only [Function.comp, Option.some.injEq]
      rcases lt_or_gt_of_ne h with h' | h'
      · rw [npSign, if_neg (not_lt.2 h'.le), if_pos h', abs_of_neg h']
        field_simp
      · rw [npSign, if_pos h', abs_of_pos h']
        field_simp
    · intro h'
      rw [List.sum_map_mul_left, List.map_id', abs_of_pos h']
      field_simp
    · intro h'
      rw [List.sum_map_mul_left, List.map_id', abs_of_neg h']
      field_simp
  · intro h x hx
    unfold constrainRow at hx
    simp only [h, if_true, List.mem_map] at hx
    obtain ⟨_, -, rfl⟩ := hx
    rfl

/-- **C43, sampling.**  `sample(n)` transforms each row of the underlying sample. -/
theorem C43_sample {ω : Type} (ud : Sampler K ω) (desired : K) (seed : ω) (n : Nat)
    (hn : (ud seed n).1.length = n) :
    (constrainedSample ud desired seed n).1.length = n ∧
    ∀ (i : Nat) (r : List K), (ud seed n).1[i]? = some r → 0 < r.sum →
      ∃ r' : List K, (constrainedSample ud desired seed n).1[i]? = some (r'.map some) ∧ r'.sum = desired ∧
        r'.length = r.length ∧ ∀ (j k : Nat) (hj : j < r.length) (hk : k < r.length)
          (hj' : j < r'.length) (hk' : k < r'.length), r'[j] * r[k] = r'[k] * r[j] := by
  constructor
  · simp [constrainedSample, hn]
  · intro i r hr hpos
    obtain ⟨r', c, h1, h2, -, h3, -⟩ := (C43_constrained_row desired r).1 hpos.ne'
    refine ⟨r', by simp [constrainedSample, hr, h1], h3 hpos, by rw [h2]; simp, ?_⟩
    intro j k hj hk hj' hk'
    simp only [h2, List.getElem_map]
    ring

/-- Case for C43: a positive, a negative and a vanishing sum. -/
example : constrainRow (3 : ℚ) [1, 3] = [some (3/4), some (9/4)] ∧
    constrainRow (3 : ℚ) [1, -3] = [some (3/2), some (-9/2)] ∧
    constrainRow (3 : ℚ) [1, -1] = [none, none] := by decide +kernel

end

/-! ## C44 -/

section
variable {K ω : Type}

/-- The distribution returns `n` rows of `n_rvs` entries when asked for `n`. -/
def Dist.Proper (d : Dist K ω) : Prop :=
  ∀ seed n, (d.sample seed n).1.length = n ∧ ∀ r ∈ (d.sample seed n).1, r.length = d.nRvs

theorem drawAll_length (n : Nat) (fs : List (Dist K ω)) (seed : ω) :
    (drawAll n fs seed).1.length = fs.length := by
  induction fs generalizing seed with
  | nil => rfl
  | cons f fs ih => simp [drawAll, ih]

/-- Row `i` of factor `j`'s draw. -/
def rowOf (ss : List (List (List K))) (i : Nat) : List (List K) := ss.map fun s => s.getD i []

theorem hstack_spec (n : Nat) (ss : List (List (List K))) (hne : ss ≠ [])
    (hlen : ∀ s ∈ ss, s.length = n) :
    ∃ rows, hstack ss = .ok rows ∧ rows.length = n ∧
      ∀ i < n, rows[i]? = some (rowOf ss i).flatten := by
  induction ss with
  | nil => exact absurd rfl hne
  | cons s ss ih =>
    have hs := hlen s (by simp)
    cases ss with
    | nil =>
      refine ⟨s, rfl, hs, ?_⟩
      intro i hi
      have : i < s.length := by omega
      simp [rowOf, this]
    | cons s' ss' =>
      obtain ⟨rows, h1, h2, h3⟩ := ih (by simp) (fun t ht => hlen t (by simp [ht]))
      refine ⟨List.zipWith (· ++ ·) s rows, ?_, by simp [hs, h2], ?_⟩
      · rw [hstack, h1]
        · show (if s.length = rows.length then _ else _) = _
          rw [if_pos (by omega)]
        · simp
      · intro i hi
        have hi' : i < s.length := by omega
        have := h3 i hi
        rw [List.getElem?_zipWith, this]
        simp [rowOf, hi']

/-- **C44, product.**  The product of one or more proper factors has `n_rvs` the sum of the factors',
and `sample(n)` gives `n` rows, row `i` the concatenation of row `i` of each factor's draw, factors
drawing in order; every row has `n_rvs` entries. -/
theorem C44_product (fs : List (Dist K ω)) (hne : fs ≠ []) (hp : ∀ f ∈ fs, f.Proper) (seed : ω)
    (n : Nat) :
    ∃ rows, (productSample fs seed n).1 = .ok rows ∧ rows.length = n ∧
      (∀ i < n, rows[i]? = some (rowOf (drawAll n fs seed).1 i).flatten) ∧
      (∀ r ∈ rows, r.length = productNRvs fs) := by
  have hdraw : ∀ s ∈ (drawAll n fs seed).1, s.length = n := by
    clear hne
    induction fs generalizing seed with
    | nil => intro s hs; simp [drawAll] at hs
    | cons f fs ih =>
      intro s hs
      simp only [drawAll, List.mem_cons] at hs
      rcases hs with rfl | hs
      · exact (hp f (by simp) seed n).1
      · exact ih (fun g hg => hp g (by simp [hg])) _ s hs
  have hrow : ∀ i < n, ((rowOf (drawAll n fs seed).1 i).flatten).length = productNRvs fs := by
    clear hdraw hne
    induction fs generalizing seed with
    | nil => intro i _; simp [drawAll, rowOf, productNRvs]
    | cons f fs ih =>
      intro i hi
      have := ih (fun g hg => hp g (by simp [hg])) (f.sample seed n).2 i hi
      have hf := hp f (by simp) seed n
      have hlt : i < (f.sample seed n).1.length := by rw [hf.1]; exact hi
      have hr := hf.2 _ (List.getElem_mem hlt)
      simp only [drawAll, rowOf, List.map_cons, List.flatten_cons, List.length_append, productNRvs,
        List.sum_cons]
      rw [show ((drawAll n fs (f.sample seed n).2).1.map fun s => s.getD i []) =
        rowOf (drawAll n fs (f.sample seed n).2).1 i from rfl, this]
      simp [hlt, hr, productNRvs]
  obtain ⟨rows, h1, h2, h3⟩ := hstack_spec n (drawAll n fs seed).1
    (by intro h
        have := drawAll_length n fs seed
        rw [h] at this
        exact hne (List.length_eq_zero_iff.1 this.symm)) hdraw
  refine ⟨rows, h1, h2, h3, ?_⟩
  intro r hr
  obtain ⟨i, hi, rfl⟩ := List.mem_iff_getElem.1 hr
  have := h3 i (by omega)
  rw [List.getElem?_eq_getElem hi, Option.some.injEq] at this
  rw [this]
  exact hrow i (by omega)

/-- **C44, product of unequal draws.**  If two factors return different numbers of rows, drawing from the
product raises `ValueError`; the factors have been drawn from by then. -/
theorem C44_product_unequal (f g : Dist K ω) (seed : ω) (n : Nat)
    (h : (f.sample seed n).1.length ≠ (g.sample (f.sample seed n).2 n).1.length) :
    productSample [f, g] seed n = (.error .valueError, (g.sample (f.sample seed n).2 n).2) := by
  simp [productSample, drawAll, hstack, bind, Except.bind, h]

/-- Case for C44: a distribution that always returns one row beside one that returns as many as asked. -/
example : productSample (K := ℚ) (ω := Unit)
    [⟨1, fun s n => (List.replicate n [2], s)⟩, ⟨1, fun s _ => ([[3]], s)⟩] () 4 =
    (.error .valueError, ()) := C44_product_unequal _ _ _ _ (by simp)

/-- **C44, product arguments.**  A single iterable of distributions means the same as passing them one
by one; without any factor sampling raises `ValueError`.  Among several arguments an iterable is not
unpacked: it stays in place and is no distribution. -/
theorem C44_product_arguments (ds : List (Dist K ω)) (seed : ω) (n : Nat) :
    productInit [.iterable ds] = productInit (ds.map .dist) ∧
    (productSample ([] : List (Dist K ω)) seed n).1 = .error .valueError ∧
    (∀ args : List (ProductArg K ω), 2 ≤ args.length →
      (productInit args).length = args.length ∧
      ∀ i : Nat, args[i]? = some (.iterable ds) → (productInit args)[i]? = some none) := by
  refine ⟨?_, rfl, fun args h => ?_⟩
  swap
  · have e : productInit args = args.map fun a => match a with
        | .dist d => some d
        | .iterable _ => none := by
      unfold productInit
      split
      · simp at h
      · rfl
    rw [e]
    refine ⟨by simp, fun i hi => ?_⟩
    rw [List.getElem?_map, hi]
    rfl
  cases ds with
  | nil => rfl
  | cons d ds => simp [productInit]

theorem drawMix_spec (l : List (Dist K ω × Nat)) (hp : ∀ p ∈ l, p.1.Proper) (seed : ω) :
    ∃ seeds : List ω, seeds.length = l.length ∧
      (drawMix l seed).1.flatten =
        (l.zip seeds).flatMap (fun p => if 0 < p.1.2 then (p.1.1.sample p.2 p.1.2).1 else []) ∧
      (drawMix l seed).1.flatten.length = (l.map fun p => p.2).sum ∧
      ((drawMix l seed).1 = [] ↔ ∀ p ∈ l, p.2 = 0) := by
  induction l generalizing seed with
  | nil => exact ⟨[], rfl, rfl, rfl, by simp [drawMix]⟩
  | cons p l ih =>
    obtain ⟨d, m⟩ := p
    have hd := hp (d, m) (by simp)
    by_cases hm : 0 < m
    · obtain ⟨seeds, h1, h2, h3, -⟩ := ih (fun q hq => hp q (by simp [hq])) (d.sample seed m).2
      refine ⟨seed :: seeds, by simp [h1], ?_, ?_, ?_⟩
      · simp [drawMix, hm, h2]
      · simp only [drawMix, hm, if_true, List.flatten_cons, List.length_append, List.map_cons,
          List.sum_cons, h3]
        rw [(hd seed m).1]
      · simp only [drawMix, hm, if_true]
        constructor
        · intro h; simp at h
        · intro h
          have := h (d, m) (by simp)
          simp at this; omega
    · obtain ⟨seeds, h1, h2, h3, h4⟩ := ih (fun q hq => hp q (by simp [hq])) seed
      refine ⟨seed :: seeds, by simp [h1], ?_, ?_, ?_⟩
      · simp [drawMix, hm, h2]
      · simp only [drawMix, hm, if_false, List.map_cons, List.sum_cons, h3]
        omega
      · simp only [drawMix, hm, if_false, h4, List.mem_cons, forall_eq_or_imp]
        constructor
        · intro h; exact ⟨by omega, h⟩
        · exact fun h => h.2

/-- **C44, mixture.**  For `n ≥ 1`, component counts `ns` (one per component, summing to `n`) and a
shuffle that permutes rows: sampling returns exactly `n` rows, up to order the `ns[k]` rows drawn by
component `k` (in this order when shuffling is off). -/
theorem C44_mixture (mix : Mixture K ω) (hp : ∀ d ∈ mix.comps, d.Proper)
    (multinomial : ω → Nat → List K → List Nat × ω)
    (hm : ∀ seed n, (multinomial seed n mix.weights).1.length = mix.comps.length ∧
      (multinomial seed n mix.weights).1.sum = n)
    (shuffle : ω → List (List K) → List (List K) × ω)
    (hs : ∀ seed l, (shuffle seed l).1.Perm l) (seed : ω) (n : Nat) (hn : 0 < n) :
    let ns := (multinomial seed n mix.weights).1
    ∃ (rows : List (List K)) (seeds : List ω),
      (mixtureSample mix multinomial shuffle seed n).1 = .ok rows ∧ rows.length = n ∧
      seeds.length = mix.comps.length ∧
      rows.Perm ((((mix.comps.zip ns).zip seeds)).flatMap fun p =>
        if 0 < p.1.2 then (p.1.1.sample p.2 p.1.2).1 else []) ∧
      (mix.shuffle = false → rows = (((mix.comps.zip ns).zip seeds)).flatMap fun p =>
        if 0 < p.1.2 then (p.1.1.sample p.2 p.1.2).1 else []) := by
  intro ns
  obtain ⟨hlen, hsum⟩ := hm seed n
  obtain ⟨seeds, h1, h2, h3, h4⟩ := drawMix_spec (mix.comps.zip ns)
    (fun p hpm => hp _ (List.of_mem_zip hpm).1) (multinomial seed n mix.weights).2
  have hsnd : (mix.comps.zip ns).map (fun p => p.2) = ns := by
    rw [show (fun p : Dist K ω × Nat => p.2) = Prod.snd from rfl, List.map_snd_zip (by
      show ns.length ≤ _; exact hlen.le)]
  rw [hsnd] at h3
  have hne : (drawMix (mix.comps.zip ns) (multinomial seed n mix.weights).2).1 ≠ [] := by
    intro h
    have hz : ns.sum = 0 := by
      rw [h] at h3; simpa using h3.symm
    have : ns.sum = n := hsum
    omega
  have hcount : (drawMix (mix.comps.zip ns) (multinomial seed n mix.weights).2).1.flatten.length
      = n := by rw [h3]; exact hsum
  have hseeds : seeds.length = mix.comps.length := by
    rw [h1, List.length_zip]
    have : ns.length = mix.comps.length := hlen
    omega
  unfold mixtureSample
  dsimp only
  rw [if_neg hne]
  cases hsh : mix.shuffle with
  | true =>
    have hperm := hs (drawMix (mix.comps.zip ns) (multinomial seed n mix.weights).2).2
      (drawMix (mix.comps.zip ns) (multinomial seed n mix.weights).2).1.flatten
    refine ⟨_, seeds, rfl, by rw [hperm.length_eq]; exact hcount, hseeds, ?_, by simp⟩
    rw [← h2]; exact hperm
  | false =>
    refine ⟨_, seeds, rfl, hcount, hseeds, ?_, ?_⟩
    · rw [h2]
    · intro _; exact h2

/-- **C44, empty draws.**  `sample(0)` of a mixture raises `ValueError` instead of returning an empty
array. -/
theorem C44_mixture_no_rows (mix : Mixture K ω)
    (multinomial : ω → Nat → List K → List Nat × ω)
    (hm : ∀ seed n, (multinomial seed n mix.weights).1.sum = n)
    (shuffle : ω → List (List K) → List (List K) × ω) (seed : ω) :
    (mixtureSample mix multinomial shuffle seed 0).1 = .error .valueError := by
  have hz : ∀ x ∈ (multinomial seed 0 mix.weights).1, x = 0 := by
    have := hm seed 0
    generalize (multinomial seed 0 mix.weights).1 = l at this
    intro x hx
    exact List.sum_eq_zero_iff.1 this x hx
  have : ∀ (l : List (Dist K ω × Nat)) (r : ω), (∀ p ∈ l, p.2 = 0) → (drawMix l r).1 = [] := by
    intro l
    induction l with
    | nil => intro r _; rfl
    | cons p l ih =>
      intro r h
      obtain ⟨d, m⟩ := p
      have hm0 : m = 0 := h (d, m) (by simp)
      subst hm0
      simp only [drawMix, lt_irrefl, if_false]
      exact ih r fun q hq => h q (by simp [hq])
  unfold mixtureSample
  dsimp only
  rw [if_pos (this _ _ fun p hpm => hz _ (List.of_mem_zip hpm).2)]

/-- **C44, construction.**  A non-empty list of as many distributions as weights is accepted as it is;
for a class, one component per row of `dist_args`; a list of the wrong length raises
`AttributeError`, and so does a class with `dist_args=None`, which the documentation allows. -/
theorem C44_mixture_init (weights : List K) (ds : List (Dist K ω)) (make : List K → Dist K ω)
    (args : List (List K)) (sh : Bool) :
    (ds ≠ [] → weights.length = ds.length → ∀ da, ∃ mix, mixtureInit weights (.list ds) da sh = .ok mix ∧
      mix.comps = ds ∧ mix.weights = weights ∧ mix.shuffle = sh) ∧
    (args ≠ [] → weights.length = args.length →
      ∃ mix, mixtureInit weights (.cls make) (some args) sh = .ok mix ∧
      mix.comps = args.map make ∧ mix.weights = weights ∧ mix.shuffle = sh) ∧
    (weights.length ≠ ds.length → mixtureInit weights (.list ds) none sh = .error .attributeError) ∧
    mixtureInit weights (.cls make) none sh = .error .attributeError := by
  refine ⟨?_, ?_, ?_, rfl⟩
  · intro h1 h2 da
    exact ⟨⟨weights, ds, sh⟩, by simp [mixtureInit, h1, h2], rfl, rfl, rfl⟩
  · intro h1 h2
    exact ⟨⟨weights, args.map make, sh⟩, by simp [mixtureInit, h1, h2], rfl, rfl, rfl⟩
  · intro h
    simp [mixtureInit, h]

/-- Case for C44: a counter as generator. -/
example :
    let d : Nat → Dist Nat Nat := fun c =>
      ⟨2, fun r n => ((List.range n).map fun i => [c, r + i], r + n)⟩
    (productSample [d 7, d 8] 0 2).1.toOption = some [[7, 0, 8, 2], [7, 1, 8, 3]] ∧
    (mixtureSample ⟨[0, 0, 0], [d 7, d 8, d 9], false⟩ (fun r n _ => ([n - 1, 0, 1], r))
      (fun r l => (l.reverse, r)) 0 3).1.toOption = some [[7, 0], [7, 1], [9, 2]] := by
  decide +kernel

end

end QInfer
