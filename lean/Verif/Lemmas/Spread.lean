import Mathlib.Analysis.Fourier.RiemannLebesgueLemma
import Mathlib.MeasureTheory.Integral.DominatedConvergence
import Mathlib.MeasureTheory.Measure.Lebesgue.Basic

/-!
# Cosines of growing frequency stay away from any given sequence
-/

namespace QInfer

open Filter Topology MeasureTheory Real FourierTransform

/-- The Riemann–Lebesgue lemma for the cosine over a bounded set. -/
theorem cos_mean (B : Set ℝ) (hB : MeasurableSet B) (hfin : volume B ≠ ⊤) :
    Tendsto (fun T : ℝ => ∫ x in B, cos (x * T)) atTop (𝓝 0) := by
  have h := Real.tendsto_integral_exp_smul_cocompact (B.indicator fun _ => (1 : ℂ))
  have h1 : Tendsto (fun T : ℝ => T / (2 * π)) atTop (cocompact ℝ) :=
    (tendsto_id.atTop_div_const (by positivity)).mono_right atTop_le_cocompact
  have h2 := (Complex.continuous_re.tendsto _).comp (h.comp h1)
  rw [Complex.zero_re] at h2
  refine h2.congr fun T => ?_
  simp only [Function.comp_apply]
  have hi : Integrable (fun v : ℝ => 𝐞 (-(v * (T / (2 * π)))) • (B.indicator (fun _ => (1 : ℂ)) v)) := by
    have := (Real.fourierIntegral_convergent_iff (μ := volume) (f := B.indicator fun _ => (1 : ℂ)) (T / (2 * π))).2
      ((integrable_indicator_iff hB).2 (integrableOn_const hfin))
    refine this.congr (ae_of_all _ fun v => ?_)
    simp [mul_comm]
  have h3 := integral_re hi
  rw [← RCLike.re_to_complex, ← h3, ← integral_indicator hB]
  refine integral_congr_ae (ae_of_all _ fun v => ?_)
  by_cases hv : v ∈ B
  · simp only [Set.indicator_of_mem hv, RCLike.re_to_complex, Circle.smul_def, smul_eq_mul, mul_one,
      Real.fourierChar_apply]
    have : ((2 * π * -(v * (T / (2 * π))) : ℝ) : ℂ) * Complex.I = ((-(v * T) : ℝ) : ℂ) * Complex.I := by
      congr 2
      field_simp
    rw [this, Complex.exp_ofReal_mul_I_re, cos_neg]
  · simp [Set.indicator_of_notMem hv]

/-- Along times that tend to infinity, for almost every `x`, `cos (x T)` is again and again away from the
given `c t`, by a quarter in the square. -/
theorem cos_spread (T c : ℕ → ℝ) (hT : Tendsto T atTop atTop) (hc : ∀ t, |c t| ≤ 1) :
    ∀ᵐ x : ℝ, ∀ m, ∃ t, m ≤ t ∧ 1 / 4 < (c t - cos (x * T t)) ^ 2 := by
  rw [ae_all_iff]
  intro m
  obtain ⟨B, hBdef⟩ : ∃ B : ℕ → Set ℝ, ∀ M, B M = Set.Icc (-(M : ℝ)) M ∩
      ⋂ t ∈ Set.Ici m, {x | (c t - cos (x * T t)) ^ 2 ≤ 1 / 4} := ⟨_, fun _ => rfl⟩
  have hclosed : ∀ M, IsClosed (B M) := fun M => by
    rw [hBdef]
    refine isClosed_Icc.inter (isClosed_biInter fun t _ => ?_)
    exact isClosed_le (by fun_prop) continuous_const
  have hsub : ∀ M, B M ⊆ Set.Icc (-(M : ℝ)) M := fun M => by rw [hBdef]; exact Set.inter_subset_left
  have hfin : ∀ M, volume (B M) ≠ ⊤ := fun M =>
    ((measure_mono (hsub M)).trans_lt (by rw [Real.volume_Icc]; exact ENNReal.ofReal_lt_top)).ne
  have hnull : ∀ M, volume (B M) = 0 := by
    intro M
    have hBm := (hclosed M).measurableSet
    have hcos : ∀ a : ℝ, IntegrableOn (fun x : ℝ => cos (x * a)) (B M) := fun a =>
      (Continuous.integrableOn_Icc (by fun_prop)).mono_set (hsub M)
    have hconst : ∀ a : ℝ, IntegrableOn (fun _ : ℝ => a) (B M) := fun a => integrableOn_const (hfin M)
    have e1 : ∀ t, m ≤ t → volume.real (B M) / 4 ≤
        2 * |∫ x in B M, cos (x * T t)| - (∫ x in B M, cos (x * (2 * T t))) / 2 := by
      intro t ht
      have hle : ∫ x in B M, (c t - cos (x * T t)) ^ 2 ≤ ∫ _ in B M, (1 / 4 : ℝ) := by
        refine setIntegral_mono_on ?_ (hconst _) hBm fun x hx => ?_
        · exact (Continuous.integrableOn_Icc (by fun_prop)).mono_set (hsub M)
        · rw [hBdef] at hx
          exact Set.mem_iInter₂.1 hx.2 t ht
      have hexp : ∫ x in B M, (c t - cos (x * T t)) ^ 2 =
          (c t ^ 2 + 1 / 2) * volume.real (B M) - 2 * c t * (∫ x in B M, cos (x * T t)) +
            (∫ x in B M, cos (x * (2 * T t))) / 2 := by
        have : ∀ x : ℝ, (c t - cos (x * T t)) ^ 2 =
            (c t ^ 2 + 1 / 2) - 2 * c t * cos (x * T t) + cos (x * (2 * T t)) / 2 := by
          intro x
          rw [show x * (2 * T t) = 2 * (x * T t) by ring, cos_two_mul]
          ring
        simp only [this]
        have hA : Integrable (fun x : ℝ => c t ^ 2 + 1 / 2 - 2 * c t * cos (x * T t)) (volume.restrict (B M)) :=
          (hconst _).sub ((hcos _).const_mul _)
        rw [integral_add hA ((hcos _).div_const _), integral_sub (hconst _) ((hcos _).const_mul _), integral_const_mul, integral_div]
        simp only [integral_const, smul_eq_mul, measureReal_restrict_apply_univ]
        ring
      have hlow : c t * (∫ x in B M, cos (x * T t)) ≤ |∫ x in B M, cos (x * T t)| := by
        refine (le_abs_self _).trans ?_
        rw [abs_mul]
        exact mul_le_of_le_one_left (abs_nonneg _) (hc t)
      have h4 : ∫ _ in B M, (1 / 4 : ℝ) = volume.real (B M) / 4 := by
        simp only [integral_const, smul_eq_mul, measureReal_restrict_apply_univ]
        ring
      have h5 : 0 ≤ c t ^ 2 * volume.real (B M) := mul_nonneg (sq_nonneg _) measureReal_nonneg
      rw [hexp, h4] at hle
      nlinarith
    have l1 := (cos_mean (B M) hBm (hfin M)).comp hT
    have l2 := (cos_mean (B M) hBm (hfin M)).comp (hT.const_mul_atTop (two_pos : (0 : ℝ) < 2))
    have l3 := (l1.abs.const_mul 2).sub (l2.div_const 2)
    rw [abs_zero, mul_zero, zero_div, sub_zero] at l3
    have h0 : volume.real (B M) / 4 ≤ 0 :=
      ge_of_tendsto l3 (by filter_upwards [eventually_ge_atTop m] with t ht using e1 t ht)
    have h1 : volume.real (B M) = 0 := le_antisymm (by linarith) measureReal_nonneg
    exact (measureReal_eq_zero_iff (hfin M)).1 h1
  have hU : volume (⋃ M, B M) = 0 := measure_iUnion_null hnull
  filter_upwards [measure_eq_zero_iff_ae_notMem.1 hU] with x hx
  by_contra hne
  push Not at hne
  obtain ⟨M, hM⟩ := exists_nat_ge |x|
  refine hx (Set.mem_iUnion.2 ⟨M, ?_⟩)
  rw [hBdef]
  exact ⟨abs_le.1 hM, Set.mem_iInter₂.2 fun t ht => hne t ht⟩

end QInfer
