import Verif.Lemmas.GaussInvariant
import Mathlib.Analysis.SpecialFunctions.PolarCoord
import Mathlib.MeasureTheory.Function.JacobianOneDim
import Mathlib.Analysis.SpecialFunctions.Gamma.Basic
import Mathlib.Analysis.SpecialFunctions.ImproperIntegrals
import Mathlib.Analysis.SpecialFunctions.Integrals.Basic
import Mathlib.Tactic.FieldSimp
import Mathlib.Tactic.Ring

/-!
# Sums of squares of normal variates
-/

namespace QInfer

open MeasureTheory ProbabilityTheory Set
open scoped ENNReal

/-- The law of a pair of independent standard normal variates. -/
noncomputable def pairLaw : Measure (ℝ × ℝ) := (gaussianReal 0 1).prod (gaussianReal 0 1)

instance : IsProbabilityMeasure pairLaw := by unfold pairLaw; infer_instance

/-- Half the sum of the squares. -/
noncomputable def halfSq (p : ℝ × ℝ) : ℝ := (p.1 ^ 2 + p.2 ^ 2) / 2

theorem halfSq_measurable : Measurable halfSq := by unfold halfSq; fun_prop

/-- The expectation of `h` for the density `s ^ m exp (-s) / m!` on the positive numbers. -/
noncomputable def gammaInt (m : ℕ) (h : ℝ → ℝ≥0∞) : ℝ≥0∞ :=
  ∫⁻ s in Ioi 0, ENNReal.ofReal (s ^ m / m.factorial * Real.exp (-s)) * h s

/-- Half the sum of the squares of two variates has an exponential law. -/
theorem pair_exp (h : ℝ → ℝ≥0∞) (hh : Measurable h) : ∫⁻ p, h (halfSq p) ∂pairLaw = gammaInt 0 h := by
  have hg : gaussianReal 0 1 = volume.withDensity (gaussianPDF 0 1) := gaussianReal_of_var_ne_zero _ one_ne_zero
  have hm : Measurable (gaussianPDF 0 1) := measurable_gaussianPDF 0 1
  have hcomp : Measurable fun p => h (halfSq p) := hh.comp halfSq_measurable
  rw [pairLaw, hg, prod_withDensity hm hm, lintegral_withDensity_eq_lintegral_mul _ (by fun_prop) hcomp, ← Measure.volume_eq_prod, ← lintegral_comp_polarCoord_symm]
  have hval : ∀ p : ℝ × ℝ, ENNReal.ofReal p.1 • (((fun z : ℝ × ℝ => gaussianPDF 0 1 z.1 * gaussianPDF 0 1 z.2) *
      fun a => h (halfSq a)) (polarCoord.symm p)) =
      ENNReal.ofReal p.1 * (ENNReal.ofReal ((2 * Real.pi)⁻¹ * Real.exp (-(p.1 ^ 2 / 2))) * h (p.1 ^ 2 / 2)) := by
    intro p
    have e1 : (p.1 * Real.cos p.2) ^ 2 + (p.1 * Real.sin p.2) ^ 2 = p.1 ^ 2 := by
      rw [mul_pow, mul_pow, ← mul_add, Real.cos_sq_add_sin_sq, mul_one]
    simp only [smul_eq_mul, Pi.mul_apply, polarCoord_symm_apply, halfSq, e1]
    congr 2
    rw [gaussianPDF, gaussianPDF, ← ENNReal.ofReal_mul (gaussianPDFReal_nonneg _ _ _)]
    congr 1
    simp only [gaussianPDFReal, NNReal.coe_one, mul_one, sub_zero]
    rw [mul_mul_mul_comm, ← Real.exp_add, ← mul_inv, Real.mul_self_sqrt (by positivity)]
    congr 2
    rw [← e1]; ring
  simp only [hval]
  have htgt : polarCoord.target = Ioi (0 : ℝ) ×ˢ Ioo (-Real.pi) Real.pi := rfl
  rw [htgt, Measure.volume_eq_prod, setLIntegral_prod]
  · simp only [lintegral_const, Measure.restrict_apply MeasurableSet.univ, univ_inter, Real.volume_Ioo]
    have himg : (fun r : ℝ => r ^ 2 / 2) '' Ioi 0 = Ioi 0 := by
      ext y
      constructor
      · rintro ⟨r, hr, rfl⟩
        have : (0 : ℝ) < r := hr
        simp only [mem_Ioi]; positivity
      · intro hy
        have hy : (0 : ℝ) < y := hy
        refine ⟨Real.sqrt (2 * y), Real.sqrt_pos.2 (by linarith), ?_⟩
        dsimp only
        rw [Real.sq_sqrt (by linarith)]; ring
    unfold gammaInt
    conv_rhs => rw [← himg]
    rw [lintegral_image_eq_lintegral_abs_deriv_mul measurableSet_Ioi (f' := fun r => r)]
    · refine setLIntegral_congr_fun measurableSet_Ioi fun r hr => ?_
      have hr : (0 : ℝ) < r := hr
      rw [abs_of_pos hr, mul_assoc]
      congr 1
      rw [mul_comm (_ * h _), ← mul_assoc, ← ENNReal.ofReal_mul (by linarith [Real.pi_pos])]
      congr 2
      have := Real.pi_pos
      simp
      field_simp
      ring
    · intro r _
      have := ((hasDerivAt_pow 2 r).div_const 2).hasDerivWithinAt (s := Ioi 0)
      refine this.congr_deriv ?_
      simp
    · intro a ha b hb hab
      have ha : (0 : ℝ) < a := ha
      have hb : (0 : ℝ) < b := hb
      dsimp only at hab
      have : a ^ 2 = b ^ 2 := by linarith
      exact (pow_left_inj₀ ha.le hb.le two_ne_zero).1 this
  · apply Measurable.aemeasurable
    fun_prop

theorem lintegral_power (m : ℕ) (y : ℝ) (hy : 0 < y) :
    ∫⁻ x in Ioo 0 y, ENNReal.ofReal ((y - x) ^ m / m.factorial) = ENNReal.ofReal (y ^ (m + 1) / (m + 1).factorial) := by
  rw [← ofReal_integral_eq_lintegral_ofReal]
  · congr 1
    rw [← integral_Ioc_eq_integral_Ioo, ← intervalIntegral.integral_of_le hy.le, intervalIntegral.integral_div,
      intervalIntegral.integral_comp_sub_left (fun x => x ^ m) y, integral_pow, Nat.factorial_succ]
    have : (m.factorial : ℝ) ≠ 0 := by exact_mod_cast m.factorial_ne_zero
    have h2 : (m : ℝ) + 1 ≠ 0 := by positivity
    push_cast
    simp
    field_simp
  · have : Continuous fun x : ℝ => (y - x) ^ m / m.factorial := by fun_prop
    exact (this.integrableOn_Icc (a := 0) (b := y)).mono_set Ioo_subset_Icc_self
  · refine (ae_restrict_iff' measurableSet_Ioo).2 (Filter.Eventually.of_forall fun x hx => ?_)
    have : 0 ≤ y - x := by linarith [hx.2]
    show (0 : ℝ) ≤ (y - x) ^ m / m.factorial
    positivity

/-- Adding an exponential variate raises the order by one. -/
theorem gammaInt_succ (m : ℕ) (h : ℝ → ℝ≥0∞) (hh : Measurable h) :
    gammaInt 0 (fun x => gammaInt m fun s => h (x + s)) = gammaInt (m + 1) h := by
  unfold gammaInt
  obtain ⟨F, hF⟩ : ∃ F : ℝ → ℝ → ℝ≥0∞, F = fun x y =>
    if 0 < x ∧ x < y then ENNReal.ofReal ((y - x) ^ m / m.factorial) * (ENNReal.ofReal (Real.exp (-y)) * h y) else 0 :=
    ⟨_, rfl⟩
  have hFm : Measurable (Function.uncurry F) := by
    rw [hF]
    refine Measurable.ite ?_ ?_ measurable_const
    · exact (measurableSet_lt measurable_const measurable_fst).inter (measurableSet_lt measurable_fst measurable_snd)
    · fun_prop
  have h1 : ∀ x ∈ Ioi (0 : ℝ), ENNReal.ofReal (x ^ 0 / (Nat.factorial 0 : ℕ) * Real.exp (-x)) *
      ∫⁻ s in Ioi 0, ENNReal.ofReal (s ^ m / m.factorial * Real.exp (-s)) * h (x + s) = ∫⁻ y, F x y := by
    intro x hx
    have hx : (0 : ℝ) < x := hx
    rw [← lintegral_const_mul _ (by fun_prop), ← lintegral_add_left_eq_self (fun y => F x y) x,
      ← lintegral_indicator measurableSet_Ioi]
    congr 1
    funext s
    rw [hF]
    dsimp only
    by_cases hs : 0 < s
    · have hs' : s ∈ Ioi (0 : ℝ) := hs
      rw [indicator_of_mem hs', if_pos ⟨hx, by linarith⟩, ← mul_assoc, ← mul_assoc, ← ENNReal.ofReal_mul (by positivity),
        ← ENNReal.ofReal_mul (by rw [add_sub_cancel_left]; positivity)]
      congr 2
      rw [add_sub_cancel_left, neg_add, Real.exp_add]
      simp
      ring
    · have hs' : s ∉ Ioi (0 : ℝ) := hs
      rw [indicator_of_notMem hs', if_neg (by intro h; exact hs (by linarith [h.2]))]
  rw [setLIntegral_congr_fun measurableSet_Ioi h1, lintegral_lintegral_swap hFm.aemeasurable,
    ← lintegral_indicator measurableSet_Ioi]
  congr 1
  funext y
  by_cases hy : 0 < y
  · have hy' : y ∈ Ioi (0 : ℝ) := hy
    rw [indicator_of_mem hy']
    have h2 : ∫⁻ x in Ioi 0, F x y = ∫⁻ x in Ioo 0 y, ENNReal.ofReal ((y - x) ^ m / m.factorial) *
        (ENNReal.ofReal (Real.exp (-y)) * h y) := by
      rw [← lintegral_indicator measurableSet_Ioi, ← lintegral_indicator measurableSet_Ioo]
      congr 1
      funext x
      rw [hF]
      simp only [indicator, mem_Ioi, mem_Ioo]
      split_ifs <;> simp_all
    rw [h2, lintegral_mul_const _ (by fun_prop), lintegral_power m y hy, ← mul_assoc, ← ENNReal.ofReal_mul (by positivity)]
  · have hy' : y ∉ Ioi (0 : ℝ) := hy
    rw [indicator_of_notMem hy']
    have : ∀ x, F x y = 0 := fun x => by
      rw [hF]; exact if_neg fun h => hy (by linarith [h.1, h.2])
    simp [this]

/-- Half the sum of the squares of `2 (m + 1)` variates. -/
theorem sum_gamma (m : ℕ) (h : ℝ → ℝ≥0∞) (hh : Measurable h) :
    ∫⁻ w, h (∑ j, halfSq (w j)) ∂Measure.pi (fun _ : Fin (m + 1) => pairLaw) = gammaInt m h := by
  have hsplit : ∀ (n : ℕ) (h : ℝ → ℝ≥0∞), Measurable h →
      ∫⁻ w, h (∑ j, halfSq (w j)) ∂Measure.pi (fun _ : Fin (n + 1) => pairLaw) =
      ∫⁻ p, (∫⁻ w, h (halfSq p + ∑ j, halfSq (w j)) ∂Measure.pi (fun _ : Fin n => pairLaw)) ∂pairLaw := by
    intro n h hh
    have mp := (measurePreserving_piFinSuccAbove (fun _ : Fin (n + 1) => pairLaw) 0).symm
    have hs : ∀ k, Measurable fun w : Fin k → ℝ × ℝ => ∑ j, halfSq (w j) := fun k =>
      Finset.measurable_sum _ fun j _ => halfSq_measurable.comp (measurable_pi_apply j)
    have hhs : Measurable fun w : Fin (n + 1) → ℝ × ℝ => h (∑ j, halfSq (w j)) := hh.comp (hs _)
    rw [← mp.lintegral_comp hhs, lintegral_prod]
    · refine lintegral_congr fun p => lintegral_congr fun w => ?_
      simp [Fin.sum_univ_succ]
    · exact (hhs.comp mp.measurable).aemeasurable
  induction m generalizing h with
  | zero =>
    rw [hsplit 0 h hh, ← pair_exp h hh]
    refine lintegral_congr fun p => ?_
    simp
  | succ m ih =>
    rw [hsplit (m + 1) h hh, ← gammaInt_succ m h hh]
    have : ∀ p, (∫⁻ w, h (halfSq p + ∑ j, halfSq (w j)) ∂Measure.pi (fun _ : Fin (m + 1) => pairLaw)) =
        gammaInt m fun s => h (halfSq p + s) := fun p => ih (fun s => h (halfSq p + s)) (by fun_prop)
    simp only [this]
    refine pair_exp (fun x => gammaInt m fun s => h (x + s)) ?_
    unfold gammaInt
    exact Measurable.lintegral_prod_right' (f := fun q : ℝ × ℝ =>
      ENNReal.ofReal (q.2 ^ m / m.factorial * Real.exp (-q.2)) * h (q.1 + q.2)) (by fun_prop)

/-- The integral of a power and an exponential function. -/
theorem lintegral_gamma (n : ℕ) (c : ℝ) (hc : 0 < c) :
    ∫⁻ y in Ioi 0, ENNReal.ofReal (y ^ n * Real.exp (-(c * y))) = ENNReal.ofReal (n.factorial / c ^ (n + 1)) := by
  have h1 : ∀ y ∈ Ioi (0 : ℝ), y ^ n * Real.exp (-(c * y)) = y ^ ((n : ℝ) + 1 - 1) * Real.exp (-(c * y)) := by
    intro y _
    rw [add_sub_cancel_right, Real.rpow_natCast]
  have hval : ∫ y in Ioi 0, y ^ n * Real.exp (-(c * y)) = n.factorial / c ^ (n + 1) := by
    rw [setIntegral_congr_fun measurableSet_Ioi h1, Real.integral_rpow_mul_exp_neg_mul_Ioi (by positivity) hc,
      Real.Gamma_nat_eq_factorial, one_div, Real.inv_rpow hc.le]
    rw [show ((n : ℝ) + 1) = ((n + 1 : ℕ) : ℝ) by push_cast; ring, Real.rpow_natCast, div_eq_inv_mul]
  rw [← hval, ← ofReal_integral_eq_lintegral_ofReal]
  · by_contra hni
    have h0 := integral_undef hni
    rw [h0] at hval
    have : (0 : ℝ) < n.factorial / c ^ (n + 1) := by positivity
    linarith
  · refine (ae_restrict_iff' measurableSet_Ioi).2 (Filter.Eventually.of_forall fun y hy => ?_)
    have hy : (0 : ℝ) < y := hy
    show (0 : ℝ) ≤ y ^ n * Real.exp (-(c * y))
    positivity

/-- The ratio of two such sums. -/
theorem ratio_beta (m : ℕ) (g : ℝ → ℝ≥0∞) (hg : Measurable g) :
    gammaInt m (fun y => gammaInt m fun x => g (x / (x + y))) =
      ∫⁻ u in Ioo 0 1, ENNReal.ofReal ((2 * m + 1).factorial / (m.factorial * m.factorial) * u ^ m * (1 - u) ^ m) * g u := by
  unfold gammaInt
  obtain ⟨F, hF⟩ : ∃ F : ℝ → ℝ → ℝ≥0∞, F = fun y w =>
    ENNReal.ofReal (y ^ (2 * m + 1) * Real.exp (-((1 + w) * y))) *
      (ENNReal.ofReal (w ^ m / (m.factorial * m.factorial)) * g (w / (1 + w))) := ⟨_, rfl⟩
  have hFm : Measurable (Function.uncurry F) := by
    rw [hF]; unfold Function.uncurry; fun_prop
  have h1 : ∀ y ∈ Ioi (0 : ℝ), ENNReal.ofReal (y ^ m / m.factorial * Real.exp (-y)) *
      ∫⁻ x in Ioi 0, ENNReal.ofReal (x ^ m / m.factorial * Real.exp (-x)) * g (x / (x + y)) = ∫⁻ w in Ioi 0, F y w := by
    intro y hy
    have hy : (0 : ℝ) < y := hy
    have himg : (fun w : ℝ => w * y) '' Ioi 0 = Ioi 0 := by
      ext x
      constructor
      · rintro ⟨w, hw, rfl⟩
        have : (0 : ℝ) < w := hw
        simp only [mem_Ioi]; positivity
      · intro hx
        have hx : (0 : ℝ) < x := hx
        exact ⟨x / y, div_pos hx hy, div_mul_cancel₀ _ hy.ne'⟩
    rw [← lintegral_const_mul _ (by fun_prop)]
    conv_lhs => rw [← himg]
    rw [lintegral_image_eq_lintegral_abs_deriv_mul measurableSet_Ioi (f' := fun _ => y)]
    · refine setLIntegral_congr_fun measurableSet_Ioi fun w hw => ?_
      have hw : (0 : ℝ) < w := hw
      rw [hF]
      dsimp only
      have e1 : w * y / (w * y + y) = w / (1 + w) := by
        rw [show w * y + y = (1 + w) * y by ring, mul_div_mul_right _ _ hy.ne']
      rw [e1, abs_of_pos hy, ← mul_assoc, ← mul_assoc, ← mul_assoc, ← ENNReal.ofReal_mul hy.le,
        ← ENNReal.ofReal_mul (by positivity), ← ENNReal.ofReal_mul (by positivity)]
      congr 2
      rw [show -((1 + w) * y) = -y + -(w * y) by ring, Real.exp_add]
      field_simp
      ring
    · intro w _
      have := ((hasDerivAt_id w).mul_const y).hasDerivWithinAt (s := Ioi 0)
      refine this.congr_deriv ?_
      simp
    · intro a _ b _ hab
      exact mul_right_cancel₀ hy.ne' hab
  rw [setLIntegral_congr_fun measurableSet_Ioi h1, lintegral_lintegral_swap hFm.aemeasurable]
  have himg : (fun w : ℝ => w / (1 + w)) '' Ioi 0 = Ioo 0 1 := by
    ext u
    constructor
    · rintro ⟨w, hw, rfl⟩
      have hw : (0 : ℝ) < w := hw
      exact ⟨by dsimp only; positivity, by dsimp only; rw [div_lt_one (by linarith)]; linarith⟩
    · rintro ⟨h0, h1⟩
      have : 0 < 1 - u := by linarith
      refine ⟨u / (1 - u), div_pos h0 this, ?_⟩
      dsimp only
      field_simp
      ring
  rw [← himg, lintegral_image_eq_lintegral_abs_deriv_mul measurableSet_Ioi (f' := fun w => 1 / (1 + w) ^ 2)]
  · refine setLIntegral_congr_fun measurableSet_Ioi fun w hw => ?_
    have hw : (0 : ℝ) < w := hw
    have h1w : (0 : ℝ) < 1 + w := by linarith
    have h2 : (0 : ℝ) ≤ 1 - w / (1 + w) := by rw [sub_nonneg, div_le_one h1w]; linarith
    rw [hF]
    dsimp only
    rw [lintegral_mul_const _ (by fun_prop), lintegral_gamma _ _ h1w, abs_of_pos (by positivity), ← mul_assoc,
      ← mul_assoc, ← ENNReal.ofReal_mul (by positivity), ← ENNReal.ofReal_mul (by positivity)]
    congr 2
    have h3 : 1 - w / (1 + w) = 1 / (1 + w) := by field_simp; ring
    rw [h3, div_pow, div_pow, one_pow, show 2 * m + 1 + 1 = 2 + m + m by ring, pow_add, pow_add]
    field_simp
  · intro w hw
    have hw : (0 : ℝ) < w := hw
    have h1w : 1 + w ≠ 0 := by linarith
    have := ((hasDerivAt_id w).div ((hasDerivAt_id w).const_add 1) h1w).hasDerivWithinAt (s := Ioi 0)
    refine this.congr_deriv ?_
    simp
  · intro a ha b hb hab
    have ha : (0 : ℝ) < a := ha
    have hb : (0 : ℝ) < b := hb
    dsimp only at hab
    rw [div_eq_div_iff (by linarith) (by linarith)] at hab
    linarith

end QInfer
