import Verif.Model.Outcome
import Verif.Props.TestModels
import Mathlib.Analysis.Convex.SpecificFunctions.Basic
import Mathlib.Analysis.SpecialFunctions.Trigonometric.Complex
import Mathlib.NumberTheory.Real.Irrational

/-! # When two likelihoods agree -/

namespace QInfer

/-- An experiment with two outcomes tells two parameter vectors apart if some outcome has different
probabilities. -/
def Spec.ToldApart (p q : ℝ) : Prop := ∃ o : Fin 2, twoOutcome p o.val ≠ twoOutcome q o.val

theorem toldApart_iff (p q : ℝ) : Spec.ToldApart p q ↔ p ≠ q := by
  constructor
  · rintro ⟨o, ho⟩ rfl; exact ho rfl
  · intro h; exact ⟨0, by simpa [twoOutcome] using h⟩

theorem inversion_cos (ω t w : ℝ) : inversionPr0 ω t w = (1 + Real.cos (t * (ω - w))) / 2 := by
  rw [inversionPr0, Real.cos_sq]
  ring_nf

theorem inversion_agree (ω ω' t w : ℝ) :
    ¬ Spec.ToldApart (inversionPr0 ω t w) (inversionPr0 ω' t w) ↔
      Real.cos (t * (ω - w)) = Real.cos (t * (ω' - w)) := by
  rw [toldApart_iff, not_not, inversion_cos, inversion_cos]
  constructor <;> intro h <;> linarith

theorem precession_agree (ω ω' t : ℝ) :
    ¬ Spec.ToldApart (precessionPr0 ω t) (precessionPr0 ω' t) ↔
      Real.cos (t * ω) = Real.cos (t * ω') := by
  rw [precessionPr0, precessionPr0, inversion_agree, sub_zero, sub_zero]

/-- `(1 - x^b) / (1 - x^a)` is strictly increasing on `(0, 1)` for `a < b`. -/
theorem geometric_ratio {a b : ℕ} (ha : 0 < a) (hab : a < b) {p q : ℝ} (hp : 0 ≤ p) (hpq : p < q)
    (hq : q < 1) : (1 - p ^ b) / (1 - p ^ a) < (1 - q ^ b) / (1 - q ^ a) := by
  have hs : (1 : ℝ) < (b : ℝ) / a := by
    rw [one_lt_div (by exact_mod_cast ha)]; exact_mod_cast hab
  have hq0 : 0 < q := lt_of_le_of_lt hp hpq
  have conv := strictConvexOn_rpow hs
  have hpa : p ^ a < q ^ a := pow_lt_pow_left₀ hpq hp ha.ne'
  have hqa : q ^ a < 1 := pow_lt_one₀ hq0.le hq ha.ne'
  have h := conv.secant_strict_mono (a := 1) (x := p ^ a) (y := q ^ a) (by simp)
    (by simpa using pow_nonneg hp a) (by simpa using pow_nonneg hq0.le a)
    (by linarith [hpa.trans hqa] |> ne_of_lt) hqa.ne hpa
  have key : ∀ x : ℝ, 0 ≤ x → (x ^ a) ^ ((b : ℝ) / a) = x ^ b := by
    intro x hx
    rw [← Real.rpow_natCast, ← Real.rpow_mul hx, mul_div_cancel₀ _ (by exact_mod_cast ha.ne'),
      Real.rpow_natCast]
  rw [key p hp, key q hq0.le, Real.one_rpow] at h
  rw [show (1 - p ^ b) / (1 - p ^ a) = (p ^ b - 1) / (p ^ a - 1) by
      rw [← neg_div_neg_eq]; ring_nf,
    show (1 - q ^ b) / (1 - q ^ a) = (q ^ b - 1) / (q ^ a - 1) by
      rw [← neg_div_neg_eq]; ring_nf]
  exact h

end QInfer
