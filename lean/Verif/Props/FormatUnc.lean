import Verif.Model.Misc
import Mathlib.Analysis.SpecialFunctions.Pow.Real

/-!
# C96: printing a value with its uncertainty

`rnd` is any rounding to a nearest integer.
-/

namespace QInfer

theorem magnitude_ge_one (x : ℝ) (m : ℤ) (hm : 0 ≤ m) (h1 : (10 : ℝ) ^ m ≤ |x|)
    (h2 : |x| < (10 : ℝ) ^ (m + 1)) : magnitude x = m := by
  have h10 : (0 : ℝ) < 10 := by norm_num
  have hx : 0 < |x| := (zpow_pos h10 m).trans_le h1
  have l1 : (m : ℝ) ≤ Real.logb 10 |x| := by
    rw [Real.le_logb_iff_rpow_le (by norm_num) hx, Real.rpow_intCast]; exact h1
  have l2 : Real.logb 10 |x| < m + 1 := by
    have := (Real.logb_lt_iff_lt_rpow (b := 10) (x := |x|) (y := ((m + 1 : ℤ) : ℝ)) (by norm_num) hx).2
      (by rw [Real.rpow_intCast]; exact h2)
    push_cast at this
    exact this
  unfold magnitude
  rw [if_pos (le_trans (by exact_mod_cast hm) l1), Int.floor_eq_iff]
  exact ⟨l1, l2⟩

theorem magnitude_le_one (x : ℝ) (m : ℤ) (hm : m ≤ 0) (h1 : (10 : ℝ) ^ (m - 1) < |x|)
    (h2 : |x| ≤ (10 : ℝ) ^ m) : magnitude x = m := by
  have h10 : (0 : ℝ) < 10 := by norm_num
  have hx : 0 < |x| := (zpow_pos h10 _).trans h1
  have l1 : (m : ℝ) - 1 < Real.logb 10 |x| := by
    have := (Real.lt_logb_iff_rpow_lt (b := 10) (x := ((m - 1 : ℤ) : ℝ)) (y := |x|) (by norm_num) hx).2
      (by rw [Real.rpow_intCast]; exact h1)
    push_cast at this
    exact this
  have l2 : Real.logb 10 |x| ≤ m := by
    rw [Real.logb_le_iff_le_rpow (by norm_num) hx, Real.rpow_intCast]; exact h2
  unfold magnitude
  split_ifs with h
  · have hm0 : m = 0 := by
      have : (0 : ℝ) ≤ m := h.trans l2
      have : (0 : ℤ) ≤ m := by exact_mod_cast this
      omega
    subst hm0
    rw [Int.floor_eq_iff]
    push_cast at l2 ⊢
    exact ⟨h, by linarith⟩
  · rw [Int.ceil_eq_iff]
    exact ⟨l1, l2⟩

theorem magnitude_big (x : ℝ) (h : 1 ≤ |x|) :
    0 ≤ magnitude x ∧ (10 : ℝ) ^ magnitude x ≤ |x| ∧ |x| < (10 : ℝ) ^ (magnitude x + 1) := by
  obtain ⟨m, h1, h2⟩ := exists_mem_Ico_zpow (lt_of_lt_of_le one_pos h) (by norm_num : (1 : ℝ) < 10)
  have hm : 0 ≤ m := by
    by_contra hneg
    have : (10 : ℝ) ^ (m + 1) ≤ (10 : ℝ) ^ (0 : ℤ) := zpow_le_zpow_right₀ (by norm_num) (by omega)
    rw [zpow_zero] at this
    linarith
  rw [magnitude_ge_one x m hm h1 h2]
  exact ⟨hm, h1, h2⟩

theorem magnitude_small (x : ℝ) (h0 : 0 < |x|) (h : |x| ≤ 1) :
    magnitude x ≤ 0 ∧ (10 : ℝ) ^ (magnitude x - 1) < |x| ∧ |x| ≤ (10 : ℝ) ^ magnitude x := by
  obtain ⟨m, h1, h2⟩ := exists_mem_Ioc_zpow h0 (by norm_num : (1 : ℝ) < 10)
  have hm : m + 1 ≤ 0 := by
    by_contra hneg
    have : (10 : ℝ) ^ (0 : ℤ) ≤ (10 : ℝ) ^ m := zpow_le_zpow_right₀ (by norm_num) (by omega)
    rw [zpow_zero] at this
    linarith
  have e : m + 1 - 1 = m := by ring
  rw [magnitude_le_one x (m + 1) hm (by rw [e]; exact h1) h2, e]
  exact ⟨hm, h1, h2⟩

section
variable (rnd : ℝ → ℤ) (hr : ∀ x, |(rnd x : ℝ) - x| ≤ 1 / 2)
include hr

theorem printed_error (n : Nat) (x : ℝ) : |printedNumber rnd n x - x| ≤ 1 / 2 * (10 : ℝ) ^ (-(n : ℤ)) := by
  have hp : (0 : ℝ) < 10 ^ n := by positivity
  have : printedNumber rnd n x - x = ((rnd (x * 10 ^ n) : ℝ) - x * 10 ^ n) / 10 ^ n := by
    unfold printedNumber
    field_simp
  rw [this, abs_div, abs_of_pos hp, zpow_neg, zpow_natCast, ← div_eq_mul_inv]
  exact div_le_div_of_nonneg_right (hr _) hp.le

/-- The error of a printed number in units of the last printed place. -/
theorem scaled_error (n : Nat) (x : ℝ) (e : ℤ) :
    |printedNumber rnd n (x / (10 : ℝ) ^ e) * (10 : ℝ) ^ e - x| ≤ 1 / 2 * (10 : ℝ) ^ (e - n) := by
  have h10 : (0 : ℝ) < 10 := by norm_num
  have hp := zpow_pos h10 e
  have h := printed_error rnd hr n (x / (10 : ℝ) ^ e)
  have e1 : printedNumber rnd n (x / (10 : ℝ) ^ e) * (10 : ℝ) ^ e - x =
      (printedNumber rnd n (x / (10 : ℝ) ^ e) - x / (10 : ℝ) ^ e) * (10 : ℝ) ^ e := by
    field_simp
  rw [e1, abs_mul, abs_of_pos hp, show e - (n : ℤ) = -(n : ℤ) + e by ring, zpow_add₀ h10.ne',
    ← mul_assoc]
  exact mul_le_mul_of_nonneg_right h hp.le

/-- Both printed numbers are within half a unit of the last printed place. -/
theorem layout_error (value unc : ℝ) (b : ℤ) (hu : unc ≠ 0) :
    let l := uncLayout value unc b
    |l.readValue rnd - value| ≤ 1 / 2 * (10 : ℝ) ^ (l.exponent - l.digits) ∧
      |l.readUnc rnd - unc| ≤ 1 / 2 * (10 : ℝ) ^ (l.exponent - l.digits) := by
  have hz : ∀ (n : Nat) (x : ℝ), |printedNumber rnd n x * (10 : ℝ) ^ (0 : ℤ) - x| ≤
      1 / 2 * (10 : ℝ) ^ ((0 : ℤ) - n) := by
    intro n x
    have := scaled_error rnd hr n x 0
    rwa [zpow_zero, div_one] at this
  unfold uncLayout UncLayout.readValue UncLayout.readUnc
  simp only [if_neg hu]
  generalize (if value ≠ 0 then magnitude value else 0) = mv
  split_ifs
  · exact ⟨scaled_error rnd hr _ _ _, scaled_error rnd hr _ _ _⟩
  · exact ⟨hz _ _, hz _ _⟩
  · exact ⟨scaled_error rnd hr _ _ _, scaled_error rnd hr _ _ _⟩

end

/-- When the last printed place is not above the uncertainty. -/
theorem layout_place (value unc : ℝ) (b : ℤ) (hb : 0 ≤ b) (hu : 0 < unc)
    (h : 1 ≤ unc ∨ (10 ≤ |value| ∧ |value| < (10 : ℝ) ^ (b + 1)) ∨
      (unc ≤ (10 : ℝ) ^ (-(b + 1)) ∧ (value = 0 ∨ (10 * unc < |value| ∧ |value| < 1)))) :
    (10 : ℝ) ^ ((uncLayout value unc b).exponent - (uncLayout value unc b).digits) ≤ unc := by
  have h10 : (1 : ℝ) < 10 := by norm_num
  have hmono : ∀ {i j : ℤ}, i ≤ j → (10 : ℝ) ^ i ≤ (10 : ℝ) ^ j := fun h => zpow_le_zpow_right₀ h10.le h
  have habs : |unc| = unc := abs_of_pos hu
  unfold uncLayout
  simp only [if_neg hu.ne']
  set mu := magnitude unc with hmu
  set mv := if value ≠ 0 then magnitude value else 0 with hmv
  have hdig : ((max (mv - mu) 0).toNat : ℤ) = max (mv - mu) 0 := Int.toNat_of_nonneg (le_max_right _ _)
  rcases le_or_gt 1 unc with hu1 | hu1
  · obtain ⟨m0, m1, -⟩ := magnitude_big unc (by rw [habs]; exact hu1)
    rw [habs] at m1
    split_ifs with c1 c2
    · refine le_trans (hmono ?_) m1
      dsimp only
      rw [hdig]
      have := le_max_right (mv - mu) 0
      omega
    · refine le_trans (hmono ?_) m1
      dsimp only
      rw [hdig]
      have := le_max_right (mv - mu) 0
      omega
    · refine le_trans (hmono ?_) m1
      dsimp only
      rw [hdig]
      have := le_max_left (mv - mu) 0
      omega
  · obtain ⟨m0, m1, m2⟩ := magnitude_small unc (by rw [habs]; exact hu) (by rw [habs]; exact hu1.le)
    rw [habs] at m1 m2
    have hneg1 : |mu| = -mu := abs_of_nonpos m0
    rcases h with h | ⟨h1, h2⟩ | ⟨h1, h2⟩
    · linarith
    · have hv0 : value ≠ 0 := by
        rintro rfl
        rw [abs_zero] at h1
        linarith
      have hmv' : mv = magnitude value := by rw [hmv, if_pos hv0]
      obtain ⟨v0, v1, v2⟩ := magnitude_big value (by linarith)
      rw [← hmv'] at v0 v1 v2
      have hv1 : 1 ≤ mv := by
        by_contra hc
        have : (10 : ℝ) ^ (mv + 1) ≤ (10 : ℝ) ^ (1 : ℤ) := hmono (by omega)
        rw [zpow_one] at this
        linarith
      have hvb : mv ≤ b := by
        by_contra hc
        have : (10 : ℝ) ^ (b + 1) ≤ (10 : ℝ) ^ mv := hmono (by omega)
        linarith
      have hav : |mv| = mv := abs_of_nonneg v0
      split_ifs with c1 c2
      · refine le_trans (hmono ?_) m1.le
        dsimp only
        rw [hdig]
        have := le_max_left (mv - mu) 0
        omega
      · refine le_trans (hmono ?_) m1.le
        dsimp only
        rw [hdig]
        have := le_max_left (mv - mu) 0
        omega
      · rw [hav] at c2
        exact absurd hvb c2
    · have hmub : mu ≤ -(b + 1) := by
        by_contra hc
        have : (10 : ℝ) ^ (-(b + 1)) ≤ (10 : ℝ) ^ (mu - 1) := hmono (by omega)
        linarith
      have hlt : mu < mv ∧ mv ≤ 0 := by
        rcases h2 with rfl | ⟨h2, h3⟩
        · simp only [ne_eq, not_true_eq_false, if_false] at hmv
          omega
        · have hvp : 0 < |value| := by linarith
          have hv0 : value ≠ 0 := abs_pos.1 hvp
          have hmv' : mv = magnitude value := by rw [hmv, if_pos hv0]
          obtain ⟨v0, v1, v2⟩ := magnitude_small value hvp h3.le
          rw [← hmv'] at v0 v1 v2
          refine ⟨?_, v0⟩
          by_contra hc
          have : (10 : ℝ) ^ mv ≤ (10 : ℝ) ^ mu := hmono (by omega)
          have e : (10 : ℝ) ^ mu = 10 * (10 : ℝ) ^ (mu - 1) := by
            rw [← zpow_one_add₀ (by norm_num : (10 : ℝ) ≠ 0)]
            congr 1
            ring
          rw [e] at this
          linarith
      have hav : |mv| = -mv := abs_of_nonpos hlt.2
      rw [if_pos ⟨by omega, by omega⟩]
      refine le_trans (hmono ?_) m1.le
      dsimp only
      rw [hdig]
      have := le_max_left (mv - mu) 0
      omega

section
variable (rnd : ℝ → ℤ) (hr : ∀ x, |(rnd x : ℝ) - x| ≤ 1 / 2)
include hr

/-- **C96 (partial).**  Value and uncertainty as read from the text are within half the uncertainty of the
given ones, so the uncertainty is never shown as zero — provided that the uncertainty is at least one, or the
value is at least ten and printed without a power of ten, or the uncertainty is below the break and the value
is zero or below one and more than ten times the uncertainty.  Without these conditions the claim is false:
`C96_hidden_uncertainty`, `C96_hidden_value`. -/
theorem C96_faithful_partial (value unc : ℝ) (b : ℤ) (hb : 0 ≤ b) (hu : 0 < unc)
    (h : 1 ≤ unc ∨ (10 ≤ |value| ∧ |value| < (10 : ℝ) ^ (b + 1)) ∨
      (unc ≤ (10 : ℝ) ^ (-(b + 1)) ∧ (value = 0 ∨ (10 * unc < |value| ∧ |value| < 1)))) :
    let l := uncLayout value unc b
    |l.readValue rnd - value| ≤ unc / 2 ∧ |l.readUnc rnd - unc| ≤ unc / 2 ∧ 0 < l.readUnc rnd := by
  have hp := layout_place value unc b hb hu h
  obtain ⟨h1, h2⟩ := layout_error rnd hr value unc b hu.ne'
  dsimp only at h1 h2 ⊢
  have h3 := (abs_le.1 h2).1
  refine ⟨by linarith, by linarith, by linarith⟩

/-- **C96.**  An exactly known value is printed with six decimals. -/
theorem C96_exact (value : ℝ) (b : ℤ) :
    |(uncLayout value 0 b).readValue rnd - value| ≤ 1 / 2 * (10 : ℝ) ^ (-(6 : ℤ)) := by
  unfold uncLayout UncLayout.readValue
  simp only [if_true, zpow_zero, mul_one]
  exact printed_error rnd hr 6 value

theorem rnd_eq (x : ℝ) (k : ℤ) (h : |x - k| < 1 / 2) : rnd x = k := by
  have h1 := hr x
  have h2 : |((rnd x : ℝ)) - k| < 1 := by
    have := abs_sub_le (rnd x : ℝ) x k
    linarith
  have h3 : |rnd x - k| < 1 := by exact_mod_cast h2
  rw [Int.abs_lt_one_iff] at h3
  omega

/-- **C96, finding.**  `1.23 ± 0.04` is printed as `1.2 ± 0.0`. -/
theorem C96_hidden_uncertainty :
    (uncLayout 1.23 0.04 4).readValue rnd = 1.2 ∧ (uncLayout 1.23 0.04 4).readUnc rnd = 0 := by
  have m1 : magnitude 0.04 = -1 :=
    magnitude_le_one _ _ (by norm_num) (by norm_num [abs_of_pos]) (by norm_num [abs_of_pos])
  have m2 : magnitude 1.23 = 0 :=
    magnitude_ge_one _ _ (by norm_num) (by norm_num [abs_of_pos]) (by norm_num [abs_of_pos])
  have hl : uncLayout 1.23 0.04 4 = ⟨1, 1.23, some 0.04, 0⟩ := by
    unfold uncLayout
    rw [m1, m2]
    norm_num
  rw [hl]
  unfold UncLayout.readValue UncLayout.readUnc printedNumber
  dsimp only
  rw [rnd_eq rnd hr (1.23 * 10 ^ 1) 12 (by norm_num [abs_of_pos]),
    rnd_eq rnd hr (0.04 * 10 ^ 1) 0 (by norm_num [abs_of_pos])]
  norm_num

/-- **C96, finding.**  `0.01 ± 0.001` is printed as `0.0 ± 0.0`. -/
theorem C96_hidden_value :
    (uncLayout 0.01 0.001 4).readValue rnd = 0 ∧ (uncLayout 0.01 0.001 4).readUnc rnd = 0 := by
  have m1 : magnitude 0.001 = -3 :=
    magnitude_le_one _ _ (by norm_num) (by norm_num [abs_of_pos]) (by norm_num [abs_of_pos])
  have m2 : magnitude 0.01 = -2 :=
    magnitude_le_one _ _ (by norm_num) (by norm_num [abs_of_pos]) (by norm_num [abs_of_pos])
  have hl : uncLayout 0.01 0.001 4 = ⟨1, 0.01, some 0.001, 0⟩ := by
    unfold uncLayout
    rw [m1, m2]
    norm_num
  rw [hl]
  unfold UncLayout.readValue UncLayout.readUnc printedNumber
  dsimp only
  rw [rnd_eq rnd hr (0.01 * 10 ^ 1) 0 (by norm_num [abs_of_pos]),
    rnd_eq rnd hr (0.001 * 10 ^ 1) 0 (by norm_num [abs_of_pos])]
  norm_num

end

/-- Case for C96: `123 ± 4` is printed as `123.00 ± 4.00`. -/
example : (uncLayout 123 4 4).readValue round = 123 ∧ (uncLayout 123 4 4).readUnc round = 4 := by
  have hr : ∀ x : ℝ, |((round x : ℤ) : ℝ) - x| ≤ 1 / 2 := fun x => by
    rw [abs_sub_comm]; exact abs_sub_round x
  have m1 : magnitude 4 = 0 :=
    magnitude_ge_one _ _ (by norm_num) (by norm_num [abs_of_pos]) (by norm_num [abs_of_pos])
  have m2 : magnitude 123 = 2 :=
    magnitude_ge_one _ _ (by norm_num) (by norm_num [abs_of_pos]) (by norm_num [abs_of_pos])
  have hl : uncLayout 123 4 4 = ⟨2, 123, some 4, 0⟩ := by
    unfold uncLayout
    rw [m1, m2]
    norm_num
    rfl
  rw [hl]
  unfold UncLayout.readValue UncLayout.readUnc printedNumber
  dsimp only
  rw [rnd_eq round hr (123 * 10 ^ 2) 12300 (by norm_num), rnd_eq round hr (4 * 10 ^ 2) 400 (by norm_num)]
  norm_num

end QInfer
