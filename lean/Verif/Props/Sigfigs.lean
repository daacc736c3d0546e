import Verif.Model.Misc
import Mathlib.Analysis.SpecialFunctions.Pow.Real

/-!
# C95: significant figures
-/

namespace QInfer

/-- One pair of `assert_sigfigs_equal`. -/
theorem sigfigs_pair (x y : ℝ) (m : ℤ) (s : Nat) (h1 : (10 : ℝ) ^ m ≤ x) (h2 : x < (10 : ℝ) ^ (m + 1)) :
    almostEqual (rescale x (floorLog10 x)) (rescale y (floorLog10 x)) s = true ↔
      |x - y| < 1.5 * (10 : ℝ) ^ (m - s) := by
  have h10 : (0 : ℝ) < 10 := by norm_num
  have hx : 0 < x := (zpow_pos h10 m).trans_le h1
  have hfl : ⌊Real.logb 10 x⌋ = m := by
    rw [Int.floor_eq_iff]
    constructor
    · rw [Real.le_logb_iff_rpow_le (by norm_num) hx, Real.rpow_intCast]; exact h1
    · have := (Real.logb_lt_iff_lt_rpow (b := 10) (x := x) (y := ((m + 1 : ℤ) : ℝ)) (by norm_num) hx).2
        (by rw [Real.rpow_intCast]; exact h2)
      push_cast at this
      exact this
  have hF : floorLog10 x = .fin (m : ℝ) := by
    unfold floorLog10
    rw [if_pos hx, hfl]
  rw [hF]
  simp only [rescale, almostEqual, decide_eq_true_eq]
  have hp : (10 : ℝ) ^ (-(m : ℝ)) = ((10 : ℝ) ^ m)⁻¹ := by
    rw [Real.rpow_neg h10.le, Real.rpow_intCast]
  have hm := zpow_pos h10 m
  rw [hp, ← sub_mul, abs_mul, abs_of_pos (inv_pos.2 hm), ← div_eq_mul_inv, div_lt_iff₀ hm,
    abs_sub_comm, mul_assoc, ← zpow_add₀ h10.ne']
  rw [show -(s : ℤ) + m = m - s by ring]

/-- The assertion holds iff it does for every pair. -/
theorem C95_arrays (x y : List ℝ) (s : Nat) :
    assertSigfigsEqual x y s = .ok () ↔ ∀ p ∈ x.zip y, assertSigfigsEqual [p.1] [p.2] s = .ok () := by
  have h1 : ∀ a b : ℝ, assertSigfigsEqual [a] [b] s = .ok () ↔
      almostEqual (rescale a (floorLog10 a)) (rescale b (floorLog10 a)) s = true := by
    intro a b
    unfold assertSigfigsEqual
    simp only [List.zip_cons_cons, List.zip_nil_right, List.all_cons, List.all_nil, Bool.and_true]
    split_ifs with h <;> simp [h]
  simp only [h1]
  unfold assertSigfigsEqual
  split_ifs with h
  · simpa using h
  · simpa using h

/-- **C95.**  For a number with leading digit at `10 ^ m`, the assertion holds iff the other one is nearer than
`1.5` units of the figure after the last demanded one. -/
theorem C95_positive (x y : ℝ) (m : ℤ) (s : Nat) (h1 : (10 : ℝ) ^ m ≤ x)
    (h2 : x < (10 : ℝ) ^ (m + 1)) :
    assertSigfigsEqual [x] [y] s = .ok () ↔ |x - y| < 1.5 * (10 : ℝ) ^ (m - s) := by
  rw [← sigfigs_pair x y m s h1 h2]
  unfold assertSigfigsEqual
  simp only [List.zip_cons_cons, List.zip_nil_right, List.all_cons, List.all_nil, Bool.and_true]
  split_ifs with h <;> simp [h]

/-- **C95, soundness.**  Positive numbers that pass differ by less than `1.5 · 10⁻ˢ` of the first, and both are
positive once at least one figure is demanded. -/
theorem C95_relative_error (x y : ℝ) (hx : 0 < x) (s : Nat)
    (h : assertSigfigsEqual [x] [y] s = .ok ()) :
    |x - y| < 1.5 * (10 : ℝ) ^ (-(s : ℤ)) * x ∧ (1 ≤ s → 0 < y) := by
  obtain ⟨m, hm1, hm2⟩ := exists_mem_Ico_zpow hx (by norm_num : (1 : ℝ) < 10)
  rw [C95_positive x y m s hm1 hm2] at h
  have h10 : (0 : ℝ) < 10 := by norm_num
  have key : |x - y| < 1.5 * (10 : ℝ) ^ (-(s : ℤ)) * x := by
    refine lt_of_lt_of_le h ?_
    rw [mul_assoc, sub_eq_neg_add, zpow_add₀ h10.ne']
    have := zpow_pos h10 (-(s : ℤ))
    gcongr
  refine ⟨key, fun hs => ?_⟩
  have hle : (10 : ℝ) ^ (-(s : ℤ)) ≤ (10 : ℝ) ^ (-(1 : ℤ)) :=
    zpow_le_zpow_right₀ (by norm_num) (by omega)
  norm_num at hle
  have h3 := (abs_lt.1 key).2
  have : (10 : ℝ) ^ (-(s : ℤ)) * x ≤ 1 / 10 * x := by
    have : (10 : ℝ) ^ (-(s : ℤ)) ≤ 1 / 10 := by simpa using hle
    gcongr
  nlinarith

/-- **C95, completeness.**  Numbers with the same first `s + 1` significant figures pass when `s` are demanded. -/
theorem C95_shared_figures (x y : ℝ) (m : ℤ) (s : Nat) (h1 : (10 : ℝ) ^ m ≤ x)
    (h2 : x < (10 : ℝ) ^ (m + 1))
    (h : ⌊x * (10 : ℝ) ^ ((s : ℤ) - m)⌋ = ⌊y * (10 : ℝ) ^ ((s : ℤ) - m)⌋) :
    assertSigfigsEqual [x] [y] s = .ok () := by
  rw [C95_positive x y m s h1 h2]
  have h10 : (0 : ℝ) < 10 := by norm_num
  have hp := zpow_pos h10 ((s : ℤ) - m)
  have := Int.abs_sub_lt_one_of_floor_eq_floor h
  rw [← sub_mul, abs_mul, abs_of_pos hp] at this
  have e : (10 : ℝ) ^ (m - (s : ℤ)) = ((10 : ℝ) ^ ((s : ℤ) - m))⁻¹ := by
    rw [← zpow_neg]; congr 1; ring
  rw [e, ← div_eq_mul_inv, lt_div_iff₀ hp]
  linarith

/-- **C95, units.**  Changing the unit by a power of ten does not change the verdict. -/
theorem C95_units (x y : ℝ) (hx : 0 < x) (s : Nat) (r : ℤ) :
    assertSigfigsEqual [x * (10 : ℝ) ^ r] [y * (10 : ℝ) ^ r] s = .ok () ↔
      assertSigfigsEqual [x] [y] s = .ok () := by
  obtain ⟨m, hm1, hm2⟩ := exists_mem_Ico_zpow hx (by norm_num : (1 : ℝ) < 10)
  have h10 : (0 : ℝ) < 10 := by norm_num
  have hr := zpow_pos h10 r
  rw [C95_positive x y m s hm1 hm2, C95_positive _ _ (m + r) s
    (by rw [zpow_add₀ h10.ne']; gcongr)
    (by rw [show m + r + 1 = (m + 1) + r by ring, zpow_add₀ h10.ne' (m + 1)]; gcongr),
    ← sub_mul, abs_mul, abs_of_pos hr, show m + r - (s : ℤ) = (m - s) + r by ring,
    zpow_add₀ h10.ne', ← mul_assoc, mul_lt_mul_iff_left₀ hr]

/-- **C95, finding.**  Once the first number is negative the assertion holds whatever the second is. -/
theorem C95_negative (x y : ℝ) (hx : x < 0) (s : Nat) : assertSigfigsEqual [x] [y] s = .ok () := by
  unfold assertSigfigsEqual floorLog10
  simp [not_lt.2 hx.le, hx.ne, rescale, almostEqual]

/-- **C95, zero.**  Only zero passes for zero. -/
theorem C95_zero (y : ℝ) (s : Nat) : assertSigfigsEqual [0] [y] s = .ok () ↔ y = 0 := by
  unfold assertSigfigsEqual floorLog10
  rcases lt_trichotomy y 0 with h | h | h
  · simp [rescale, almostEqual, h, h.ne, not_lt.2 h.le]
  · simp [rescale, almostEqual, h]
  · simp [rescale, almostEqual, h, h.ne']

/-- **C95, finding.**  The demand is stricter than documented: `1.230` and `1.234` share three significant
figures but fail when three are demanded. -/
theorem C95_too_strict : assertSigfigsEqual [1.230] [1.234] 3 = .error .assertionError ∧
    ⌊(1.230 : ℝ) * 10 ^ 2⌋ = ⌊(1.234 : ℝ) * 10 ^ 2⌋ := by
  constructor
  · have h := C95_positive 1.230 1.234 0 3 (by norm_num) (by norm_num)
    have hn : ¬ assertSigfigsEqual [1.230] [1.234] 3 = .ok () := by
      rw [h]
      norm_num [abs_of_neg]
    unfold assertSigfigsEqual at hn ⊢
    split_ifs with hc
    · exact absurd (if_pos hc) hn
    · rfl
  · have a : ⌊(1.230 : ℝ) * 10 ^ 2⌋ = 123 := by rw [Int.floor_eq_iff]; norm_num
    have b : ⌊(1.234 : ℝ) * 10 ^ 2⌋ = 123 := by rw [Int.floor_eq_iff]; norm_num
    rw [a, b]

/-- Case for C95: `12345` and `12346` agree to three figures, `12345` and `12365` do not. -/
example : assertSigfigsEqual [12345, 0] [12346, 0] 3 = .ok () ∧
    assertSigfigsEqual [12345] [12365] 3 ≠ .ok () := by
  constructor
  · rw [C95_arrays]
    intro p hp
    simp only [List.zip_cons_cons, List.zip_nil_right, List.mem_cons, List.not_mem_nil, or_false] at hp
    rcases hp with rfl | rfl
    · rw [C95_positive _ _ 4 3 (by norm_num) (by norm_num)]
      norm_num
    · exact (C95_zero 0 3).2 rfl
  · rw [Ne, C95_positive _ _ 4 3 (by norm_num) (by norm_num)]
    norm_num

end QInfer
