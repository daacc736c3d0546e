import Verif.Model.Simplex
import Mathlib.Tactic.FieldSimp
import Mathlib.Tactic.Linarith
import Mathlib.Tactic.Ring
import Mathlib.Tactic.Positivity
import Mathlib.Tactic.NormNum

/-! # C26: `to_simplex` and `from_simplex` are inverse -/

namespace QInfer

theorem expit_pos (x : ℝ) : 0 < expit x := by unfold expit; positivity

theorem expit_lt_one (x : ℝ) : expit x < 1 := by
  unfold expit
  rw [div_lt_one (by positivity)]
  have := Real.exp_pos (-x); linarith

theorem expit_logit (p : ℝ) (h0 : 0 < p) (h1 : p < 1) : expit (Real.log (p / (1 - p))) = p := by
  unfold expit
  have h2 : 0 < 1 - p := by linarith
  rw [← Real.log_inv, Real.exp_log (by positivity)]
  field_simp; ring

theorem logit_expit (x : ℝ) : logit (expit x) = some x := by
  unfold logit
  rw [if_pos ⟨expit_pos x, expit_lt_one x⟩]
  congr 1
  have : expit x / (1 - expit x) = Real.exp x := by
    unfold expit
    have h := Real.exp_pos (-x)
    have h2 : (1 : ℝ) - 1 / (1 + Real.exp (-x)) = Real.exp (-x) / (1 + Real.exp (-x)) := by
      field_simp; ring
    rw [h2, Real.exp_neg]
    have := Real.exp_pos x
    field_simp
  rw [this, Real.log_exp]

/-- The offset subtracted in `from_simplex`. -/
theorem logit_offset (n k : ℕ) (h : k + 1 < n) :
    logit (1 / ((n : ℝ) - (k : ℝ))) = some (-Real.log ((n : ℝ) - ((k : ℝ) + 1))) := by
  have hk : (k : ℝ) + 1 < n := by exact_mod_cast h
  have h1 : 0 < (n : ℝ) - k := by linarith
  have h2 : 0 < (n : ℝ) - (k + 1) := by linarith
  unfold logit
  rw [if_pos ⟨by positivity, by rw [div_lt_one h1]; linarith⟩]
  congr 1
  rw [← Real.log_inv]
  congr 1
  have h3 : (1 : ℝ) - 1 / ((n : ℝ) - k) = ((n : ℝ) - (k + 1)) / ((n : ℝ) - k) := by
    field_simp; ring
  rw [h3]
  field_simp

theorem toSimplex_eq (n : ℕ) (y : ℕ → ℝ) (k : ℕ) :
    toSimplex n y k = stickFrac n y k * ∏ i ∈ Finset.range k, (1 - stickFrac n y i) := by
  unfold toSimplex
  split
  · rename_i h; subst h; simp
  · rfl

theorem breakFrac_eq (x : ℕ → ℝ) (k : ℕ) :
    breakFrac x k = x k / (1 - ∑ i ∈ Finset.range k, x i) := by
  unfold breakFrac
  split
  · rename_i h; subst h; simp
  · rfl

theorem stickFrac_pos (n : ℕ) (y : ℕ → ℝ) (k : ℕ) : 0 < stickFrac n y k := by
  unfold stickFrac; split
  · norm_num
  · exact expit_pos _

theorem stickFrac_lt_one (n : ℕ) (y : ℕ → ℝ) (k : ℕ) (h : k + 1 ≠ n) : stickFrac n y k < 1 := by
  unfold stickFrac; rw [if_neg (Ne.symm h)]; exact expit_lt_one _

/-- What is left of the stick. -/
theorem remainder_eq (n : ℕ) (y : ℕ → ℝ) (k : ℕ) :
    1 - ∑ i ∈ Finset.range k, toSimplex n y i = ∏ i ∈ Finset.range k, (1 - stickFrac n y i) := by
  induction k with
  | zero => simp
  | succ k ih =>
    rw [Finset.sum_range_succ, Finset.prod_range_succ, ← ih, toSimplex_eq, ← ih]; ring

theorem remainder_pos (n : ℕ) (y : ℕ → ℝ) (k : ℕ) (hk : k < n) :
    0 < ∏ i ∈ Finset.range k, (1 - stickFrac n y i) := by
  refine Finset.prod_pos fun i hi => ?_
  have := stickFrac_lt_one n y i (by rw [Finset.mem_range] at hi; omega)
  linarith

/-- **C26, range.**  `to_simplex` lands in the open simplex: positive entries with sum one. -/
theorem C26_to_simplex_in_simplex (n : ℕ) (hn : 0 < n) (y : ℕ → ℝ) :
    (∀ k < n, 0 < toSimplex n y k) ∧ ∑ k ∈ Finset.range n, toSimplex n y k = 1 := by
  constructor
  · intro k hk
    rw [toSimplex_eq]
    exact mul_pos (stickFrac_pos _ _ _) (remainder_pos n y k hk)
  · obtain ⟨m, rfl⟩ : ∃ m, n = m + 1 := ⟨n - 1, by omega⟩
    have h := remainder_eq (m + 1) y (m + 1)
    rw [Finset.prod_range_succ] at h
    have hlast : stickFrac (m + 1) y m = 1 := by simp [stickFrac]
    rw [hlast] at h
    linarith

/-- **C26, `from_simplex ∘ to_simplex`.**  Every coordinate but the last is recovered; the last is
set to 0. -/
theorem C26_from_to (n : ℕ) (y : ℕ → ℝ) (k : ℕ) (hk : k < n) :
    fromSimplex n (toSimplex n y) k = some (if k + 1 = n then 0 else y k) := by
  unfold fromSimplex
  split
  · rfl
  · rename_i hne
    have hlt : k + 1 < n := by omega
    have hb : breakFrac (toSimplex n y) k = stickFrac n y k := by
      rw [breakFrac_eq, remainder_eq, toSimplex_eq]
      have := remainder_pos n y k hk
      field_simp
    have hs : stickFrac n y k = expit (y k - Real.log ((n : ℝ) - ((k : ℝ) + 1))) := by
      unfold stickFrac; rw [if_neg (Ne.symm hne)]
    rw [hb, hs, logit_expit, logit_offset n k hlt]
    dsimp only
    congr 1; ring

/-- **C26, `to_simplex ∘ from_simplex`.**  A point of the open simplex goes to a real vector and
back to itself. -/
theorem C26_to_from (n : ℕ) (x : ℕ → ℝ) (hpos : ∀ k < n, 0 < x k)
    (hsum : ∑ k ∈ Finset.range n, x k = 1) :
    ∃ y : ℕ → ℝ, (∀ k < n, fromSimplex n x k = some (y k)) ∧ ∀ k < n, toSimplex n y k = x k := by
  have hrem : ∀ k < n, x k ≤ 1 - ∑ i ∈ Finset.range k, x i ∧
      (k + 1 < n → x k < 1 - ∑ i ∈ Finset.range k, x i) ∧
      (k + 1 = n → x k = 1 - ∑ i ∈ Finset.range k, x i) := by
    intro k hk
    have h1 : ∑ i ∈ Finset.range (k + 1), x i ≤ 1 := by
      rw [← hsum]
      refine Finset.sum_le_sum_of_subset_of_nonneg (Finset.range_mono (by omega)) ?_
      intro i hi _; exact (hpos i (by simpa using hi)).le
    have h2 : k + 1 < n → ∑ i ∈ Finset.range (k + 1), x i < 1 := by
      intro hlt
      rw [← hsum]
      refine Finset.sum_lt_sum_of_subset (Finset.range_mono (by omega)) (i := k + 1)
        (by simpa using hlt) (by simp) (hpos _ hlt) ?_
      intro i hi _; exact (hpos i (by simpa using hi)).le
    rw [Finset.sum_range_succ] at h1 h2
    refine ⟨by linarith, fun h => by have := h2 h; linarith, ?_⟩
    rintro rfl
    rw [Finset.sum_range_succ] at hsum; linarith
  have hfrac : ∀ k, k + 1 < n → 0 < breakFrac x k ∧ breakFrac x k < 1 := by
    intro k hk
    obtain ⟨-, h, -⟩ := hrem k (by omega)
    have hx := hpos k (by omega)
    rw [breakFrac_eq]
    have hr := h hk
    exact ⟨div_pos hx (by linarith), by rw [div_lt_one (by linarith)]; exact hr⟩
  have hfrom : ∀ k < n, ∃ v, fromSimplex n x k = some v := by
    intro k hk
    unfold fromSimplex
    split
    · exact ⟨_, rfl⟩
    · have hlt : k + 1 < n := by omega
      rw [logit_offset n k hlt]
      obtain ⟨h0, h1⟩ := hfrac k hlt
      have : logit (breakFrac x k) = some (Real.log (breakFrac x k / (1 - breakFrac x k))) :=
        if_pos ⟨h0, h1⟩
      rw [this]; exact ⟨_, rfl⟩
  choose! y hy using hfrom
  refine ⟨y, hy, ?_⟩
  have hstick : ∀ k, k + 1 < n → stickFrac n y k = breakFrac x k := by
    intro k hk
    obtain ⟨h0, h1⟩ := hfrac k hk
    have hv := hy k (by omega)
    unfold fromSimplex at hv
    have hl : logit (breakFrac x k) = some (Real.log (breakFrac x k / (1 - breakFrac x k))) :=
      if_pos ⟨h0, h1⟩
    rw [if_neg (by omega), hl, logit_offset n k hk] at hv
    simp only [Option.some.injEq] at hv
    unfold stickFrac
    rw [if_neg (by omega), ← hv]
    rw [show Real.log (breakFrac x k / (1 - breakFrac x k)) -
      -Real.log ((n : ℝ) - ((k : ℝ) + 1)) - Real.log ((n : ℝ) - ((k : ℝ) + 1)) =
      Real.log (breakFrac x k / (1 - breakFrac x k)) by ring]
    exact expit_logit _ h0 h1
  have hprod : ∀ k < n, ∏ i ∈ Finset.range k, (1 - stickFrac n y i) =
      1 - ∑ i ∈ Finset.range k, x i := by
    intro k
    induction k with
    | zero => simp
    | succ k ih =>
      intro hk
      rw [Finset.prod_range_succ, ih (by omega), Finset.sum_range_succ, hstick k hk, breakFrac_eq]
      have := (hrem k (by omega)).2.1 hk
      have hx := hpos k (by omega)
      have hne : 1 - ∑ i ∈ Finset.range k, x i ≠ 0 := by
        intro hc; rw [hc] at this; linarith
      field_simp
      ring
  intro k hk
  rw [toSimplex_eq, hprod k hk]
  by_cases hl : k + 1 = n
  · have : stickFrac n y k = 1 := by unfold stickFrac; rw [if_pos hl.symm]
    rw [this, one_mul, (hrem k hk).2.2 hl]
  · rw [hstick k (by omega), breakFrac_eq]
    have := (hrem k hk).2.1 (by omega)
    have hx := hpos k hk
    have hne : 1 - ∑ i ∈ Finset.range k, x i ≠ 0 := by
      intro hc; rw [hc] at this; linarith
    field_simp

/-- **C26, boundary.**  A vanishing entry before the last does not give a real vector. -/
theorem C26_boundary_not_real (n : ℕ) (x : ℕ → ℝ) (k : ℕ) (hk : k + 1 < n) (hx : x k = 0) :
    fromSimplex n x k = none := by
  unfold fromSimplex
  rw [if_neg (by omega), breakFrac_eq, hx, zero_div]
  simp [logit]

/-- **C26, centre.**  The uniform point corresponds to the zero vector. -/
theorem C26_uniform_to_zero (n : ℕ) (k : ℕ) (hk : k < n) :
    fromSimplex n (fun _ => 1 / (n : ℝ)) k = some 0 := by
  unfold fromSimplex
  split
  · rfl
  · have hlt : k + 1 < n := by omega
    have hn : (0 : ℝ) < n := by exact_mod_cast (by omega : 0 < n)
    have hk' : (k : ℝ) + 1 < n := by exact_mod_cast hlt
    have hb : breakFrac (fun _ => 1 / (n : ℝ)) k = 1 / ((n : ℝ) - k) := by
      rw [breakFrac_eq]
      simp only [Finset.sum_const, Finset.card_range, nsmul_eq_mul]
      have : (0 : ℝ) < n - k := by linarith
      have h2 : (1 : ℝ) - k * (1 / n) = (n - k) / n := by field_simp
      rw [h2]; field_simp
    rw [hb, logit_offset n k hlt]
    simp

/-- Case for C26: the point `(1/2, 1/4, 1/4)`. -/
example : (∀ k < 3, 0 < (fun k : ℕ => if k = 0 then (1/2 : ℝ) else 1/4) k) ∧
    ∑ k ∈ Finset.range 3, (fun k : ℕ => if k = 0 then (1/2 : ℝ) else 1/4) k = 1 := by
  constructor
  · intro k _; dsimp only; split <;> norm_num
  · norm_num [Finset.sum_range_succ]

end QInfer
