import Mathlib.Analysis.SpecialFunctions.Log.Basic
import Mathlib.Analysis.SpecialFunctions.Pow.Real
import Mathlib.Topology.Algebra.Order.Field
import Mathlib.Topology.Order.Compact
import Mathlib.Algebra.Order.BigOperators.Ring.Finset

/-!
# Rates at which likelihoods fall

Finitely many data `d` occur with frequencies `a d * g₀ d`; another parameter gives them the probabilities
`g x d`.
-/

namespace QInfer

open Filter Topology

theorem log_gap (a g₀ m : ℝ) (ha : 0 ≤ a) (hg : 0 ≤ g₀) (hm : 0 < m) :
    2 * a * (g₀ - √g₀ * √m) ≤ a * g₀ * (Real.log g₀ - Real.log m) := by
  rcases hg.eq_or_lt with rfl | hg
  · simp
  have h1 : Real.log (√m / √g₀) ≤ √m / √g₀ - 1 :=
    Real.log_le_sub_one_of_pos (div_pos (Real.sqrt_pos.2 hm) (Real.sqrt_pos.2 hg))
  rw [Real.log_div (Real.sqrt_pos.2 hm).ne' (Real.sqrt_pos.2 hg).ne', Real.log_sqrt hm.le,
    Real.log_sqrt hg.le] at h1
  have h2 : g₀ * (√m / √g₀) = √g₀ * √m := by
    have : √g₀ ≠ 0 := (Real.sqrt_pos.2 hg).ne'
    field_simp
    rw [Real.sq_sqrt hg.le]
  have h3 := mul_le_mul_of_nonneg_left h1 (mul_nonneg ha hg.le)
  have h4 : a * g₀ * (√m / √g₀ - 1) = a * (√g₀ * √m - g₀) := by rw [← h2]; ring
  rw [h4] at h3
  nlinarith

section

variable {S M : Type*} [Fintype M] (a g₀ : M → ℝ) (g : S → M → ℝ)

theorem gap_at (x : S) (ha : ∀ d, 0 ≤ a d) (hg₀ : ∀ d, 0 ≤ g₀ d) (hg₁ : ∀ d, g₀ d ≤ 1)
    (hg : ∀ d, 0 ≤ g x d) (hs₀ : ∑ d, a d * g₀ d = 1) (hs : ∑ d, a d * g x d = 1) (r : ℝ) (hr : 0 < r) :
    ∑ d, a d * (√(g₀ d) - √(g x d)) ^ 2 - 2 * (∑ d, a d) * r ≤
      ∑ d, a d * g₀ d * (Real.log (g₀ d) - Real.log (max (g x d) (r ^ 2))) := by
  have h1 : ∑ d, a d * (√(g₀ d) - √(g x d)) ^ 2 = ∑ d, 2 * a d * (g₀ d - √(g₀ d) * √(g x d)) := by
    have e1 : ∀ d, a d * (√(g₀ d) - √(g x d)) ^ 2 =
        a d * g₀ d + a d * g x d - 2 * a d * (√(g₀ d) * √(g x d)) := fun d => by
      rw [sub_sq, Real.sq_sqrt (hg₀ d), Real.sq_sqrt (hg d)]
      ring
    have e2 : ∀ d, 2 * a d * (g₀ d - √(g₀ d) * √(g x d)) =
        a d * g₀ d + a d * g₀ d - 2 * a d * (√(g₀ d) * √(g x d)) := fun d => by ring
    simp only [e1, e2, Finset.sum_sub_distrib, Finset.sum_add_distrib, hs₀, hs]
  rw [h1, Finset.mul_sum, Finset.sum_mul, ← Finset.sum_sub_distrib]
  refine Finset.sum_le_sum fun d _ => ?_
  have hm : 0 < max (g x d) (r ^ 2) := lt_of_lt_of_le (by positivity) (le_max_right _ _)
  refine le_trans ?_ (log_gap (a d) (g₀ d) _ (ha d) (hg₀ d) hm)
  have hsq : √(max (g x d) (r ^ 2)) ≤ √(g x d) + r := by
    apply Real.sqrt_le_iff.2
    refine ⟨by positivity, max_le ?_ ?_⟩
    · nlinarith [Real.sq_sqrt (hg d), Real.sqrt_nonneg (g x d)]
    · nlinarith [Real.sqrt_nonneg (g x d)]
  have h01 : √(g₀ d) ≤ 1 := Real.sqrt_le_one.2 (hg₁ d)
  have h2 : √(g₀ d) * √(max (g x d) (r ^ 2)) ≤ √(g₀ d) * √(g x d) + r := by
    nlinarith [Real.sqrt_nonneg (g₀ d), mul_le_mul_of_nonneg_left hsq (Real.sqrt_nonneg (g₀ d))]
  nlinarith [mul_le_mul_of_nonneg_left h2 (ha d)]

/-- On a compact set of parameters that all predict something else, the expected loss in the logarithm of
the likelihood, cut off below, is bounded away from zero. -/
theorem gap_uniform [TopologicalSpace S] (C : Set S) (hC : IsCompact C) (ha : ∀ d, 0 ≤ a d)
    (hg₀ : ∀ d, 0 ≤ g₀ d) (hg₁ : ∀ d, g₀ d ≤ 1) (hg : ∀ x d, 0 ≤ g x d)
    (hs₀ : ∑ d, a d * g₀ d = 1) (hs : ∀ x, ∑ d, a d * g x d = 1)
    (hcont : ∀ d, Continuous fun x => g x d)
    (hne : ∀ x ∈ C, ∃ d, 0 < a d ∧ g x d ≠ g₀ d) :
    ∃ h > 0, ∃ δ > 0, δ < 1 ∧ ∀ x ∈ C,
      h ≤ ∑ d, a d * g₀ d * (Real.log (g₀ d) - Real.log (max (g x d) δ)) := by
  rcases C.eq_empty_or_nonempty with rfl | hCne
  · exact ⟨1, one_pos, 1 / 2, by norm_num, by norm_num, by simp⟩
  have hHc : Continuous fun x => ∑ d, a d * (√(g₀ d) - √(g x d)) ^ 2 :=
    continuous_finsetSum _ fun d _ => continuous_const.mul
      ((continuous_const.sub (hcont d).sqrt).pow 2)
  obtain ⟨x₀, hx₀, hmin⟩ := hC.exists_isMinOn hCne hHc.continuousOn
  have hpos : 0 < ∑ d, a d * (√(g₀ d) - √(g x₀ d)) ^ 2 := by
    obtain ⟨d, had, hd⟩ := hne x₀ hx₀
    refine Finset.sum_pos' (fun d _ => mul_nonneg (ha d) (sq_nonneg _)) ⟨d, Finset.mem_univ d, ?_⟩
    refine mul_pos had (sq_pos_of_ne_zero ?_)
    intro h0
    exact hd ((Real.sqrt_inj (hg₀ d) (hg x₀ d)).1 (sub_eq_zero.1 h0)).symm
  obtain ⟨H, hH⟩ : ∃ H, H = ∑ d, a d * (√(g₀ d) - √(g x₀ d)) ^ 2 := ⟨_, rfl⟩
  rw [← hH] at hpos
  have hA : 0 ≤ ∑ d, a d := Finset.sum_nonneg fun d _ => ha d
  obtain ⟨r, hr⟩ : ∃ r, r = min (1 / 2) (H / (4 * (∑ d, a d + 1))) := ⟨_, rfl⟩
  have hr0 : 0 < r := by rw [hr]; exact lt_min (by norm_num) (by positivity)
  have hr1 : r ≤ 1 / 2 := by rw [hr]; exact min_le_left _ _
  have hr2 : r ≤ H / (4 * (∑ d, a d + 1)) := by rw [hr]; exact min_le_right _ _
  rw [le_div_iff₀ (by positivity)] at hr2
  refine ⟨H / 2, by positivity, r ^ 2, by positivity, by nlinarith, fun x hx => ?_⟩
  refine le_trans ?_ (gap_at a g₀ g x ha hg₀ hg₁ (hg x) hs₀ (hs x) r hr0)
  have h1 : H ≤ ∑ d, a d * (√(g₀ d) - √(g x d)) ^ 2 := by rw [hH]; exact hmin hx
  nlinarith

theorem sum_by_count [DecidableEq M] (z : ℕ → M) (φ : M → ℝ) (t : ℕ) (ht : t ≠ 0) :
    ∑ i ∈ Finset.range t, φ (z i) =
      t * ∑ d, (∑ i ∈ Finset.range t, if z i = d then (1 : ℝ) else 0) / t * φ d := by
  have ht' : (t : ℝ) ≠ 0 := Nat.cast_ne_zero.2 ht
  have : ∀ i, φ (z i) = ∑ d, (if z i = d then (1 : ℝ) else 0) * φ d := fun i => by simp
  simp only [this]
  rw [Finset.sum_comm, Finset.mul_sum]
  refine Finset.sum_congr rfl fun d _ => ?_
  rw [← Finset.sum_mul]
  field_simp

/-- If the data occur with the frequencies expected, the likelihood of parameters with the gap `h` falls
exponentially behind, uniformly. -/
theorem likelihood_falls [DecidableEq M] (z : ℕ → M) (C : Set S) (h δ : ℝ) (hh : 0 < h) (hδ : 0 < δ)
    (hδ1 : δ < 1) (hg : ∀ x d, 0 ≤ g x d) (hg1 : ∀ x d, g x d ≤ 1)
    (hgap : ∀ x ∈ C, h ≤ ∑ d, a d * g₀ d * (Real.log (g₀ d) - Real.log (max (g x d) δ)))
    (hz : ∀ i, 0 < g₀ (z i))
    (hfreq : ∀ d, Tendsto (fun t : ℕ => (∑ i ∈ Finset.range t, if z i = d then (1 : ℝ) else 0) / t) atTop
      (𝓝 (a d * g₀ d))) :
    ∀ᶠ t : ℕ in atTop, ∀ x ∈ C, ∏ i ∈ Finset.range t, g x (z i) ≤
      Real.exp (-(h / 2 * t)) * ∏ i ∈ Finset.range t, g₀ (z i) := by
  obtain ⟨B, hB⟩ : ∃ B, B = ∑ d, |Real.log (g₀ d)| + |Real.log δ| := ⟨_, rfl⟩
  have hl : ∀ x d, |Real.log (g₀ d) - Real.log (max (g x d) δ)| ≤ B := by
    intro x d
    have h1 : |Real.log (g₀ d)| ≤ ∑ d, |Real.log (g₀ d)| :=
      Finset.single_le_sum (f := fun d => |Real.log (g₀ d)|) (fun d _ => abs_nonneg _) (Finset.mem_univ d)
    have hm : δ ≤ max (g x d) δ := le_max_right _ _
    have hm1 : max (g x d) δ ≤ 1 := max_le (hg1 x d) hδ1.le
    have h2 : |Real.log (max (g x d) δ)| ≤ |Real.log δ| := by
      rw [abs_of_nonpos (Real.log_nonpos (hδ.le.trans hm) hm1), abs_of_nonpos (Real.log_nonpos hδ.le hδ1.le)]
      exact neg_le_neg (Real.log_le_log hδ hm)
    rw [hB]
    exact (abs_sub _ _).trans (add_le_add h1 h2)
  have hlim : Tendsto (fun t : ℕ => ∑ d, |(∑ i ∈ Finset.range t, if z i = d then (1 : ℝ) else 0) / t -
      a d * g₀ d| * B) atTop (𝓝 0) := by
    have : Tendsto (fun t : ℕ => ∑ d, |(∑ i ∈ Finset.range t, if z i = d then (1 : ℝ) else 0) / t -
      a d * g₀ d| * B) atTop (𝓝 (∑ d : M, |a d * g₀ d - a d * g₀ d| * B)) :=
      tendsto_finsetSum _ fun d _ => ((hfreq d).sub tendsto_const_nhds).abs.mul_const B
    simpa using this
  filter_upwards [hlim.eventually_lt_const (half_pos hh), eventually_ne_atTop 0] with t ht ht0 x hx
  have hsum : h / 2 * t ≤ ∑ i ∈ Finset.range t, (Real.log (g₀ (z i)) - Real.log (max (g x (z i)) δ)) := by
    rw [sum_by_count z (fun d => Real.log (g₀ d) - Real.log (max (g x d) δ)) t ht0, mul_comm]
    refine mul_le_mul_of_nonneg_left ?_ (Nat.cast_nonneg t)
    have hd : ∑ d, a d * g₀ d * (Real.log (g₀ d) - Real.log (max (g x d) δ)) -
        ∑ d, (∑ i ∈ Finset.range t, if z i = d then (1 : ℝ) else 0) / t *
          (Real.log (g₀ d) - Real.log (max (g x d) δ)) ≤
        ∑ d, |(∑ i ∈ Finset.range t, if z i = d then (1 : ℝ) else 0) / t - a d * g₀ d| * B := by
      rw [← Finset.sum_sub_distrib]
      refine Finset.sum_le_sum fun d _ => ?_
      rw [← sub_mul]
      refine (le_abs_self _).trans ?_
      rw [abs_mul, abs_sub_comm]
      exact mul_le_mul_of_nonneg_left (hl x d) (abs_nonneg _)
    have := hgap x hx
    linarith
  have hm : ∀ i, 0 < max (g x (z i)) δ := fun i => lt_of_lt_of_le hδ (le_max_right _ _)
  calc ∏ i ∈ Finset.range t, g x (z i) ≤ ∏ i ∈ Finset.range t, max (g x (z i)) δ :=
        Finset.prod_le_prod (fun i _ => hg x _) fun i _ => le_max_left _ _
    _ = Real.exp (-∑ i ∈ Finset.range t, (Real.log (g₀ (z i)) - Real.log (max (g x (z i)) δ))) *
          ∏ i ∈ Finset.range t, g₀ (z i) := by
        rw [← Finset.sum_neg_distrib, Real.exp_sum, ← Finset.prod_mul_distrib]
        refine Finset.prod_congr rfl fun i _ => ?_
        rw [neg_sub, Real.exp_sub, Real.exp_log (hm i), Real.exp_log (hz i),
          div_mul_cancel₀ _ (hz i).ne']
    _ ≤ _ := mul_le_mul_of_nonneg_right (Real.exp_le_exp.2 (neg_le_neg hsum))
        (Finset.prod_nonneg fun i _ => (hz i).le)

end

end QInfer
