import Verif.Lemmas.ContRate
import Mathlib.MeasureTheory.Integral.Bochner.Basic
import Mathlib.MeasureTheory.Function.L1Space.Integrable
import Mathlib.MeasureTheory.Integral.Bochner.Set
import Mathlib.Analysis.PSeries

/-!
# Averages of data from experiments chosen on the way

Averages of bounded uncorrelated variables tend to zero, and the likelihoods of parameters that predict
something else fall exponentially if the frequencies of the outcomes of every experiment tend to their
probabilities.
-/

namespace QInfer

open Filter Topology MeasureTheory

section

variable {Ω : Type*} [MeasurableSpace Ω] {P : Measure Ω} [IsProbabilityMeasure P] {Y : ℕ → Ω → ℝ}

theorem bounded_int {f : Ω → ℝ} (hf : Measurable f) (B : ℝ) (hB : ∀ v, |f v| ≤ B) : Integrable f P :=
  Integrable.of_bound hf.aestronglyMeasurable B (ae_of_all _ fun v => by
    rw [Real.norm_eq_abs]; exact hB v)

theorem abs_sum_le (h1 : ∀ i v, |Y i v| ≤ 1) (n : ℕ) (v : Ω) : |∑ i ∈ Finset.range n, Y i v| ≤ n := by
  calc |∑ i ∈ Finset.range n, Y i v| ≤ ∑ i ∈ Finset.range n, |Y i v| := Finset.abs_sum_le_sum_abs _ _
    _ ≤ ∑ i ∈ Finset.range n, (1 : ℝ) := Finset.sum_le_sum fun i _ => h1 i v
    _ = n := by simp

theorem second_moment (hY : ∀ i, Measurable (Y i)) (h1 : ∀ i v, |Y i v| ≤ 1)
    (h0 : ∀ i n, i < n → ∫ v, Y i v * Y n v ∂P = 0) (n : ℕ) :
    ∫ v, (∑ i ∈ Finset.range n, Y i v) ^ 2 ∂P ≤ n := by
  have hS : ∀ n, Measurable fun v => ∑ i ∈ Finset.range n, Y i v := fun n =>
    Finset.measurable_sum _ fun i _ => hY i
  induction n with
  | zero => simp
  | succ n ih =>
    have e : ∀ v, (∑ i ∈ Finset.range (n + 1), Y i v) ^ 2 =
        (∑ i ∈ Finset.range n, Y i v) ^ 2 + (2 * ∑ i ∈ Finset.range n, Y i v * Y n v) + Y n v ^ 2 := fun v => by
      rw [Finset.sum_range_succ, ← Finset.sum_mul]; ring
    have i1 : Integrable (fun v => (∑ i ∈ Finset.range n, Y i v) ^ 2) P :=
      bounded_int ((hS n).pow_const 2) ((n : ℝ) ^ 2) fun v => by
        rw [abs_pow]; exact pow_le_pow_left₀ (abs_nonneg _) (abs_sum_le h1 n v) 2
    have ii : ∀ i, Integrable (fun v => Y i v * Y n v) P := fun i =>
      bounded_int ((hY i).mul (hY n)) 1 fun v => by
        rw [abs_mul]; exact mul_le_one₀ (h1 i v) (abs_nonneg _) (h1 n v)
    have i2 : Integrable (fun v => 2 * ∑ i ∈ Finset.range n, Y i v * Y n v) P :=
      (integrable_finsetSum _ fun i _ => ii i).const_mul 2
    have i3 : Integrable (fun v => Y n v ^ 2) P :=
      bounded_int ((hY n).pow_const 2) 1 fun v => by
        rw [abs_pow]; exact pow_le_one₀ (abs_nonneg _) (h1 n v)
    have h2 : ∫ v, 2 * ∑ i ∈ Finset.range n, Y i v * Y n v ∂P = 0 := by
      rw [integral_const_mul, integral_finsetSum _ fun i _ => ii i,
        Finset.sum_eq_zero fun i hi => h0 i n (Finset.mem_range.1 hi), mul_zero]
    have h3 : ∫ v, Y n v ^ 2 ∂P ≤ 1 := by
      calc ∫ v, Y n v ^ 2 ∂P ≤ ∫ _, (1 : ℝ) ∂P := integral_mono i3 (integrable_const _) fun v => by
            show Y n v ^ 2 ≤ 1
            rw [← sq_abs]; exact pow_le_one₀ (abs_nonneg _) (h1 n v)
        _ = 1 := by simp
    simp only [e]
    have i12 : Integrable (fun v => (∑ i ∈ Finset.range n, Y i v) ^ 2 +
        2 * ∑ i ∈ Finset.range n, Y i v * Y n v) P := i1.add i2
    rw [integral_add i12 i3, integral_add i1 i2, h2]
    push_cast
    linarith

/-- Averages of bounded uncorrelated variables tend to zero. -/
theorem average_uncorrelated (hY : ∀ i, Measurable (Y i)) (h1 : ∀ i v, |Y i v| ≤ 1)
    (h0 : ∀ i n, i < n → ∫ v, Y i v * Y n v ∂P = 0) :
    ∀ᵐ v ∂P, Tendsto (fun t : ℕ => (∑ i ∈ Finset.range t, Y i v) / t) atTop (𝓝 0) := by
  have hS : ∀ n, Measurable fun v => ∑ i ∈ Finset.range n, Y i v := fun n =>
    Finset.measurable_sum _ fun i _ => hY i
  obtain ⟨Q, hQ⟩ : ∃ Q : ℕ → Ω → ℝ, Q = fun k v => ((∑ i ∈ Finset.range (k ^ 2), Y i v) / (k : ℝ) ^ 2) ^ 2 :=
    ⟨_, rfl⟩
  have hQm : ∀ k, Measurable (Q k) := fun k => by
    rw [hQ]; exact ((hS _).div_const _).pow_const 2
  have hQ0 : ∀ k v, 0 ≤ Q k v := fun k v => by rw [hQ]; positivity
  have hQb : ∀ k v, |Q k v| ≤ 1 := fun k v => by
    rw [hQ, abs_pow, abs_div]
    refine pow_le_one₀ (by positivity) ?_
    refine div_le_one_of_le₀ ?_ (abs_nonneg _)
    refine (abs_sum_le h1 _ v).trans ?_
    rw [abs_of_nonneg (by positivity)]
    push_cast
    exact le_rfl
  have hQi : ∀ k, Integrable (Q k) P := fun k => bounded_int (hQm k) 1 (hQb k)
  have hmean : ∀ k, ∫ v, Q k v ∂P ≤ 1 / (k : ℝ) ^ 2 := by
    intro k
    have h2 := second_moment hY h1 h0 (k ^ 2)
    rcases Nat.eq_zero_or_pos k with rfl | hk
    · simp [hQ]
    have hk' : (0 : ℝ) < (k : ℝ) ^ 2 := by positivity
    rw [hQ]
    simp only [div_pow]
    rw [integral_div, div_le_div_iff₀ (by positivity) hk', one_mul, pow_two ((k : ℝ) ^ 2)]
    push_cast at h2
    exact mul_le_mul_of_nonneg_right h2 hk'.le
  have hsum : ∫⁻ v, ∑' k, ENNReal.ofReal (Q k v) ∂P ≠ ⊤ := by
    rw [lintegral_tsum fun k => ((hQm k).ennreal_ofReal).aemeasurable]
    have : ∀ k, ∫⁻ v, ENNReal.ofReal (Q k v) ∂P ≤ ENNReal.ofReal (1 / (k : ℝ) ^ 2) := fun k => by
      rw [← ofReal_integral_eq_lintegral_ofReal (hQi k) (ae_of_all _ (hQ0 k))]
      exact ENNReal.ofReal_le_ofReal (hmean k)
    refine ne_top_of_le_ne_top ?_ (ENNReal.tsum_le_tsum this)
    have hs : Summable fun k : ℕ => 1 / (k : ℝ) ^ 2 := Real.summable_one_div_nat_pow.2 (by norm_num)
    rw [← ENNReal.ofReal_tsum_of_nonneg (fun k => by positivity) hs]
    exact ENNReal.ofReal_ne_top
  have hfin := ae_lt_top' (AEMeasurable.tsum fun k => ((hQm k).ennreal_ofReal).aemeasurable) hsum
  filter_upwards [hfin] with v hv
  have hq : Tendsto (fun k => Q k v) atTop (𝓝 0) := by
    have h2 := ENNReal.tendsto_atTop_zero_of_tsum_ne_top hv.ne
    have h3 := (ENNReal.tendsto_toReal ENNReal.zero_ne_top).comp h2
    refine h3.congr fun k => ?_
    simp [ENNReal.toReal_ofReal (hQ0 k v)]
  have hr : Tendsto (fun k : ℕ => √(Q k v) + 2 / (k : ℝ)) atTop (𝓝 0) := by
    have h4 : Tendsto (fun k : ℕ => (2 : ℝ) / (k : ℝ)) atTop (𝓝 0) :=
      tendsto_const_nhds.div_atTop tendsto_natCast_atTop_atTop
    simpa using hq.sqrt.add h4
  have hsq : Tendsto Nat.sqrt atTop atTop := by
    refine tendsto_atTop.2 fun b => ?_
    filter_upwards [eventually_ge_atTop (b * b)] with n hn
    exact Nat.le_sqrt.2 hn
  refine squeeze_zero_norm' ?_ (hr.comp hsq)
  filter_upwards [eventually_ge_atTop 1] with n hn
  obtain ⟨k, hk⟩ : ∃ k, k = Nat.sqrt n := ⟨_, rfl⟩
  have hk1 : 1 ≤ k := by rw [hk]; exact Nat.le_sqrt.2 (by simpa using hn)
  have hkn : k ^ 2 ≤ n := by rw [hk]; exact Nat.sqrt_le' n
  have hnk : n ≤ k ^ 2 + 2 * k := by
    have := Nat.sqrt_le_add n
    rw [← hk] at this
    nlinarith
  have hk0 : (0 : ℝ) < k := by exact_mod_cast hk1
  have hsqrt : √(Q k v) = |∑ i ∈ Finset.range (k ^ 2), Y i v| / (k : ℝ) ^ 2 := by
    rw [hQ, Real.sqrt_sq_eq_abs, abs_div, abs_of_pos (show (0 : ℝ) < (k : ℝ) ^ 2 by positivity)]
  have hdiff : |∑ i ∈ Finset.range n, Y i v| ≤ |∑ i ∈ Finset.range (k ^ 2), Y i v| + 2 * k := by
    rw [← Finset.sum_range_add_sum_Ico _ hkn]
    refine (abs_add_le _ _).trans (add_le_add_right ?_ _)
    calc |∑ i ∈ Finset.Ico (k ^ 2) n, Y i v| ≤ ∑ i ∈ Finset.Ico (k ^ 2) n, |Y i v| :=
          Finset.abs_sum_le_sum_abs _ _
      _ ≤ ∑ i ∈ Finset.Ico (k ^ 2) n, (1 : ℝ) := Finset.sum_le_sum fun i _ => h1 i v
      _ = ((n - k ^ 2 : ℕ) : ℝ) := by simp
      _ ≤ 2 * k := by
        have : n - k ^ 2 ≤ 2 * k := by omega
        exact_mod_cast this
  show ‖(∑ i ∈ Finset.range n, Y i v) / n‖ ≤ √(Q (Nat.sqrt n) v) + 2 / ((Nat.sqrt n : ℕ) : ℝ)
  rw [← hk, hsqrt, Real.norm_eq_abs, abs_div, abs_of_nonneg (Nat.cast_nonneg n : (0 : ℝ) ≤ n)]
  have hkn' : (k : ℝ) ^ 2 ≤ n := by exact_mod_cast hkn
  calc |∑ i ∈ Finset.range n, Y i v| / (n : ℝ) ≤
        (|∑ i ∈ Finset.range (k ^ 2), Y i v| + 2 * k) / (k : ℝ) ^ 2 :=
        div_le_div₀ (by positivity) hdiff (by positivity) hkn'
    _ = _ := by field_simp

end

section

variable {S O E : Type*} [Fintype O] [Fintype E] (q : E → ℝ) (g₀ : O × E → ℝ) (g : S → O × E → ℝ)

/-- On a compact set of parameters that all predict something else in an experiment with a positive
share, the loss in the logarithm of the likelihood, cut off below, is bounded away from zero whatever the
shares of the experiments are. -/
theorem gap_shares [TopologicalSpace S] (C : Set S) (hC : IsCompact C) (hq : ∀ e, 0 ≤ q e)
    (hg₀ : ∀ d, 0 ≤ g₀ d) (hg : ∀ x d, 0 ≤ g x d) (hs₀ : ∀ e, ∑ o, g₀ (o, e) = 1)
    (hs : ∀ x e, ∑ o, g x (o, e) = 1) (hcont : ∀ d, Continuous fun x => g x d)
    (hne : ∀ x ∈ C, ∃ d : O × E, 0 < q d.2 ∧ g x d ≠ g₀ d) :
    ∃ h > 0, ∃ δ > 0, δ < 1 ∧ ∀ x ∈ C, ∀ f : E → ℝ, (∀ e, 0 ≤ f e) → (∀ e, q e ≤ f e) → ∑ e, f e = 1 →
      h ≤ ∑ d : O × E, f d.2 * g₀ d * (Real.log (g₀ d) - Real.log (max (g x d) δ)) := by
  rcases C.eq_empty_or_nonempty with rfl | hCne
  · exact ⟨1, one_pos, 1 / 2, by norm_num, by norm_num, by simp⟩
  have hHc : Continuous fun x => ∑ e, q e * ∑ o, (√(g₀ (o, e)) - √(g x (o, e))) ^ 2 :=
    continuous_finsetSum _ fun e _ => continuous_const.mul (continuous_finsetSum _ fun o _ =>
      (continuous_const.sub (hcont (o, e)).sqrt).pow 2)
  obtain ⟨x₀, hx₀, hmin⟩ := hC.exists_isMinOn hCne hHc.continuousOn
  have hin : ∀ x e, 0 ≤ ∑ o, (√(g₀ (o, e)) - √(g x (o, e))) ^ 2 := fun x e =>
    Finset.sum_nonneg fun o _ => sq_nonneg _
  have hpos : 0 < ∑ e, q e * ∑ o, (√(g₀ (o, e)) - √(g x₀ (o, e))) ^ 2 := by
    obtain ⟨⟨o, e⟩, hqe, hd⟩ := hne x₀ hx₀
    refine Finset.sum_pos' (fun e _ => mul_nonneg (hq e) (hin _ _)) ⟨e, Finset.mem_univ e, ?_⟩
    refine mul_pos hqe (Finset.sum_pos' (fun o _ => sq_nonneg _) ⟨o, Finset.mem_univ o, ?_⟩)
    refine sq_pos_of_ne_zero ?_
    intro h0
    exact hd ((Real.sqrt_inj (hg₀ _) (hg x₀ _)).1 (sub_eq_zero.1 h0)).symm
  obtain ⟨H, hH⟩ : ∃ H, H = ∑ e, q e * ∑ o, (√(g₀ (o, e)) - √(g x₀ (o, e))) ^ 2 := ⟨_, rfl⟩
  rw [← hH] at hpos
  obtain ⟨N, hN⟩ : ∃ N : ℝ, N = Fintype.card O := ⟨_, rfl⟩
  have hN0 : 0 ≤ N := by rw [hN]; positivity
  obtain ⟨r, hr⟩ : ∃ r, r = min (1 / 2) (H / (4 * (N + 1))) := ⟨_, rfl⟩
  have hr0 : 0 < r := by rw [hr]; exact lt_min (by norm_num) (by positivity)
  have hr1 : r ≤ 1 / 2 := by rw [hr]; exact min_le_left _ _
  have hr2 : r ≤ H / (4 * (N + 1)) := by rw [hr]; exact min_le_right _ _
  rw [le_div_iff₀ (by positivity)] at hr2
  refine ⟨H / 2, by positivity, r ^ 2, by positivity, by nlinarith, fun x hx f hf hqf hf1 => ?_⟩
  have hle1 : ∀ d, g₀ d ≤ 1 := fun d => by
    rw [← hs₀ d.2]
    exact Finset.single_le_sum (f := fun o => g₀ (o, d.2)) (fun o _ => hg₀ _) (Finset.mem_univ d.1)
  have hgap : ∀ e, ∑ o, (√(g₀ (o, e)) - √(g x (o, e))) ^ 2 - 2 * N * r ≤
      ∑ o, g₀ (o, e) * (Real.log (g₀ (o, e)) - Real.log (max (g x (o, e)) (r ^ 2))) := fun e => by
    have := gap_at (fun _ : O => (1 : ℝ)) (fun o => g₀ (o, e)) (fun x o => g x (o, e)) x
      (fun _ => zero_le_one) (fun o => hg₀ _) (fun o => hle1 _) (fun o => hg x _)
      (by simpa using hs₀ e) (by simpa using hs x e) r hr0
    simpa [← hN] using this
  have h1 : H ≤ ∑ e, q e * ∑ o, (√(g₀ (o, e)) - √(g x (o, e))) ^ 2 := by rw [hH]; exact hmin hx
  have h2 : ∑ e, q e * ∑ o, (√(g₀ (o, e)) - √(g x (o, e))) ^ 2 ≤
      ∑ e, f e * ∑ o, (√(g₀ (o, e)) - √(g x (o, e))) ^ 2 :=
    Finset.sum_le_sum fun e _ => mul_le_mul_of_nonneg_right (hqf e) (hin x e)
  have h3 : ∑ e, f e * (∑ o, (√(g₀ (o, e)) - √(g x (o, e))) ^ 2 - 2 * N * r) ≤
      ∑ e, f e * ∑ o, g₀ (o, e) * (Real.log (g₀ (o, e)) - Real.log (max (g x (o, e)) (r ^ 2))) :=
    Finset.sum_le_sum fun e _ => mul_le_mul_of_nonneg_left (hgap e) (hf e)
  have h4 : ∑ e, f e * (∑ o, (√(g₀ (o, e)) - √(g x (o, e))) ^ 2 - 2 * N * r) =
      ∑ e, f e * ∑ o, (√(g₀ (o, e)) - √(g x (o, e))) ^ 2 - 2 * N * r := by
    simp only [mul_sub, Finset.sum_sub_distrib]
    rw [← Finset.sum_mul, hf1, one_mul]
  have h5 : ∑ d : O × E, f d.2 * g₀ d * (Real.log (g₀ d) - Real.log (max (g x d) (r ^ 2))) =
      ∑ e, f e * ∑ o, g₀ (o, e) * (Real.log (g₀ (o, e)) - Real.log (max (g x (o, e)) (r ^ 2))) := by
    rw [Fintype.sum_prod_type, Finset.sum_comm]
    refine Finset.sum_congr rfl fun e _ => ?_
    rw [Finset.mul_sum]
    exact Finset.sum_congr rfl fun o _ => by ring
  rw [h5]
  nlinarith

/-- If the frequencies of the outcomes of every experiment tend to their probabilities, the likelihood of
parameters with the gap `h` falls exponentially behind, uniformly. -/
theorem likelihood_falls_shares [DecidableEq O] [DecidableEq E] (z : ℕ → O × E) (C : Set S) (h δ : ℝ)
    (hh : 0 < h) (hδ : 0 < δ) (hδ1 : δ < 1) (hg : ∀ x d, 0 ≤ g x d) (hg1 : ∀ x d, g x d ≤ 1)
    (hgap : ∀ x ∈ C, ∀ f : E → ℝ, (∀ e, 0 ≤ f e) → (∀ e, q e ≤ f e) → ∑ e, f e = 1 →
      h ≤ ∑ d : O × E, f d.2 * g₀ d * (Real.log (g₀ d) - Real.log (max (g x d) δ)))
    (hz : ∀ i, 0 < g₀ (z i))
    (hshare : ∀ᶠ t : ℕ in atTop, ∀ e, q e * t ≤ ∑ i ∈ Finset.range t, if (z i).2 = e then (1 : ℝ) else 0)
    (hfreq : ∀ d : O × E, Tendsto (fun t : ℕ => (∑ i ∈ Finset.range t,
      ((if z i = d then (1 : ℝ) else 0) - g₀ d * if (z i).2 = d.2 then (1 : ℝ) else 0)) / t) atTop (𝓝 0)) :
    ∀ᶠ t : ℕ in atTop, ∀ x ∈ C, ∏ i ∈ Finset.range t, g x (z i) ≤
      Real.exp (-(h / 2 * t)) * ∏ i ∈ Finset.range t, g₀ (z i) := by
  obtain ⟨B, hB⟩ : ∃ B, B = ∑ d, |Real.log (g₀ d)| + |Real.log δ| := ⟨_, rfl⟩
  have hl : ∀ x d, |Real.log (g₀ d) - Real.log (max (g x d) δ)| ≤ B := by
    intro x d
    have h1 : |Real.log (g₀ d)| ≤ ∑ d, |Real.log (g₀ d)| :=
      Finset.single_le_sum (f := fun d => |Real.log (g₀ d)|) (fun d _ => abs_nonneg _) (Finset.mem_univ d)
    have hm : δ ≤ max (g x d) δ := le_max_right _ _
    have hm1 : max (g x d) δ ≤ 1 := max_le (hg1 x d) hδ1.le
    have h2 : |Real.log (max (g x d) δ)| ≤ |Real.log δ| := by
      rw [abs_of_nonpos (Real.log_nonpos (hδ.le.trans hm) hm1), abs_of_nonpos (Real.log_nonpos hδ.le hδ1.le)]
      exact neg_le_neg (Real.log_le_log hδ hm)
    rw [hB]
    exact (abs_sub _ _).trans (add_le_add h1 h2)
  obtain ⟨G, hG⟩ : ∃ G : O × E → ℕ → ℝ, G = fun d t => (∑ i ∈ Finset.range t,
      ((if z i = d then (1 : ℝ) else 0) - g₀ d * if (z i).2 = d.2 then (1 : ℝ) else 0)) / t := ⟨_, rfl⟩
  have hlim : Tendsto (fun t : ℕ => ∑ d, |G d t| * B) atTop (𝓝 0) := by
    have : Tendsto (fun t : ℕ => ∑ d, |G d t| * B) atTop (𝓝 (∑ _d : O × E, |(0 : ℝ)| * B)) :=
      tendsto_finsetSum _ fun d _ => by
        rw [hG]; exact (hfreq d).abs.mul_const B
    simpa using this
  filter_upwards [hlim.eventually_lt_const (half_pos hh), eventually_ne_atTop 0, hshare] with t ht ht0 hsh x hx
  have htp : (0 : ℝ) < t := by exact_mod_cast Nat.pos_of_ne_zero ht0
  obtain ⟨f, hf⟩ : ∃ f : E → ℝ, f = fun e => (∑ i ∈ Finset.range t, if (z i).2 = e then (1 : ℝ) else 0) / t :=
    ⟨_, rfl⟩
  have hGt : ∀ d, G d t = (∑ i ∈ Finset.range t, if z i = d then (1 : ℝ) else 0) / t - f d.2 * g₀ d := by
    intro d
    rw [hG, hf]
    simp only [Finset.sum_sub_distrib, ← Finset.mul_sum]
    ring
  have hgx := hgap x hx f
    (fun e => by
      rw [hf]
      exact div_nonneg (Finset.sum_nonneg fun i _ => by split_ifs <;> norm_num) htp.le)
    (fun e => by rw [hf]; exact (le_div_iff₀ htp).2 (hsh e))
    (by
      rw [hf]
      simp only
      rw [← Finset.sum_div, Finset.sum_comm]
      simp [htp.ne'])
  have hsum : h / 2 * t ≤ ∑ i ∈ Finset.range t, (Real.log (g₀ (z i)) - Real.log (max (g x (z i)) δ)) := by
    rw [sum_by_count z (fun d => Real.log (g₀ d) - Real.log (max (g x d) δ)) t ht0, mul_comm]
    refine mul_le_mul_of_nonneg_left ?_ (Nat.cast_nonneg t)
    have hd : ∑ d : O × E, f d.2 * g₀ d * (Real.log (g₀ d) - Real.log (max (g x d) δ)) -
        ∑ d, (∑ i ∈ Finset.range t, if z i = d then (1 : ℝ) else 0) / t *
          (Real.log (g₀ d) - Real.log (max (g x d) δ)) ≤ ∑ d, |G d t| * B := by
      rw [← Finset.sum_sub_distrib]
      refine Finset.sum_le_sum fun d _ => ?_
      rw [← sub_mul]
      refine (le_abs_self _).trans ?_
      rw [abs_mul, abs_sub_comm, ← hGt]
      exact mul_le_mul_of_nonneg_left (hl x d) (abs_nonneg _)
    linarith
  have hm : ∀ i, 0 < max (g x (z i)) δ := fun i => lt_of_lt_of_le hδ (le_max_right _ _)
  calc ∏ i ∈ Finset.range t, g x (z i) ≤ ∏ i ∈ Finset.range t, max (g x (z i)) δ :=
        Finset.prod_le_prod (fun i _ => hg x _) fun i _ => le_max_left _ _
    _ = Real.exp (-∑ i ∈ Finset.range t, (Real.log (g₀ (z i)) - Real.log (max (g x (z i)) δ))) *
          ∏ i ∈ Finset.range t, g₀ (z i) := by
        rw [← Finset.sum_neg_distrib, Real.exp_sum, ← Finset.prod_mul_distrib]
        refine Finset.prod_congr rfl fun i _ => ?_
        rw [neg_sub, Real.exp_sub, Real.exp_log (hm i), Real.exp_log (hz i),
          div_mul_cancel₀ _ (hz i).ne']
    _ ≤ _ := mul_le_mul_of_nonneg_right (Real.exp_le_exp.2 (neg_le_neg hsum))
        (Finset.prod_nonneg fun i _ => (hz i).le)

end

end QInfer
