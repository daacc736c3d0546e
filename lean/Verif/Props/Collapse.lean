import Verif.Props.ModelSelection
import Verif.Props.EstResample
import Verif.Props.Particle

/-!
# C142: a cloud that is not resampled collapses

No particle need be the truth.  With more and more independent data the particle that fits the data best takes
all the weight, exponentially fast; the updater becomes certain of it; the effective sample size falls to
one; an updater that checks it resamples.
-/

namespace QInfer

open Spec Filter Topology MeasureTheory ProbabilityTheory Function

variable {Ω O E R : Type*} [MeasurableSpace Ω] [MeasurableSpace O] [MeasurableSpace E]

/-! ## Specification -/

/-- Particle `i` has weight and an expected log-likelihood larger by `gap` than that of any other particle
with weight. -/
structure Spec.FitsBest {n : ℕ} (μ : Measure (O × E)) (like : O → List ℝ → E → ℝ) (w : Fin n → ℝ)
    (x : Fin n → List ℝ) (i : Fin n) (gap : ℝ) : Prop where
  weight : 0 < w i
  gap_pos : 0 < gap
  fit : ∃ m, FitIs μ (predicts like (x i)) m ∧
    ∀ k, k ≠ i → 0 < w k → FitAtMost μ (predicts like (x k)) (m - gap)

/-! ## Ratios of likelihoods -/

section
variable {P : Measure Ω} [IsProbabilityMeasure P] {μ : Measure (O × E)} {D : ℕ → Ω → O × E} {n : ℕ}
  {like : O → List ℝ → E → ℝ} {w : Fin n → ℝ} {x : Fin n → List ℝ} {i : Fin n} {gap : ℝ}

/-- Likelihood of the first `t` data. -/
noncomputable def firstLike (like : O → List ℝ → E → ℝ) (D : ℕ → Ω → O × E) (y : List ℝ) (v : Ω) (t : ℕ) : ℝ :=
  ∏ r ∈ Finset.range t, predicts like y (D r v)

theorem best_ratio (hD : IidData P μ D) (h : FitsBest μ like w x i gap) :
    ∀ᵐ v ∂P, (∀ t, 0 < firstLike like D (x i) v t) ∧ ∀ c < gap, ∀ᶠ t : ℕ in atTop, ∀ k, k ≠ i → 0 < w k →
      firstLike like D (x k) v t ≤ Real.exp (-c * t) * firstLike like D (x i) v t := by
  obtain ⟨m, hi, hall⟩ := h.fit
  have hae : ∀ᵐ v ∂P, ∀ k, k ≠ i → 0 < w k → ∀ m' > m - gap, ∀ᶠ t : ℕ in atTop,
      ∏ r ∈ Finset.range t, predicts like (x k) (D r v) ≤ Real.exp (t * m') := by
    rw [ae_all_iff]
    intro k
    by_cases hk : k ≠ i ∧ 0 < w k
    · filter_upwards [fit_at_most hD (hall k hk.1 hk.2)] with v hv _ _ using hv
    · exact ae_of_all _ fun v h1 h2 => absurd ⟨h1, h2⟩ hk
  filter_upwards [fit_log hD hi, hae] with v ⟨hpos, hlim⟩ hv
  refine ⟨hpos, fun c hc => ?_⟩
  have hev : ∀ᶠ t : ℕ in atTop, ∀ k, k ≠ i → 0 < w k →
      ∏ r ∈ Finset.range t, predicts like (x k) (D r v) ≤ Real.exp (t * (m - gap + (gap - c) / 2)) := by
    rw [eventually_all]
    intro k
    by_cases hk : k ≠ i ∧ 0 < w k
    · exact (hv k hk.1 hk.2 _ (by linarith)).mono fun t ht _ _ => ht
    · exact Eventually.of_forall fun t h1 h2 => absurd ⟨h1, h2⟩ hk
  filter_upwards [hev, hlim.eventually_const_lt (show m - (gap - c) / 2 < m by linarith), eventually_gt_atTop 0]
    with t ht hti ht0 k hk hwk
  have ht0' : (0 : ℝ) < t := by exact_mod_cast ht0
  refine (ht k hk hwk).trans ?_
  rw [lt_div_iff₀ ht0', Real.lt_log_iff_exp_lt (hpos t)] at hti
  calc Real.exp (t * (m - gap + (gap - c) / 2))
      = Real.exp (-c * t) * Real.exp ((m - (gap - c) / 2) * t) := by rw [← Real.exp_add]; congr 1; ring
    _ ≤ _ := mul_le_mul_of_nonneg_left hti.le (Real.exp_pos _).le

end

/-! ## Weights -/

section
variable {n : ℕ} {cfg : SmcConfig ℝ} {env : Env ℝ O E R} {check : Bool} {w : Fin n → ℝ}
  {x : Fin n → List ℝ} {s : Smc ℝ O R} {P : Measure Ω} [IsProbabilityMeasure P] {μ : Measure (O × E)}
  {D : ℕ → Ω → O × E} {i : Fin n} {gap : ℝ}

/-- The posterior weight. -/
theorem posterior_weight (h : Resting cfg env check w x s) (D : ℕ → Ω → O × E) (t : ℕ) (v : Ω)
    (hok : (feed cfg env check (firstData D t v) s).2 = .ok ()) :
    0 < ∑ k, w k * firstLike env.likelihood D (x k) v t ∧
    ∀ j : Fin n, (feed cfg env check (firstData D t v) s).1.weights.getD j 0 =
      w j * firstLike env.likelihood D (x j) v t / ∑ k, w k * firstLike env.likelihood D (x k) v t := by
  obtain ⟨h1, -⟩ := h.weight D t v hok
  obtain ⟨-, -, h3, -⟩ := (feed_paths cfg env h.good check h.off h.policy h.thresh.1 h.thresh.2
    (firstData D t v) w (fun i _ => x i) h.nonneg h.sum s h.weights h.locs
    (moves_static env h.static _ _ x)).2 hok
  simp only [pathLike_static, prod_first] at h3
  refine ⟨h3, fun j => ?_⟩
  rw [h1]
  simp [firstLike, predicts]

/-- **C142, the best fit takes all.**  The weight of the best fitting particle approaches one
exponentially fast, at any rate below the gap. -/
theorem C142_best_fit (h : Resting cfg env check w x s) (hD : IidData P μ D)
    (hb : FitsBest μ env.likelihood w x i gap) :
    ∀ᵐ v ∂P, (∀ t, (feed cfg env check (firstData D t v) s).2 = .ok ()) → ∀ c < gap, ∀ᶠ t : ℕ in atTop,
      1 - (feed cfg env check (firstData D t v) s).1.weights.getD i 0 ≤ Real.exp (-c * t) / w i := by
  filter_upwards [best_ratio hD hb] with v ⟨hpos, hr⟩ hok c hc
  filter_upwards [hr c hc] with t ht
  obtain ⟨hE, hw⟩ := posterior_weight h D t v (hok t)
  have hwi := hb.weight
  have hF := hpos t
  have hnn : ∀ k, 0 ≤ w k * firstLike env.likelihood D (x k) v t := fun k =>
    mul_nonneg (h.nonneg k) (Finset.prod_nonneg fun r _ => h.good.like_nonneg _ _ _)
  have h1 : ∑ k ∈ Finset.univ.erase i, w k * firstLike env.likelihood D (x k) v t ≤
      Real.exp (-c * t) * firstLike env.likelihood D (x i) v t := by
    calc _ ≤ ∑ k ∈ Finset.univ.erase i, w k * (Real.exp (-c * t) * firstLike env.likelihood D (x i) v t) :=
          Finset.sum_le_sum fun k hk => by
            rcases (h.nonneg k).eq_or_lt with h0 | h0
            · rw [← h0, zero_mul, zero_mul]
            · exact mul_le_mul_of_nonneg_left (ht k (Finset.ne_of_mem_erase hk) h0) h0.le
      _ = (∑ k ∈ Finset.univ.erase i, w k) * (Real.exp (-c * t) * firstLike env.likelihood D (x i) v t) :=
          (Finset.sum_mul _ _ _).symm
      _ ≤ 1 * (Real.exp (-c * t) * firstLike env.likelihood D (x i) v t) := by
          refine mul_le_mul_of_nonneg_right ?_ (mul_pos (Real.exp_pos _) hF).le
          rw [← h.sum]
          exact Finset.sum_le_sum_of_subset_of_nonneg (Finset.erase_subset _ _) fun k _ _ => h.nonneg k
      _ = _ := one_mul _
  have h2 : w i * firstLike env.likelihood D (x i) v t ≤ ∑ k, w k * firstLike env.likelihood D (x k) v t :=
    Finset.single_le_sum (f := fun k => w k * firstLike env.likelihood D (x k) v t) (fun k _ => hnn k)
      (Finset.mem_univ i)
  rw [hw i, one_sub_div hE.ne', div_le_div_iff₀ hE hwi]
  have h3 : ∑ k, w k * firstLike env.likelihood D (x k) v t - w i * firstLike env.likelihood D (x i) v t =
      ∑ k ∈ Finset.univ.erase i, w k * firstLike env.likelihood D (x k) v t := by
    rw [← Finset.add_sum_erase _ _ (Finset.mem_univ i)]; ring
  rw [h3]
  calc _ ≤ Real.exp (-c * t) * firstLike env.likelihood D (x i) v t * w i :=
        mul_le_mul_of_nonneg_right h1 hwi.le
    _ = Real.exp (-c * t) * (w i * firstLike env.likelihood D (x i) v t) := by ring
    _ ≤ _ := mul_le_mul_of_nonneg_left h2 (Real.exp_pos _).le

/-- All weights after `t` data. -/
theorem all_weights (h : Resting cfg env check w x s) (D : ℕ → Ω → O × E) (t : ℕ) (v : Ω)
    (hok : (feed cfg env check (firstData D t v) s).2 = .ok ()) : ∃ W : Fin n → ℝ,
    (∀ j, W j = (feed cfg env check (firstData D t v) s).1.weights.getD j 0) ∧ (∀ j, 0 ≤ W j) ∧ ∑ j, W j = 1 ∧
    (feed cfg env check (firstData D t v) s).1.weights = List.ofFn W ∧
    (feed cfg env check (firstData D t v) s).1.locs = List.ofFn x := by
  obtain ⟨h1, h2⟩ := h.weight D t v hok
  obtain ⟨hE, hw⟩ := posterior_weight h D t v hok
  refine ⟨_, fun j => (hw j).symm, fun j => div_nonneg (mul_nonneg (h.nonneg j)
    (Finset.prod_nonneg fun r _ => h.good.like_nonneg _ _ _)) hE.le, ?_, h1, h2⟩
  rw [← Finset.sum_div, div_self hE.ne']

theorem best_weight_one (h : Resting cfg env check w x s) (hD : IidData P μ D)
    (hb : FitsBest μ env.likelihood w x i gap) :
    ∀ᵐ v ∂P, (∀ t, (feed cfg env check (firstData D t v) s).2 = .ok ()) →
      Tendsto (fun t => (feed cfg env check (firstData D t v) s).1.weights.getD i 0) atTop (𝓝 1) := by
  filter_upwards [C142_best_fit h hD hb] with v hv hok
  have h1 : Tendsto (fun t : ℕ => 1 - Real.exp (-(gap / 2) * t) / w i) atTop (𝓝 (1 - 0 / w i)) := by
    refine tendsto_const_nhds.sub (Tendsto.div_const ?_ _)
    refine Real.tendsto_exp_atBot.comp ?_
    exact tendsto_natCast_atTop_atTop.const_mul_atTop_of_neg (by linarith [hb.gap_pos])
  rw [zero_div, sub_zero] at h1
  refine tendsto_of_tendsto_of_tendsto_of_le_of_le' h1 tendsto_const_nhds ?_ (Eventually.of_forall fun t => ?_)
  · filter_upwards [hv hok (gap / 2) (by linarith [hb.gap_pos])] with t ht
    linarith
  · obtain ⟨W, hW, h0, hs, -⟩ := all_weights h D t v (hok t)
    rw [← hW i, ← hs]
    exact Finset.single_le_sum (fun j _ => h0 j) (Finset.mem_univ i)

/-- **C142, certainty.**  Every estimate tends to its value at the best fitting particle and its posterior
variance tends to zero, whatever the truth is. -/
theorem C142_certainty (h : Resting cfg env check w x s) (hD : IidData P μ D)
    (hb : FitsBest μ env.likelihood w x i gap) :
    ∀ᵐ v ∂P, (∀ t, (feed cfg env check (firstData D t v) s).2 = .ok ()) → ∀ f : List ℝ → ℝ,
      Tendsto (fun t => cloudMean f (feed cfg env check (firstData D t v) s).1) atTop (𝓝 (f (x i))) ∧
      Tendsto (fun t => cloudMean (fun y => f y ^ 2) (feed cfg env check (firstData D t v) s).1 -
        cloudMean f (feed cfg env check (firstData D t v) s).1 ^ 2) atTop (𝓝 0) := by
  filter_upwards [best_weight_one h hD hb] with v hv hok
  have hone := hv hok
  choose W hW h0 hs hw hl using fun t => all_weights h D t v (hok t)
  have hcm : ∀ (f : List ℝ → ℝ) t, cloudMean f (feed cfg env check (firstData D t v) s).1 = ∑ j, W t j * f (x j) :=
    fun f t => by
      rw [cloudMean, hw t, hl t, zip_ofFn, List.map_ofFn, List.sum_ofFn]
      rfl
  have hi1 : Tendsto (fun t => W t i) atTop (𝓝 1) := hone.congr fun t => (hW t i).symm
  have hzero : ∀ j, j ≠ i → Tendsto (fun t => W t j) atTop (𝓝 0) := fun j hj => by
    have h1 := hi1.const_sub 1
    rw [sub_self] at h1
    refine squeeze_zero (fun t => h0 t j) (fun t => ?_) h1
    rw [← hs t, ← Finset.add_sum_erase _ _ (Finset.mem_univ i), add_sub_cancel_left]
    exact Finset.single_le_sum (fun k _ => h0 t k) (Finset.mem_erase.mpr ⟨hj, Finset.mem_univ j⟩)
  have hlim : ∀ f : List ℝ → ℝ,
      Tendsto (fun t => cloudMean f (feed cfg env check (firstData D t v) s).1) atTop (𝓝 (f (x i))) := by
    intro f
    simp only [hcm]
    have h4 : Tendsto (fun t => ∑ j, W t j * f (x j)) atTop
        (𝓝 (∑ j, (if j = i then 1 else 0) * f (x j))) := by
      refine tendsto_finsetSum _ fun j _ => ?_
      by_cases hj : j = i
      · subst hj; rw [if_pos rfl]; exact hi1.mul_const _
      · rw [if_neg hj]; exact (hzero j hj).mul_const _
    simpa using h4
  intro f
  refine ⟨hlim f, ?_⟩
  have := (hlim fun y => f y ^ 2).sub ((hlim f).pow 2)
  simpa using this

/-- **C142, effective sample size.**  It tends to one. -/
theorem C142_ess (h : Resting cfg env check w x s) (hD : IidData P μ D)
    (hb : FitsBest μ env.likelihood w x i gap) :
    ∀ᵐ v ∂P, (∀ t, (feed cfg env check (firstData D t v) s).2 = .ok ()) → ∀ δ > 0, ∀ᶠ t : ℕ in atTop,
      ((1 : ℝ) : WithTop ℝ) ≤ nEss (feed cfg env check (firstData D t v) s).1.weights ∧
      nEss (feed cfg env check (firstData D t v) s).1.weights < ((1 + δ : ℝ) : WithTop ℝ) := by
  filter_upwards [best_weight_one h hD hb] with v hv hok δ hδ
  have h1 : Tendsto (fun t => 1 / (feed cfg env check (firstData D t v) s).1.weights.getD i 0 ^ 2) atTop
      (𝓝 (1 / 1 ^ 2)) := tendsto_const_nhds.div ((hv hok).pow 2) (by norm_num)
  rw [one_pow, div_one] at h1
  filter_upwards [h1.eventually_lt_const (show (1 : ℝ) < 1 + δ by linarith),
    (hv hok).eventually_const_lt (show (0 : ℝ) < 1 by norm_num)] with t ht hpos
  obtain ⟨W, hW, h0, hs, hw, -⟩ := all_weights h D t v (hok t)
  rw [← hW i] at ht hpos
  have hprob : IsProb (List.ofFn W) := ⟨fun y hy => by
    obtain ⟨j, rfl⟩ := List.mem_ofFn.mp hy; exact h0 j, by rw [List.sum_ofFn]; exact hs⟩
  obtain ⟨e, he, h2, -⟩ := C11_ess_bounds _ hprob
  rw [hw, he]
  refine ⟨WithTop.coe_le_coe.mpr h2, WithTop.coe_lt_coe.mpr (lt_of_le_of_lt ?_ ht)⟩
  have hsq : ((List.ofFn W).map fun y => y ^ 2).sum = ∑ j, W j ^ 2 := by
    rw [List.map_ofFn, List.sum_ofFn]; rfl
  have hge : W i ^ 2 ≤ ∑ j, W j ^ 2 :=
    Finset.single_le_sum (f := fun j => W j ^ 2) (fun j _ => sq_nonneg _) (Finset.mem_univ i)
  have hi2 : 0 < W i ^ 2 := by positivity
  unfold nEss recip at he
  rw [hsq, if_neg (lt_of_lt_of_le hi2 hge).ne'] at he
  rw [← WithTop.coe_inj.mp he]
  exact one_div_le_one_div_of_le hi2 hge

/-! ## Resampling -/

omit [MeasurableSpace O] [MeasurableSpace E] in
theorem Spec.Resting.winv (h : Resting cfg env check w x s) : WInv s := by
  refine ⟨?_, by rw [h.weights, h.locs]; simp⟩
  rw [h.weights]
  exact ⟨fun y hy => by obtain ⟨j, rfl⟩ := List.mem_ofFn.mp hy; exact h.nonneg j, by rw [List.sum_ofFn]; exact h.sum⟩

/-- **C142, resampling comes.**  An updater that checks, with a threshold larger than `1/n` for its `n`
particles, resamples at some time, unless it raises. -/
theorem C142_resamples (h : Resting cfg env false w x s) (hD : IidData P μ D)
    (hb : FitsBest μ env.likelihood w x i gap) (hthr : 1 < n * cfg.resampleThresh) :
    ∀ᵐ v ∂P, (∀ t, (feed cfg env true (firstData D t v) s).2 = .ok ()) →
      ∃ t, s.resampleCount < (feed cfg env true (firstData D t v) s).1.resampleCount := by
  filter_upwards [best_ratio hD hb] with v ⟨hpos, hr⟩ hok
  by_contra hno
  push Not at hno
  obtain ⟨c, hc0, hc⟩ := exists_between hb.gap_pos
  have hwi := hb.weight
  -- the threshold is kept for ever
  have hkeep : ∀ t : ℕ, 0 < t → n * cfg.resampleThresh * ∑ k, (w k * firstLike env.likelihood D (x k) v t) ^ 2 ≤
      (∑ k, w k * firstLike env.likelihood D (x k) v t) ^ 2 := by
    intro t ht
    have hmono := (feed_checked cfg env h.good h.static h.policy h.thresh.1 h.thresh.2 (firstData D t v) s h.winv
      (hok t)).2.1
    have := (feed_count_iff cfg env h.good h.static h.policy h.thresh.1 h.thresh.2 (firstData D t v) s h.winv
      (hok t)).mp (le_antisymm (hno t) hmono) t ht (by simp [firstData])
    rw [List.take_of_length_le (by simp [firstData])] at this
    have e1 : ∀ y, dataLike env.likelihood (firstData D t v) y = firstLike env.likelihood D y v t := fun y => by
      rw [dataLike, prod_first]; rfl
    simp only [evidenceSq, dataEvidence, e1, h.weights, h.locs, zip_ofFn, List.map_ofFn, List.sum_ofFn,
      List.length_ofFn, comp_def] at this
    exact this
  -- but in the limit it is not
  have hlim : ∀ k, k ≠ i → Tendsto (fun t => w k * firstLike env.likelihood D (x k) v t /
      (w i * firstLike env.likelihood D (x i) v t)) atTop (𝓝 0) := by
    intro k hk
    have h1 : Tendsto (fun t : ℕ => w k / w i * Real.exp (-c * t)) atTop (𝓝 (w k / w i * 0)) := by
      refine Tendsto.const_mul _ (Real.tendsto_exp_atBot.comp ?_)
      exact tendsto_natCast_atTop_atTop.const_mul_atTop_of_neg (by linarith)
    rw [mul_zero] at h1
    refine squeeze_zero' (Eventually.of_forall fun t => div_nonneg (mul_nonneg (h.nonneg k)
      (Finset.prod_nonneg fun r _ => h.good.like_nonneg _ _ _)) (mul_pos hwi (hpos t)).le) ?_ h1
    filter_upwards [hr c hc] with t ht
    rcases (h.nonneg k).eq_or_lt with h0 | h0
    · rw [← h0]; simp
    · rw [div_mul_eq_mul_div, div_le_div_iff₀ (mul_pos hwi (hpos t)) hwi]
      have := mul_le_mul_of_nonneg_left (ht k hk h0) (mul_pos h0 hwi).le
      calc _ = w k * w i * firstLike env.likelihood D (x k) v t := by ring
        _ ≤ _ := this
        _ = _ := by ring
  have hsum : Tendsto (fun t => ∑ k, w k * firstLike env.likelihood D (x k) v t /
      (w i * firstLike env.likelihood D (x i) v t)) atTop (𝓝 (∑ k, if k = i then 1 else 0)) := by
    refine tendsto_finsetSum _ fun k _ => ?_
    by_cases hk : k = i
    · subst hk
      rw [if_pos rfl]
      refine tendsto_const_nhds.congr fun t => (div_self (mul_pos hwi (hpos t)).ne').symm
    · rw [if_neg hk]
      exact hlim k hk
  rw [Finset.sum_ite_eq' Finset.univ i fun _ => (1 : ℝ), if_pos (Finset.mem_univ i)] at hsum
  have hsq := hsum.pow 2
  rw [one_pow] at hsq
  obtain ⟨t, ht, ht0⟩ := ((hsq.eventually_lt_const hthr).and (eventually_gt_atTop 0)).exists
  have h1 := hkeep t ht0
  have hq : 0 < (w i * firstLike env.likelihood D (x i) v t) ^ 2 := by
    have := mul_pos hwi (hpos t); positivity
  have h2 : (w i * firstLike env.likelihood D (x i) v t) ^ 2 ≤
      ∑ k, (w k * firstLike env.likelihood D (x k) v t) ^ 2 :=
    Finset.single_le_sum (f := fun k => (w k * firstLike env.likelihood D (x k) v t) ^ 2) (fun k _ => sq_nonneg _)
      (Finset.mem_univ i)
  rw [← Finset.sum_div, div_pow, div_lt_iff₀ hq] at ht
  have h3 : n * cfg.resampleThresh * (w i * firstLike env.likelihood D (x i) v t) ^ 2 ≤
      n * cfg.resampleThresh * ∑ k, (w k * firstLike env.likelihood D (x k) v t) ^ 2 :=
    mul_le_mul_of_nonneg_left h2 (by linarith)
  linarith

/-- **C142, when it never comes.**  With a threshold of at most `1/n` an updater with `n` particles never
resamples by itself. -/
theorem C142_never (h : Resting cfg env false w x s) (hthr : n * cfg.resampleThresh ≤ 1) (ds : List (O × E))
    (hok : (feed cfg env true ds s).2 = .ok ()) :
    (feed cfg env true ds s).1.resampleCount = s.resampleCount := by
  rw [feed_count_iff cfg env h.good h.static h.policy h.thresh.1 h.thresh.2 ds s h.winv hok]
  intro k _ _
  simp only [evidenceSq, dataEvidence, h.weights, h.locs, zip_ofFn, List.map_ofFn, List.sum_ofFn,
    List.length_ofFn, comp_def]
  obtain ⟨a, ha⟩ : ∃ a : Fin n → ℝ, a = fun j => w j * dataLike env.likelihood (ds.take k) (x j) := ⟨_, rfl⟩
  have ha0 : ∀ j, 0 ≤ a j := fun j => by
    rw [ha]
    exact mul_nonneg (h.nonneg j) (List.prod_nonneg fun y hy => by
      obtain ⟨d, -, rfl⟩ := List.mem_map.mp hy; exact h.good.like_nonneg _ _ _)
  have h1 : ∑ j, a j ^ 2 ≤ (∑ j, a j) ^ 2 := Finset.sum_sq_le_sq_sum_of_nonneg fun j _ => ha0 j
  have h2 : n * cfg.resampleThresh * ∑ j, a j ^ 2 ≤ 1 * ∑ j, a j ^ 2 :=
    mul_le_mul_of_nonneg_right hthr (Finset.sum_nonneg fun j _ => sq_nonneg _)
  rw [ha] at h1 h2
  linarith

end

/-! ## A case: the truth is not among the particles -/

section

theorem rest_integral (f : Bool × Unit → ℝ) : ∫ d, f d ∂restLaw = 3 / 4 * f (true, ()) + 1 / 4 * f (false, ()) := by
  have hm : ∀ g : Bool × Unit → ℝ, ∀ μ : Measure (Bool × Unit), IsFiniteMeasure μ → Integrable g μ :=
    fun g μ _ => Integrable.of_finite
  rw [restLaw, integral_add_measure (hm _ _ (Measure.smul_finite _ ENNReal.ofReal_ne_top))
    (hm _ _ (Measure.smul_finite _ ENNReal.ofReal_ne_top)), integral_smul_measure,
    integral_smul_measure, integral_dirac, integral_dirac, ENNReal.toReal_ofReal (by norm_num),
    ENNReal.toReal_ofReal (by norm_num), smul_eq_mul, smul_eq_mul]

theorem rest_fit (j : Fin 3) (xs : List (List ℝ)) : FitIs restLaw (predicts (restEnv xs).likelihood (restLocs j))
    (3 / 4 * Real.log (1 / 2 + ((j.val : ℝ) - 1) / 4) + 1 / 4 * Real.log (1 / 2 - ((j.val : ℝ) - 1) / 4)) where
  meas := measurable_of_finite _
  pos := ae_of_all _ fun d => lt_of_lt_of_le (by norm_num) (phase_like d.1 (restLocs j) d.2).1
  int := Integrable.of_finite
  eq := by
    rw [rest_integral]
    simp only [predicts, restEnv, restLocs_sin, if_true, one_mul, Bool.false_eq_true, if_false]
    congr 3
    ring

/-- With data from the third phase, the second phase fits better than the first. -/
theorem rest_best : FitsBest restLaw (restEnv (List.ofFn fun k => restLocs ((![0, 1] : Fin 2 → Fin 3) k))).likelihood
    (fun _ : Fin 2 => 1 / ((2 : ℕ) : ℝ)) (fun k => restLocs ((![0, 1] : Fin 2 → Fin 3) k)) 1 (Real.log 2 / 2) where
  weight := by norm_num
  gap_pos := by have := Real.log_pos (show (1 : ℝ) < 2 by norm_num); linarith
  fit := by
    refine ⟨_, rest_fit 1 _, fun k hk _ => Or.inr ⟨_, ?_, rest_fit _ _⟩⟩
    obtain rfl : k = 0 := by omega
    have h1 : Real.log (1 / 2) = - Real.log 2 := by rw [one_div, Real.log_inv]
    have h2 : Real.log (1 / 4) = - (2 * Real.log 2) := by
      rw [one_div, Real.log_inv, show (4 : ℝ) = 2 ^ 2 by norm_num, Real.log_pow]; norm_num
    have h3 : Real.log (3 / 4) < 0 := Real.log_neg (by norm_num) (by norm_num)
    have e : (![0, 1] : Fin 2 → Fin 3) 0 = 0 := rfl
    rw [e]
    norm_num [h1, h2] at h3 ⊢
    linarith

/-- An updater that resamples below nine tenths. -/
noncomputable def eagerCfg : SmcConfig ℝ := { phaseCfg with resampleThresh := 9 / 10 }

theorem eager_ok (xs : List (List ℝ)) (hg : GoodEnv (restEnv xs)) (ds : List (Bool × Unit)) (s : Smc ℝ Bool Unit)
    (hs : WInv s) : (feed eagerCfg (restEnv xs) true ds s).2 = .ok () := by
  have hε : (eps : ℝ) ≤ 1 / 40 := by unfold eps; norm_num
  have ht : (eps : ℝ) ≤ eagerCfg.zeroThresh := by
    show (eps : ℝ) ≤ 10 * eps; linarith [eps_pos (K := ℝ)]
  induction ds generalizing s with
  | nil => rfl
  | cons d ds ih =>
    have hR : Resting eagerCfg (restEnv xs) false (fun j : Fin s.weights.length => s.weights[j])
        (fun j => s.locs[(j : ℕ)]'(by rw [hs.2]; exact j.2)) s :=
      { good := hg
        static := fun _ _ _ => rfl
        off := Or.inl rfl
        policy := rfl
        thresh := ⟨ht, by show 10 * (eps : ℝ) < 1; linarith⟩
        nonneg := fun j => hs.1.1 _ (List.getElem_mem _)
        sum := by
          rw [← List.sum_ofFn]
          simpa using hs.1.2
        weights := by simp
        locs := by
          apply List.ext_getElem
          · simp [hs.2]
          · intro k h1 h2; simp }
    have h1 := C106_accepted hR [d] fun d' _ j => le_trans (by linarith) (phase_like d'.1 _ d'.2).1
    have h2 : (update eagerCfg (restEnv xs) s d.1 d.2 false).2 = .ok () := by
      rw [feed] at h1
      rcases hu : update eagerCfg (restEnv xs) s d.1 d.2 false with ⟨u, err | ⟨⟨⟩⟩⟩
      · rw [hu] at h1; cases h1
      · rfl
    have h3 : (update eagerCfg (restEnv xs) s d.1 d.2 true).2 = .ok () := by
      rcases update_split eagerCfg (restEnv xs) s d.1 d.2 with ⟨h, -⟩ | ⟨h, -⟩
      · rw [h]
        unfold maybeResample resample runResampler
        dsimp only [restEnv]
        split_ifs <;> rfl
      · rw [h, h2]
    have h4 := update_winv eagerCfg (restEnv xs) hg (Or.inl rfl) ht s hs d.1 d.2 true
    rw [feed]
    rcases hu : update eagerCfg (restEnv xs) s d.1 d.2 true with ⟨u, err | ⟨⟨⟩⟩⟩
    · rw [hu] at h3; cases h3
    · rw [hu] at h4
      exact ih u h4

/-- Case for C142: the outcomes come from a phase that neither particle has.  Without resampling the updater
becomes certain of the nearer phase, zero; with a threshold of 9/10 it resamples at some time.  No run is
rejected. -/
example : ∀ᵐ v ∂(Measure.infinitePi fun _ : ℕ => restLaw),
    let env := restEnv (List.ofFn fun k => restLocs ((![0, 1] : Fin 2 → Fin 3) k))
    let data := fun t => firstData (fun t (v : ℕ → Bool × Unit) => v t) t v
    Tendsto (fun t => cloudMean (fun y => y.getD 0 0) (feed phaseCfg env true (data t) (someRest ![0, 1])).1) atTop
      (𝓝 0) ∧
    ∃ t, 0 < (feed eagerCfg env true (data t) (someRest ![0, 1])).1.resampleCount := by
  have hr := some_resting (show 0 < 2 by norm_num) ![0, 1]
  have hr' : Resting eagerCfg (restEnv (List.ofFn fun k => restLocs ((![0, 1] : Fin 2 → Fin 3) k))) false
      (fun _ : Fin 2 => 1 / ((2 : ℕ) : ℝ)) (fun k => restLocs ((![0, 1] : Fin 2 → Fin 3) k)) (someRest ![0, 1]) :=
    ⟨hr.good, hr.static, Or.inl rfl, hr.policy, hr.thresh, hr.nonneg, hr.sum, hr.weights, hr.locs⟩
  filter_upwards [C142_certainty hr rest_data rest_best,
    C142_resamples hr' rest_data rest_best (by show (1 : ℝ) < (2 : ℕ) * (9 / 10); norm_num)] with v h1 h2
  refine ⟨?_, ?_⟩
  · have := (h1 (fun t => some_ok (by norm_num) _ _) fun y => y.getD 0 0).1
    have e : (restLocs ((![0, 1] : Fin 2 → Fin 3) 1)).getD 0 0 = 0 := by simp [restLocs]
    rw [e] at this
    exact this
  · exact h2 fun t => eager_ok _ hr.good _ _ hr'.winv

end

end QInfer
