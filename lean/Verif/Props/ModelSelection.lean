import Verif.Props.Concentrate

/-!
# C141: comparing models by their total likelihood

What `log_total_likelihood` tends to with more and more independent data, and what that means for two
updaters, with different models or clouds, that see the same data.
-/

namespace QInfer

open Spec Filter Topology MeasureTheory ProbabilityTheory Function

variable {Ω O E R R' : Type*} [MeasurableSpace Ω] [MeasurableSpace O] [MeasurableSpace E]

/-! ## Specification -/

/-- The expected logarithm of `f` under the law of the data is `m`. -/
structure Spec.FitIs (μ : Measure (O × E)) (f : O × E → ℝ) (m : ℝ) : Prop where
  meas : Measurable f
  pos : ∀ᵐ d ∂μ, 0 < f d
  int : Integrable (fun d => Real.log (f d)) μ
  eq : ∫ d, Real.log (f d) ∂μ = m

/-- The expected logarithm of `f` is at most `m`; it may be minus infinity because of data that `f` finds
impossible. -/
def Spec.FitAtMost (μ : Measure (O × E)) (f : O × E → ℝ) (m : ℝ) : Prop :=
  (Measurable f ∧ μ {d | f d = 0} ≠ 0) ∨ ∃ m' ≤ m, FitIs μ f m'

/-- What the particle `y` predicts. -/
def Spec.predicts (like : O → List ℝ → E → ℝ) (y : List ℝ) (d : O × E) : ℝ := like d.1 y d.2

/-! ## Products of likelihoods -/

section
variable {P : Measure Ω} [IsProbabilityMeasure P] {μ : Measure (O × E)} {D : ℕ → Ω → O × E}

theorem fit_log (hD : IidData P μ D) {f : O × E → ℝ} {m : ℝ} (hf : FitIs μ f m) :
    ∀ᵐ v ∂P, (∀ t, 0 < ∏ r ∈ Finset.range t, f (D r v)) ∧
      Tendsto (fun t : ℕ => Real.log (∏ r ∈ Finset.range t, f (D r v)) / t) atTop (𝓝 m) := by
  filter_upwards [hD.average _ (Real.measurable_log.comp hf.meas) hf.int, hD.forall_ae _ hf.pos] with v hv hp
  refine ⟨fun t => Finset.prod_pos fun r _ => hp r, ?_⟩
  rw [← hf.eq]
  refine hv.congr fun t => ?_
  rw [Real.log_prod fun r _ => (hp r).ne']
  rfl

theorem fit_at_most (hD : IidData P μ D) {f : O × E → ℝ} {m : ℝ} (hf : FitAtMost μ f m) :
    ∀ᵐ v ∂P, ∀ m' > m, ∀ᶠ t : ℕ in atTop, ∏ r ∈ Finset.range t, f (D r v) ≤ Real.exp (t * m') := by
  rcases hf with ⟨hm, h0⟩ | ⟨m₁, hle, hf⟩
  · have hμ : IsProbabilityMeasure μ := by
      rw [← hD.law 0]; exact Measure.isProbabilityMeasure_map (hD.meas 0).aemeasurable
    obtain ⟨B, hB⟩ : ∃ B : Set (O × E), B = {d | f d = 0} := ⟨_, rfl⟩
    have hBm : MeasurableSet B := hB ▸ hm (measurableSet_singleton 0)
    rw [← hB] at h0
    filter_upwards [hD.average (B.indicator fun _ => (1 : ℝ)) (measurable_const.indicator hBm)
      ((integrable_const 1).indicator hBm)] with v hv m' _
    have hex : ∃ r, D r v ∈ B := by
      by_contra hno
      push Not at hno
      have hz : ∀ t : ℕ, (∑ k ∈ Finset.range t, B.indicator (fun _ => (1 : ℝ)) (D k v)) / t = 0 := fun t => by
        rw [Finset.sum_eq_zero fun k _ => Set.indicator_of_notMem (hno k) _, zero_div]
      simp only [hz] at hv
      have := tendsto_nhds_unique hv tendsto_const_nhds
      rw [integral_indicator_const _ hBm, smul_eq_mul, mul_one] at this
      exact h0 ((measureReal_eq_zero_iff).1 this)
    obtain ⟨r, hr⟩ := hex
    filter_upwards [eventually_gt_atTop r] with t ht
    rw [Finset.prod_eq_zero (Finset.mem_range.2 ht) (by rw [hB] at hr; exact hr)]
    exact (Real.exp_pos _).le
  · filter_upwards [fit_log hD hf] with v ⟨hpos, hlim⟩ m' hm'
    filter_upwards [hlim.eventually_lt_const (lt_of_le_of_lt hle hm'), eventually_gt_atTop 0] with t ht ht0
    have ht0' : (0 : ℝ) < t := by exact_mod_cast ht0
    rw [div_lt_iff₀ ht0'] at ht
    rw [← Real.log_le_iff_le_exp (hpos t)]
    linarith

end

/-! ## The total likelihood -/

section
variable {n : ℕ} {cfg : SmcConfig ℝ} {env : Env ℝ O E R} {check : Bool} {w : Fin n → ℝ}
  {x : Fin n → List ℝ} {s : Smc ℝ O R}

/-- **C141, evidence.**  `log_total_likelihood` is the logarithm of the weighted mean likelihood of all the
data. -/
theorem C141_evidence (h : Resting cfg env check w x s) (hn : s.normRecord = []) (D : ℕ → Ω → O × E) (t : ℕ)
    (v : Ω) (hok : (feed cfg env check (firstData D t v) s).2 = .ok ()) :
    0 < ∑ k, w k * ∏ r ∈ Finset.range t, predicts env.likelihood (x k) (D r v) ∧
    logTotalLikelihood (feed cfg env check (firstData D t v) s).1 =
      Real.log (∑ k, w k * ∏ r ∈ Finset.range t, predicts env.likelihood (x k) (D r v)) := by
  obtain ⟨-, -, h3, ns, h4, -, h5, h6⟩ := (feed_paths cfg env h.good check h.off h.policy h.thresh.1 h.thresh.2
    (firstData D t v) w (fun i _ => x i) h.nonneg h.sum s h.weights h.locs
    (moves_static env h.static _ _ x)).2 hok
  simp only [pathLike_static, prod_first] at h3 h6
  refine ⟨h3, ?_⟩
  have hlog : ∀ l : List ℝ, (∀ y ∈ l, eps ≤ y) → (l.map Real.log).sum = Real.log l.prod ∧ l.prod ≠ 0 := by
    intro l
    induction l with
    | nil => simp
    | cons a l ih =>
      intro hl
      have ha : a ≠ 0 := (lt_of_lt_of_le (eps_pos (K := ℝ)) (hl a (by simp))).ne'
      obtain ⟨h7, h8⟩ := ih fun y hy => hl y (by simp [hy])
      rw [List.map_cons, List.sum_cons, List.prod_cons, Real.log_mul ha h8, h7]
      exact ⟨rfl, mul_ne_zero ha h8⟩
  rw [logTotalLikelihood, h4, hn, List.nil_append, (hlog ns h5).1, h6]
  rfl

variable {P : Measure Ω} [IsProbabilityMeasure P] {μ : Measure (O × E)} {D : ℕ → Ω → O × E}

/-- Lower bound by one particle. -/
theorem total_ge (h : Resting cfg env check w x s) (hn : s.normRecord = []) (hD : IidData P μ D) (i : Fin n)
    (hwi : 0 < w i) (m : ℝ) (hi : FitIs μ (predicts env.likelihood (x i)) m) :
    ∀ᵐ v ∂P, (∀ t, (feed cfg env check (firstData D t v) s).2 = .ok ()) → ∀ m' < m,
      ∀ᶠ t : ℕ in atTop, m' < logTotalLikelihood (feed cfg env check (firstData D t v) s).1 / t := by
  filter_upwards [fit_log hD hi] with v ⟨hpos, hlim⟩ hok m' hm'
  have h1 : Tendsto (fun t : ℕ => Real.log (w i) / t +
      Real.log (∏ r ∈ Finset.range t, predicts env.likelihood (x i) (D r v)) / t) atTop (𝓝 (0 + m)) :=
    (tendsto_const_nhds.div_atTop tendsto_natCast_atTop_atTop).add hlim
  rw [zero_add] at h1
  filter_upwards [h1.eventually_const_lt hm', eventually_gt_atTop 0] with t ht ht0
  have ht0' : (0 : ℝ) < t := by exact_mod_cast ht0
  refine lt_of_lt_of_le ht ?_
  obtain ⟨hE, hlog⟩ := C141_evidence h hn D t v (hok t)
  rw [hlog, ← add_div]
  refine div_le_div_of_nonneg_right ?_ ht0'.le
  rw [← Real.log_mul hwi.ne' (hpos t).ne']
  refine Real.log_le_log (mul_pos hwi (hpos t)) ?_
  exact Finset.single_le_sum (f := fun k => w k * ∏ r ∈ Finset.range t, predicts env.likelihood (x k) (D r v))
    (fun k _ => mul_nonneg (h.nonneg k) (Finset.prod_nonneg fun r _ => h.good.like_nonneg _ _ _)) (Finset.mem_univ i)

/-- Upper bound by the best particle. -/
theorem total_le (h : Resting cfg env check w x s) (hn : s.normRecord = []) (hD : IidData P μ D)
    (m : ℝ) (hall : ∀ k, 0 < w k → FitAtMost μ (predicts env.likelihood (x k)) m) :
    ∀ᵐ v ∂P, (∀ t, (feed cfg env check (firstData D t v) s).2 = .ok ()) → ∀ m' > m,
      ∀ᶠ t : ℕ in atTop, logTotalLikelihood (feed cfg env check (firstData D t v) s).1 / t ≤ m' := by
  have hae : ∀ᵐ v ∂P, ∀ k, 0 < w k → ∀ m' > m, ∀ᶠ t : ℕ in atTop,
      ∏ r ∈ Finset.range t, predicts env.likelihood (x k) (D r v) ≤ Real.exp (t * m') := by
    rw [ae_all_iff]
    intro k
    by_cases hk : 0 < w k
    · filter_upwards [fit_at_most hD (hall k hk)] with v hv _ using hv
    · exact ae_of_all _ fun v h0 => absurd h0 hk
  filter_upwards [hae] with v hv hok m' hm'
  have hev : ∀ᶠ t : ℕ in atTop, ∀ k, 0 < w k →
      ∏ r ∈ Finset.range t, predicts env.likelihood (x k) (D r v) ≤ Real.exp (t * m') := by
    rw [eventually_all]
    intro k
    by_cases hk : 0 < w k
    · exact (hv k hk m' hm').mono fun t ht _ => ht
    · exact Eventually.of_forall fun t h0 => absurd h0 hk
  filter_upwards [hev, eventually_gt_atTop 0] with t ht ht0
  have ht0' : (0 : ℝ) < t := by exact_mod_cast ht0
  obtain ⟨hE, hlog⟩ := C141_evidence h hn D t v (hok t)
  rw [hlog, div_le_iff₀ ht0', Real.log_le_iff_le_exp hE, mul_comm]
  calc _ ≤ ∑ k, w k * Real.exp (t * m') := Finset.sum_le_sum fun k _ => by
        rcases (h.nonneg k).eq_or_lt with h0 | h0
        · rw [← h0]; simp
        · exact mul_le_mul_of_nonneg_left (ht k h0) h0.le
    _ = _ := by rw [← Finset.sum_mul, h.sum, one_mul]

/-- **C141, the rate.**  With probability one `log_total_likelihood` per datum tends to the expected
log-likelihood of the best particle with weight. -/
theorem C141_rate (h : Resting cfg env check w x s) (hn : s.normRecord = []) (hD : IidData P μ D) (i : Fin n)
    (hwi : 0 < w i) (m : ℝ) (hi : FitIs μ (predicts env.likelihood (x i)) m)
    (hall : ∀ k, 0 < w k → FitAtMost μ (predicts env.likelihood (x k)) m) :
    ∀ᵐ v ∂P, (∀ t, (feed cfg env check (firstData D t v) s).2 = .ok ()) →
      Tendsto (fun t : ℕ => logTotalLikelihood (feed cfg env check (firstData D t v) s).1 / t) atTop (𝓝 m) := by
  filter_upwards [total_ge h hn hD i hwi m hi, total_le h hn hD m hall] with v h1 h2 hok
  rw [tendsto_order]
  refine ⟨fun a ha => h1 hok a ha, fun a ha => ?_⟩
  obtain ⟨c, hc1, hc2⟩ := exists_between ha
  exact (h2 hok c hc1).mono fun t ht => lt_of_le_of_lt ht hc2

end

/-! ## Two models -/

section
variable {n n' : ℕ} {cfg cfg' : SmcConfig ℝ} {env : Env ℝ O E R} {env' : Env ℝ O E R'} {check check' : Bool}
  {w : Fin n → ℝ} {w' : Fin n' → ℝ} {x : Fin n → List ℝ} {x' : Fin n' → List ℝ}
  {s : Smc ℝ O R} {s' : Smc ℝ O R'}
  {P : Measure Ω} [IsProbabilityMeasure P] {μ : Measure (O × E)} {D : ℕ → Ω → O × E}

/-- **C141, the better model wins.**  If some particle of the first model fits the data better on average
than every particle of the second, the lead of its `log_total_likelihood` grows without bound, at least
linearly, with probability one. -/
theorem C141_better_wins (h : Resting cfg env check w x s) (h' : Resting cfg' env' check' w' x' s')
    (hn : s.normRecord = []) (hn' : s'.normRecord = []) (hD : IidData P μ D) (i : Fin n) (hwi : 0 < w i)
    (m m' : ℝ) (hm : m' < m) (hi : FitIs μ (predicts env.likelihood (x i)) m)
    (hall : ∀ k, 0 < w' k → FitAtMost μ (predicts env'.likelihood (x' k)) m') :
    ∀ᵐ v ∂P, (∀ t, (feed cfg env check (firstData D t v) s).2 = .ok ()) →
      (∀ t, (feed cfg' env' check' (firstData D t v) s').2 = .ok ()) →
      (∀ c < m - m', ∀ᶠ t : ℕ in atTop,
        c * t ≤ logTotalLikelihood (feed cfg env check (firstData D t v) s).1 -
          logTotalLikelihood (feed cfg' env' check' (firstData D t v) s').1) ∧
      Tendsto (fun t : ℕ => logTotalLikelihood (feed cfg env check (firstData D t v) s).1 -
        logTotalLikelihood (feed cfg' env' check' (firstData D t v) s').1) atTop atTop := by
  filter_upwards [total_ge h hn hD i hwi m hi, total_le h' hn' hD m' hall] with v h1 h2 hok hok'
  have key : ∀ c < m - m', ∀ᶠ t : ℕ in atTop,
      c * t ≤ logTotalLikelihood (feed cfg env check (firstData D t v) s).1 -
        logTotalLikelihood (feed cfg' env' check' (firstData D t v) s').1 := by
    intro c hc
    have hδ : 0 < (m - m' - c) / 2 := by linarith
    filter_upwards [h1 hok (m - (m - m' - c) / 2) (by linarith), h2 hok' (m' + (m - m' - c) / 2) (by linarith),
      eventually_gt_atTop 0] with t ha hb ht0
    have ht0' : (0 : ℝ) < t := by exact_mod_cast ht0
    rw [lt_div_iff₀ ht0'] at ha
    rw [div_le_iff₀ ht0'] at hb
    nlinarith
  refine ⟨key, ?_⟩
  refine tendsto_atTop_mono' _ (key ((m - m') / 2) (by linarith)) ?_
  exact tendsto_natCast_atTop_atTop.const_mul_atTop (by linarith)

variable [Fintype O] [Fintype E] [MeasurableSingletonClass O] [MeasurableSingletonClass E]

/-- **C141, the right model wins.**  If the data come from a particle of the first model, and each particle
of the second predicts other probabilities for some experiment in use, the lead of the first model's
`log_total_likelihood` grows without bound with probability one. -/
theorem C141_truth_wins (h : Resting cfg env check w x s) (h' : Resting cfg' env' check' w' x' s')
    (hn : s.normRecord = []) (hn' : s'.normRecord = []) (hD : IidData P μ D) (i : Fin n) (hwi : 0 < w i)
    (q : E → ℝ) (hq : DrawnFrom env.likelihood (x i) q μ)
    (hone : ∀ e, ∑ o, env.likelihood o (x i) e = 1) (hone' : ∀ k e, ∑ o, env'.likelihood o (x' k) e = 1)
    (hdiff : ∀ k, 0 < w' k → ∃ o e, 0 < q e ∧ env'.likelihood o (x' k) e ≠ env.likelihood o (x i) e) :
    ∀ᵐ v ∂P, (∀ t, (feed cfg env check (firstData D t v) s).2 = .ok ()) →
      (∀ t, (feed cfg' env' check' (firstData D t v) s').2 = .ok ()) →
      Tendsto (fun t : ℕ => logTotalLikelihood (feed cfg env check (firstData D t v) s).1 -
        logTotalLikelihood (feed cfg' env' check' (firstData D t v) s').1) atTop atTop := by
  have hμ : IsProbabilityMeasure μ := by
    rw [← hD.law 0]; exact Measure.isProbabilityMeasure_map (hD.meas 0).aemeasurable
  have hnn := h.good.like_nonneg
  have hnn' := h'.good.like_nonneg
  have hsing : ∀ d : O × E, μ.real {d} = q d.2 * env.likelihood d.1 (x i) d.2 := fun d => hq.law d.1 d.2
  have hae : ∀ p : O × E → Prop, (∀ d, 0 < μ.real {d} → p d) → ∀ᵐ d ∂μ, p d := by
    intro p hp
    rw [ae_iff_of_countable]
    intro d hd
    exact hp d (ENNReal.toReal_pos hd (measure_ne_top _ _))
  have hpi : ∀ d : O × E, 0 < μ.real {d} → 0 < env.likelihood d.1 (x i) d.2 := fun d hd => by
    refine lt_of_le_of_ne (hnn _ _ _) fun h0 => ?_
    rw [hsing, ← h0, mul_zero] at hd
    exact lt_irrefl _ hd
  obtain ⟨m, hmdef⟩ : ∃ m, m = ∫ d, Real.log (predicts env.likelihood (x i) d) ∂μ := ⟨_, rfl⟩
  have hi : FitIs μ (predicts env.likelihood (x i)) m :=
    ⟨measurable_of_finite _, hae _ hpi, Integrable.of_finite, hmdef.symm⟩
  have hk : ∀ k, 0 < w' k → ∃ m' < m, FitAtMost μ (predicts env'.likelihood (x' k)) m' := by
    intro k hwk
    by_cases hz : μ {d | predicts env'.likelihood (x' k) d = 0} = 0
    · have hpk : ∀ d : O × E, 0 < μ.real {d} → 0 < env'.likelihood d.1 (x' k) d.2 := fun d hd => by
        refine lt_of_le_of_ne (hnn' _ _ _) fun h0 => ?_
        have : μ {d} ≤ 0 := by
          rw [← hz]; exact measure_mono (Set.singleton_subset_iff.2 h0.symm)
        rw [Measure.real, le_antisymm this bot_le] at hd
        simp at hd
      refine ⟨∫ d, Real.log (predicts env'.likelihood (x' k) d) ∂μ, ?_, Or.inr ⟨_, le_rfl, measurable_of_finite _,
        hae _ hpk, Integrable.of_finite, rfl⟩⟩
      rw [hmdef, integral_fintype Integrable.of_finite, integral_fintype Integrable.of_finite, ← sub_neg,
        ← Finset.sum_sub_distrib]
      have hgibbs := gibbs_strict (fun d : O × E => q d.2 * env.likelihood d.1 (x i) d.2)
        (fun d => q d.2 * env'.likelihood d.1 (x' k) d.2)
        (fun d => mul_nonneg (hq.nonneg _) (hnn _ _ _)) (fun d => mul_nonneg (hq.nonneg _) (hnn' _ _ _))
        (by
          rw [Fintype.sum_prod_type_right]
          simp only [← Finset.mul_sum, hone, mul_one, hq.sum])
        (by
          rw [Fintype.sum_prod_type_right]
          simp only [← Finset.mul_sum, hone', mul_one, hq.sum])
        (fun d hd => by
          have h1 := hpk d (by rw [hsing]; exact hd)
          exact mul_pos (lt_of_le_of_ne (hq.nonneg _) fun h0 => by
            rw [← h0, zero_mul] at hd; exact lt_irrefl _ hd) h1)
        (fun he => by
          obtain ⟨o, e, he0, hne⟩ := hdiff k hwk
          have := congrFun he (o, e)
          exact hne (mul_left_cancel₀ he0.ne' this).symm)
      refine lt_of_eq_of_lt (Finset.sum_congr rfl fun d _ => ?_) hgibbs
      simp only [smul_eq_mul, predicts]
      rw [hsing]
      rcases (mul_nonneg (hq.nonneg d.2) (hnn d.1 (x i) d.2)).eq_or_lt with h0 | h0
      · rw [← h0]; simp
      · have hq0 : q d.2 ≠ 0 := fun hh => by rw [hh, zero_mul] at h0; exact lt_irrefl _ h0
        have h1 := hpi d (by rw [hsing]; exact h0)
        have h2 := hpk d (by rw [hsing]; exact h0)
        rw [mul_div_mul_left _ _ hq0, Real.log_div h2.ne' h1.ne', mul_sub]
    · exact ⟨m - 1, by linarith, Or.inl ⟨measurable_of_finite _, hz⟩⟩
  obtain ⟨m', hm', hall⟩ : ∃ m' < m, ∀ k, 0 < w' k → FitAtMost μ (predicts env'.likelihood (x' k)) m' := by
    have hch : ∀ k, ∃ m' < m, 0 < w' k → FitAtMost μ (predicts env'.likelihood (x' k)) m' := fun k => by
      by_cases hwk : 0 < w' k
      · obtain ⟨m', h1, h2⟩ := hk k hwk; exact ⟨m', h1, fun _ => h2⟩
      · exact ⟨m - 1, by linarith, fun h0 => absurd h0 hwk⟩
    choose g hg1 hg2 using hch
    have : Nonempty (Fin n') := by
      by_contra hc
      rw [not_nonempty_iff] at hc
      have := h'.sum
      simp at this
    refine ⟨Finset.univ.sup' Finset.univ_nonempty g, (Finset.sup'_lt_iff _).2 fun k _ => hg1 k, fun k hwk => ?_⟩
    rcases hg2 k hwk with h1 | ⟨a, ha, h1⟩
    · exact Or.inl h1
    · exact Or.inr ⟨a, ha.trans (Finset.le_sup' g (Finset.mem_univ k)), h1⟩
  filter_upwards [C141_better_wins h h' hn hn' hD i hwi m m' hm' hi hall] with v hv hok hok' using (hv hok hok').2

/-- **C141, the price of a larger model.**  If both clouds contain the truth, and all other particles of
each predict other probabilities for some experiment in use, the ratio of the total likelihoods tends to
the ratio of the prior weights of the truth, with probability one: a model that spreads its prior over
more possibilities loses by exactly the factor by which it does so. -/
theorem C141_occam (h : Resting cfg env check w x s) (h' : Resting cfg' env' check' w' x' s')
    (hn : s.normRecord = []) (hn' : s'.normRecord = []) (hD : IidData P μ D) (i : Fin n) (hwi : 0 < w i)
    (i' : Fin n') (hwi' : 0 < w' i') (q : E → ℝ) (hq : DrawnFrom env.likelihood (x i) q μ)
    (hsame : ∀ o e, env'.likelihood o (x' i') e = env.likelihood o (x i) e)
    (hone : ∀ k e, ∑ o, env.likelihood o (x k) e = 1) (hone' : ∀ k e, ∑ o, env'.likelihood o (x' k) e = 1)
    (hdiff : ∀ k, k ≠ i → ∃ o e, 0 < q e ∧ env.likelihood o (x k) e ≠ env.likelihood o (x i) e)
    (hdiff' : ∀ k, k ≠ i' → ∃ o e, 0 < q e ∧ env'.likelihood o (x' k) e ≠ env'.likelihood o (x' i') e) :
    ∀ᵐ v ∂P, (∀ t, (feed cfg env check (firstData D t v) s).2 = .ok ()) →
      (∀ t, (feed cfg' env' check' (firstData D t v) s').2 = .ok ()) →
      Tendsto (fun t : ℕ => logTotalLikelihood (feed cfg env check (firstData D t v) s).1 -
        logTotalLikelihood (feed cfg' env' check' (firstData D t v) s').1) atTop
        (𝓝 (Real.log (w i / w' i'))) := by
  have hq' : DrawnFrom env'.likelihood (x' i') q μ := ⟨hq.nonneg, hq.sum, fun o e => by rw [hsame]; exact hq.law o e⟩
  filter_upwards [C106_learns h hD i hwi q hq hone hdiff, C106_learns h' hD i' hwi' q hq' hone' hdiff']
    with v h1 h2 hok hok'
  have h3 := (h1 hok).1
  have h4 := (h2 hok').1
  have hw : ∀ t, (feed cfg env check (firstData D t v) s).1.weights.getD i 0 =
      w i * (∏ r ∈ Finset.range t, predicts env.likelihood (x i) (D r v)) /
        ∑ k, w k * ∏ r ∈ Finset.range t, predicts env.likelihood (x k) (D r v) := fun t => by
    rw [(h.weight D t v (hok t)).1]; simp [predicts]
  have hw' : ∀ t, (feed cfg' env' check' (firstData D t v) s').1.weights.getD i' 0 =
      w' i' * (∏ r ∈ Finset.range t, predicts env'.likelihood (x' i') (D r v)) /
        ∑ k, w' k * ∏ r ∈ Finset.range t, predicts env'.likelihood (x' k) (D r v) := fun t => by
    rw [(h'.weight D t v (hok' t)).1]; simp [predicts]
  have hpp : ∀ t, ∏ r ∈ Finset.range t, predicts env'.likelihood (x' i') (D r v) =
      ∏ r ∈ Finset.range t, predicts env.likelihood (x i) (D r v) := fun t =>
    Finset.prod_congr rfl fun r _ => hsame _ _
  have hl := (h4.log one_ne_zero).sub (h3.log one_ne_zero)
  have hl2 := hl.add_const (Real.log (w i / w' i'))
  rw [Real.log_one, sub_zero, zero_add] at hl2
  refine hl2.congr' ?_
  filter_upwards [h3.eventually_const_lt (show (0 : ℝ) < 1 by norm_num)] with t ht
  rw [hw] at ht
  obtain ⟨hE, hlog⟩ := C141_evidence h hn D t v (hok t)
  obtain ⟨hE', hlog'⟩ := C141_evidence h' hn' D t v (hok' t)
  have hp : 0 < ∏ r ∈ Finset.range t, predicts env.likelihood (x i) (D r v) := by
    have := (div_pos_iff_of_pos_right hE).1 ht
    exact (mul_pos_iff_of_pos_left hwi).1 this
  rw [hlog, hlog', hw, hw', hpp, Real.log_div (mul_pos hwi' hp).ne' hE'.ne', Real.log_div (mul_pos hwi hp).ne' hE.ne',
    Real.log_mul hwi'.ne' hp.ne', Real.log_mul hwi.ne' hp.ne', Real.log_div hwi.ne' hwi'.ne']
  ring

end

/-! ## A case: clouds with and without the truth -/

section

/-- A fresh updater with some of the three phases of `restLocs`. -/
noncomputable def someRest {n : ℕ} (f : Fin n → Fin 3) : Smc ℝ Bool Unit :=
  (construct phaseCfg (restEnv (List.ofFn fun k => restLocs (f k))) n false ()).1

theorem some_resting {n : ℕ} (hn : 0 < n) (f : Fin n → Fin 3) :
    Resting phaseCfg (restEnv (List.ofFn fun k => restLocs (f k))) true (fun _ : Fin n => 1 / (n : ℝ))
      (fun k => restLocs (f k)) (someRest f) where
  good :=
    { like_nonneg := (phaseEnv_good fun _ => 0).like_nonneg
      prior_len := fun r n => by simp [restEnv]
      canon_len := fun l => rfl
      timestep_len := fun r l e => rfl
      resampler_ok := fun r w l w' l' hw hl h => by
        simp only [restEnv, Except.ok.injEq, Prod.mk.injEq] at h
        obtain ⟨rfl, rfl⟩ := h
        exact ⟨hw, hl⟩ }
  static r l e := rfl
  off := Or.inr le_rfl
  policy := rfl
  thresh := by
    have hε : (eps : ℝ) ≤ 1 / 40 := by unfold eps; norm_num
    exact ⟨by show (eps : ℝ) ≤ 10 * eps; linarith [eps_pos (K := ℝ)],
      by show 10 * (eps : ℝ) < 1; linarith⟩
  nonneg _ := by positivity
  sum := by
    have : (n : ℝ) ≠ 0 := by exact_mod_cast hn.ne'
    simp [this]
  weights := by simp [someRest, construct, reset, restEnv, phaseCfg, List.ofFn_const]
  locs := by simp [someRest, construct, reset, restEnv, phaseCfg]

theorem some_ok {n : ℕ} (hn : 0 < n) (f : Fin n → Fin 3) (ds : List (Bool × Unit)) :
    (feed phaseCfg (restEnv (List.ofFn fun k => restLocs (f k))) true ds (someRest f)).2 = .ok () := by
  refine C106_accepted (some_resting hn f) _ fun d _ i => ?_
  have hε : (eps : ℝ) ≤ 1 / 40 := by unfold eps; norm_num
  exact le_trans (by linarith) (phase_like d.1 (restLocs (f i)) d.2).1

theorem some_drawn (xs : List (List ℝ)) : DrawnFrom (restEnv xs).likelihood (restLocs 2) (fun _ => 1) restLaw where
  nonneg := fun _ => by norm_num
  sum := by simp
  law := fun o e => by
    have hs := restLocs_sin 2
    simp only [restEnv, hs]
    cases o <;> simp [restLaw, measureReal_def] <;> norm_num

/-- Case for C141: the data come from the third phase.  All three phases against the first two: the
cloud with the truth wins.  All three phases against the last two: the smaller cloud wins by a factor of
3/2.  No run is rejected. -/
example : ∀ᵐ v ∂(Measure.infinitePi fun _ : ℕ => restLaw),
    let total := fun {n : ℕ} (f : Fin n → Fin 3) (t : ℕ) => logTotalLikelihood (feed phaseCfg
      (restEnv (List.ofFn fun k => restLocs (f k))) true (firstData (fun t (v : ℕ → Bool × Unit) => v t) t v)
      (someRest f)).1
    Tendsto (fun t => total ![0, 1, 2] t - total ![0, 1] t) atTop atTop ∧
    Tendsto (fun t => total ![1, 2] t - total ![0, 1, 2] t) atTop (𝓝 (Real.log (3 / 2))) := by
  have hne : ∀ j : Fin 3, j ≠ 2 → ∀ xs ys : List (List ℝ),
      (restEnv xs).likelihood true (restLocs j) () ≠ (restEnv ys).likelihood true (restLocs 2) () := by
    intro j hj xs ys
    simp only [restEnv, restLocs_sin]
    fin_cases j
    · norm_num
    · norm_num
    · exact absurd rfl hj
  have hone : ∀ (xs : List (List ℝ)) y e, ∑ o, (restEnv xs).likelihood o y e = 1 := fun xs y e => by
    simp [restEnv]; ring
  have h1 := C141_truth_wins (some_resting (by norm_num) ![0, 1, 2]) (some_resting (by norm_num) ![0, 1])
    rfl rfl rest_data 2 (by norm_num) (fun _ => 1) (some_drawn _) (fun e => hone _ _ e) (fun k e => hone _ _ e)
    (fun k _ => ⟨true, (), one_pos, hne _ (by fin_cases k <;> decide) _ _⟩)
  have h2 := C141_occam (some_resting (by norm_num) ![1, 2]) (some_resting (by norm_num) ![0, 1, 2])
    rfl rfl rest_data 1 (by norm_num) 2 (by norm_num) (fun _ => 1) (some_drawn _) (fun o e => rfl)
    (fun k e => hone _ _ e) (fun k e => hone _ _ e)
    (fun k hk => ⟨true, (), one_pos, hne _ (by revert hk; fin_cases k <;> decide) _ _⟩)
    (fun k hk => ⟨true, (), one_pos, hne _ (by revert hk; fin_cases k <;> decide) _ _⟩)
  filter_upwards [h1, h2] with v hv1 hv2
  refine ⟨hv1 (fun t => some_ok (by norm_num) _ _) (fun t => some_ok (by norm_num) _ _), ?_⟩
  have := hv2 (fun t => some_ok (by norm_num) _ _) (fun t => some_ok (by norm_num) _ _)
  convert this using 3
  norm_num

end

end QInfer
