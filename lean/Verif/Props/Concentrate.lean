import Verif.Props.ManyParticles

/-!
# C106: the posterior concentrates on the truth

With more and more independent data the updater takes the weight away from every particle that explains
the data less well than another one.
-/

namespace QInfer

open Spec Filter Topology MeasureTheory ProbabilityTheory Function

variable {Ω O E R : Type*} [MeasurableSpace Ω] [MeasurableSpace O] [MeasurableSpace E]

/-- Independent data, pairs of outcome and experiment, with a common law `μ`. -/
structure Spec.IidData (P : Measure Ω) (μ : Measure (O × E)) (D : ℕ → Ω → O × E) : Prop where
  meas : ∀ t, Measurable (D t)
  law : ∀ t, P.map (D t) = μ
  indep : Pairwise ((· ⟂ᵢ[P] ·) on D)

/-- The first `t` data. -/
def Spec.firstData (D : ℕ → Ω → O × E) (t : ℕ) (v : Ω) : List (O × E) := List.ofFn fun i : Fin t => D i v

/-- An updater for a model without drift, with weights `w` at the particles `x`, without resampling,
with the default policy. -/
structure Spec.Resting {n : ℕ} (cfg : SmcConfig ℝ) (env : Env ℝ O E R) (check : Bool) (w : Fin n → ℝ)
    (x : Fin n → List ℝ) (s : Smc ℝ O R) : Prop where
  good : GoodEnv env
  static : Static env
  off : check = false ∨ cfg.resampleThresh ≤ 0
  policy : cfg.policy = "error"
  thresh : eps ≤ cfg.zeroThresh ∧ cfg.zeroThresh < 1
  nonneg : ∀ i, 0 ≤ w i
  sum : ∑ i, w i = 1
  weights : s.weights = List.ofFn w
  locs : s.locs = List.ofFn x

theorem pathLike_static (like : O → List ℝ → E → ℝ) (ds : List (O × E)) (x : List ℝ) :
    pathLike like ds (fun _ => x) = (ds.map fun d => like d.1 x d.2).prod := by
  induction ds with
  | nil => rfl
  | cons d ds ih => rw [pathLike, ih, List.map_cons, List.prod_cons]

theorem moves_static {n : ℕ} (env : Env ℝ O E R) (h : Static env) (ds : List (O × E)) (r : R)
    (x : Fin n → List ℝ) : Moves env ds r fun i _ => x i := by
  induction ds generalizing r with
  | nil => trivial
  | cons d ds ih => exact ⟨h _ _ _, ih _⟩

section

variable {n : ℕ} {cfg : SmcConfig ℝ} {env : Env ℝ O E R} {check : Bool} {w : Fin n → ℝ}
  {x : Fin n → List ℝ} {s : Smc ℝ O R}

/-- Likelihood of the first `t` data at a particle. -/
theorem prod_first (like : O → List ℝ → E → ℝ) (D : ℕ → Ω → O × E) (t : ℕ) (v : Ω) (y : List ℝ) :
    ((firstData D t v).map fun d => like d.1 y d.2).prod =
      ∏ i ∈ Finset.range t, like (D i v).1 y (D i v).2 := by
  rw [firstData, List.map_ofFn, List.prod_ofFn, Finset.prod_range]
  rfl

theorem Spec.Resting.weight (h : Resting cfg env check w x s) (D : ℕ → Ω → O × E) (t : ℕ) (v : Ω)
    (hok : (feed cfg env check (firstData D t v) s).2 = .ok ()) :
    (feed cfg env check (firstData D t v) s).1.weights = List.ofFn (fun j =>
      w j * (∏ i ∈ Finset.range t, env.likelihood (D i v).1 (x j) (D i v).2) /
        ∑ k, w k * ∏ i ∈ Finset.range t, env.likelihood (D i v).1 (x k) (D i v).2) ∧
    (feed cfg env check (firstData D t v) s).1.locs = List.ofFn x := by
  obtain ⟨-, h2⟩ := C97_path_posterior cfg env h.good check h.off h.policy h.thresh.1 h.thresh.2
    (firstData D t v) w (fun i _ => x i) h.nonneg h.sum s h.weights h.locs
    (moves_static env h.static _ _ x)
  obtain ⟨h3, h4, -⟩ := h2 hok
  simp only [pathLike_static, prod_first] at h3
  exact ⟨h3, h4⟩

/-- **C106, accepted.**  If no particle finds a datum less probable than machine precision, every run is
accepted. -/
theorem C106_accepted (h : Resting cfg env check w x s) (ds : List (O × E))
    (hL : ∀ d ∈ ds, ∀ i, eps ≤ env.likelihood d.1 (x i) d.2) :
    (feed cfg env check ds s).2 = .ok () := by
  refine ((C97_path_posterior cfg env h.good check h.off h.policy h.thresh.1 h.thresh.2
    ds w (fun i _ => x i) h.nonneg h.sum s h.weights h.locs
    (moves_static env h.static _ _ x)).1).2 fun t ht => ?_
  rw [Finset.mul_sum]
  refine Finset.sum_le_sum fun i _ => ?_
  rw [List.take_succ_eq_append_getElem ht, pathLike_append]
  have h0 : 0 ≤ pathLike env.likelihood (ds.take t) (fun _ => x i) :=
    pathLike_nonneg _ h.good.like_nonneg _ _
  have h1 := hL ds[t] (List.getElem_mem _) i
  simp only [pathLike, mul_one]
  calc eps * (w i * pathLike env.likelihood (ds.take t) fun _ => x i)
      = w i * (pathLike env.likelihood (ds.take t) fun _ => x i) * eps := by ring
    _ ≤ w i * (pathLike env.likelihood (ds.take t) fun _ => x i) * _ :=
        mul_le_mul_of_nonneg_left h1 (mul_nonneg (h.nonneg i) h0)
    _ = _ := by ring

/-- **C106, refuted.**  A particle that finds one of the data impossible has no weight after an accepted
run. -/
theorem C106_refuted (h : Resting cfg env check w x s) (D : ℕ → Ω → O × E) (t : ℕ) (v : Ω)
    (hok : (feed cfg env check (firstData D t v) s).2 = .ok ()) (j : Fin n) (r : ℕ) (hr : r < t)
    (h0 : env.likelihood (D r v).1 (x j) (D r v).2 = 0) :
    (feed cfg env check (firstData D t v) s).1.weights.getD j 0 = 0 := by
  rw [(h.weight D t v hok).1]
  have : ∏ i ∈ Finset.range t, env.likelihood (D i v).1 (x j) (D i v).2 = 0 :=
    Finset.prod_eq_zero (Finset.mem_range.2 hr) h0
  simp [this]

variable {P : Measure Ω} [IsProbabilityMeasure P] {μ : Measure (O × E)} {D : ℕ → Ω → O × E}

/-- Averages over the data. -/
theorem Spec.IidData.average (h : IidData P μ D) (g : O × E → ℝ) (hg : Measurable g)
    (hi : Integrable g μ) :
    ∀ᵐ v ∂P, Tendsto (fun t : ℕ => (∑ i ∈ Finset.range t, g (D i v)) / t) atTop (𝓝 (∫ d, g d ∂μ)) := by
  have h0 : Integrable (g ∘ D 0) P := by
    rw [← h.law 0] at hi
    exact (integrable_map_measure hg.aestronglyMeasurable (h.meas 0).aemeasurable).1 hi
  have h1 := strong_law_ae_real (fun i => g ∘ D i) h0
    (fun i j hij => (h.indep hij).comp hg hg)
    (fun i => (IdentDistrib.mk (h.meas i).aemeasurable (h.meas 0).aemeasurable
      (by rw [h.law, h.law])).comp hg)
  have he : ∫ v, (g ∘ D 0) v ∂P = ∫ d, g d ∂μ := by
    rw [← h.law 0, integral_map (h.meas 0).aemeasurable hg.aestronglyMeasurable]
    rfl
  rw [he] at h1
  exact h1

/-- What holds for almost every datum holds, with probability one, for all data. -/
theorem Spec.IidData.forall_ae (h : IidData P μ D) (p : O × E → Prop) (hp : ∀ᵐ d ∂μ, p d) :
    ∀ᵐ v ∂P, ∀ t, p (D t v) := by
  rw [ae_all_iff]
  intro t
  rw [← h.law t] at hp
  exact ae_of_ae_map (h.meas t).aemeasurable hp

/-- **C106.**  If particle `i` has weight and explains the data better on average than particle `j`, that
is, with a larger expected logarithm of the likelihood, then with probability one the weight of `j`
tends to zero. -/
theorem C106_weight_vanishes (h : Resting cfg env check w x s) (hD : IidData P μ D) (i j : Fin n)
    (hwi : 0 < w i) (hmeas : ∀ k, Measurable fun d : O × E => env.likelihood d.1 (x k) d.2)
    (hpi : ∀ᵐ d ∂μ, 0 < env.likelihood d.1 (x i) d.2)
    (hpj : ∀ᵐ d ∂μ, 0 < env.likelihood d.1 (x j) d.2)
    (hii : Integrable (fun d : O × E => Real.log (env.likelihood d.1 (x i) d.2)) μ)
    (hij : Integrable (fun d : O × E => Real.log (env.likelihood d.1 (x j) d.2)) μ)
    (hlt : ∫ d, Real.log (env.likelihood d.1 (x j) d.2) ∂μ <
      ∫ d, Real.log (env.likelihood d.1 (x i) d.2) ∂μ) :
    ∀ᵐ v ∂P, (∀ t, (feed cfg env check (firstData D t v) s).2 = .ok ()) →
      Tendsto (fun t => (feed cfg env check (firstData D t v) s).1.weights.getD j 0) atTop (𝓝 0) := by
  set g : O × E → ℝ := fun d =>
    Real.log (env.likelihood d.1 (x j) d.2) - Real.log (env.likelihood d.1 (x i) d.2) with hg
  have hgm : Measurable g := (Real.measurable_log.comp (hmeas j)).sub (Real.measurable_log.comp (hmeas i))
  have hgi : Integrable g μ := hij.sub hii
  have hneg : ∫ d, g d ∂μ < 0 := by
    rw [hg, integral_sub hij hii]; linarith
  filter_upwards [hD.average g hgm hgi, hD.forall_ae _ hpi, hD.forall_ae _ hpj] with v hv hi hj hok
  have hsum : Tendsto (fun t : ℕ => ∑ k ∈ Finset.range t, g (D k v)) atTop atBot := by
    have h1 : Tendsto (fun t : ℕ => (t : ℝ) * ((∑ k ∈ Finset.range t, g (D k v)) / t)) atTop atBot :=
      tendsto_natCast_atTop_atTop.atTop_mul_neg hneg hv
    refine h1.congr' ?_
    filter_upwards [eventually_ne_atTop 0] with t ht
    have : (t : ℝ) ≠ 0 := Nat.cast_ne_zero.2 ht
    field_simp
  have hexp : Tendsto (fun t : ℕ => w j / w i * Real.exp (∑ k ∈ Finset.range t, g (D k v))) atTop (𝓝 0) := by
    have := (Real.tendsto_exp_atBot.comp hsum).const_mul (w j / w i)
    simpa using this
  have hform : ∀ t, (feed cfg env check (firstData D t v) s).1.weights.getD j 0 =
      w j * (∏ k ∈ Finset.range t, env.likelihood (D k v).1 (x j) (D k v).2) /
        ∑ l, w l * ∏ k ∈ Finset.range t, env.likelihood (D k v).1 (x l) (D k v).2 := fun t => by
    rw [(h.weight D t v (hok t)).1]; simp
  have hprod0 : ∀ t l, 0 ≤ ∏ k ∈ Finset.range t, env.likelihood (D k v).1 (x l) (D k v).2 := fun t l =>
    Finset.prod_nonneg fun k _ => h.good.like_nonneg _ _ _
  refine tendsto_of_tendsto_of_tendsto_of_le_of_le tendsto_const_nhds hexp (fun t => ?_) (fun t => ?_)
  · simp only [hform]
    exact div_nonneg (mul_nonneg (h.nonneg j) (hprod0 t j))
      (Finset.sum_nonneg fun l _ => mul_nonneg (h.nonneg l) (hprod0 t l))
  · simp only [hform]
    have hAi : 0 < ∏ k ∈ Finset.range t, env.likelihood (D k v).1 (x i) (D k v).2 :=
      Finset.prod_pos fun k _ => hi k
    have hAj : 0 < ∏ k ∈ Finset.range t, env.likelihood (D k v).1 (x j) (D k v).2 :=
      Finset.prod_pos fun k _ => hj k
    have hle : w i * ∏ k ∈ Finset.range t, env.likelihood (D k v).1 (x i) (D k v).2 ≤
        ∑ l, w l * ∏ k ∈ Finset.range t, env.likelihood (D k v).1 (x l) (D k v).2 :=
      Finset.single_le_sum (f := fun l => w l * ∏ k ∈ Finset.range t,
        env.likelihood (D k v).1 (x l) (D k v).2)
        (fun l _ => mul_nonneg (h.nonneg l) (hprod0 t l)) (Finset.mem_univ i)
    have he : Real.exp (∑ k ∈ Finset.range t, g (D k v)) =
        (∏ k ∈ Finset.range t, env.likelihood (D k v).1 (x j) (D k v).2) /
          ∏ k ∈ Finset.range t, env.likelihood (D k v).1 (x i) (D k v).2 := by
      rw [Real.exp_sum, ← Finset.prod_div_distrib]
      refine Finset.prod_congr rfl fun k _ => ?_
      rw [hg, Real.exp_sub, Real.exp_log (hj k), Real.exp_log (hi k)]
    rw [he]
    calc w j * (∏ k ∈ Finset.range t, env.likelihood (D k v).1 (x j) (D k v).2) /
          ∑ l, w l * ∏ k ∈ Finset.range t, env.likelihood (D k v).1 (x l) (D k v).2
        ≤ w j * (∏ k ∈ Finset.range t, env.likelihood (D k v).1 (x j) (D k v).2) /
          (w i * ∏ k ∈ Finset.range t, env.likelihood (D k v).1 (x i) (D k v).2) :=
          div_le_div_of_nonneg_left (mul_nonneg (h.nonneg j) hAj.le) (mul_pos hwi hAi) hle
      _ = _ := by field_simp

/-- **C106, impossible data.**  If particle `j` finds data impossible that occur with positive
probability, its weight is zero from some time on, with probability one. -/
theorem C106_impossible (h : Resting cfg env check w x s) (hD : IidData P μ D) (j : Fin n)
    (hmeas : Measurable fun d : O × E => env.likelihood d.1 (x j) d.2)
    (hpos : μ {d | env.likelihood d.1 (x j) d.2 = 0} ≠ 0) :
    ∀ᵐ v ∂P, (∀ t, (feed cfg env check (firstData D t v) s).2 = .ok ()) →
      ∀ᶠ t in atTop, (feed cfg env check (firstData D t v) s).1.weights.getD j 0 = 0 := by
  have hμ : IsProbabilityMeasure μ := by
    rw [← hD.law 0]; exact Measure.isProbabilityMeasure_map (hD.meas 0).aemeasurable
  set B : Set (O × E) := {d | env.likelihood d.1 (x j) d.2 = 0} with hB
  have hBm : MeasurableSet B := hmeas (measurableSet_singleton 0)
  have hgm : Measurable (B.indicator fun _ => (1 : ℝ)) := measurable_const.indicator hBm
  filter_upwards [hD.average (B.indicator fun _ => (1 : ℝ)) hgm
    ((integrable_const 1).indicator hBm)] with v hv hok
  have hex : ∃ r, D r v ∈ B := by
    by_contra hno
    push Not at hno
    have h0 : ∀ t : ℕ, (∑ k ∈ Finset.range t, B.indicator (fun _ => (1 : ℝ)) (D k v)) / t = 0 := fun t => by
      rw [Finset.sum_eq_zero fun k _ => Set.indicator_of_notMem (hno k) _, zero_div]
    simp only [h0] at hv
    have := tendsto_nhds_unique hv tendsto_const_nhds
    rw [integral_indicator_const _ hBm, smul_eq_mul, mul_one] at this
    exact hpos ((measureReal_eq_zero_iff).1 this)
  obtain ⟨r, hr⟩ := hex
  filter_upwards [eventually_gt_atTop r] with t ht
  exact C106_refuted h D t v (hok t) j r ht hr

/-- The data come from particle `i`: experiments are chosen with probabilities `q`, outcomes follow the
likelihood at `x i`. -/
structure Spec.DrawnFrom [Fintype O] [Fintype E] (like : O → List ℝ → E → ℝ) (y : List ℝ) (q : E → ℝ)
    (μ : Measure (O × E)) : Prop where
  nonneg : ∀ e, 0 ≤ q e
  sum : ∑ e, q e = 1
  law : ∀ o e, μ.real {(o, e)} = q e * like o y e

/-- Strict form of Gibbs' inequality. -/
theorem gibbs_strict {ι : Type*} [Fintype ι] (a b : ι → ℝ) (ha : ∀ i, 0 ≤ a i) (hb : ∀ i, 0 ≤ b i)
    (hsa : ∑ i, a i = 1) (hsb : ∑ i, b i = 1) (hab : ∀ i, 0 < a i → 0 < b i) (hne : a ≠ b) :
    ∑ i, a i * Real.log (b i / a i) < 0 := by
  have hle : ∀ i, a i * Real.log (b i / a i) ≤ b i - a i := fun i => by
    rcases (ha i).eq_or_lt with h | h
    · rw [← h]; simpa using hb i
    · have := Real.log_le_sub_one_of_pos (div_pos (hab i h) h)
      calc _ ≤ a i * (b i / a i - 1) := mul_le_mul_of_nonneg_left this h.le
        _ = _ := by field_simp
  have hlt : ∃ i ∈ Finset.univ, a i * Real.log (b i / a i) < b i - a i := by
    obtain ⟨i, hi⟩ : ∃ i, a i ≠ b i := by
      by_contra hno; push Not at hno; exact hne (funext hno)
    refine ⟨i, Finset.mem_univ i, ?_⟩
    rcases (ha i).eq_or_lt with h | h
    · rw [← h] at hi ⊢
      simpa using lt_of_le_of_ne (hb i) hi
    · have := Real.log_lt_sub_one_of_pos (div_pos (hab i h) h) (by
        rw [Ne, div_eq_one_iff_eq h.ne']; exact fun e => hi e.symm)
      calc _ < a i * (b i / a i - 1) := mul_lt_mul_of_pos_left this h
        _ = _ := by field_simp
  calc _ < ∑ i, (b i - a i) := Finset.sum_lt_sum (fun i _ => hle i) hlt
    _ = 0 := by rw [Finset.sum_sub_distrib, hsa, hsb, sub_self]

variable [Fintype O] [Fintype E] [MeasurableSingletonClass O] [MeasurableSingletonClass E]

/-- **C106, truth.**  Let the data come from particle `i`, which has weight.  The weight of every particle
that predicts other probabilities for an experiment that is performed tends to zero, with probability
one. -/
theorem C106_wrong_particles (h : Resting cfg env check w x s) (hD : IidData P μ D) (i j : Fin n)
    (hwi : 0 < w i) (q : E → ℝ) (hq : DrawnFrom env.likelihood (x i) q μ)
    (hone : ∀ k e, ∑ o, env.likelihood o (x k) e = 1)
    (hdiff : ∃ o e, 0 < q e ∧ env.likelihood o (x j) e ≠ env.likelihood o (x i) e) :
    ∀ᵐ v ∂P, (∀ t, (feed cfg env check (firstData D t v) s).2 = .ok ()) →
      Tendsto (fun t => (feed cfg env check (firstData D t v) s).1.weights.getD j 0) atTop (𝓝 0) := by
  have hμ : IsProbabilityMeasure μ := by
    rw [← hD.law 0]; exact Measure.isProbabilityMeasure_map (hD.meas 0).aemeasurable
  have hmeas : ∀ k, Measurable fun d : O × E => env.likelihood d.1 (x k) d.2 := fun k =>
    measurable_of_finite _
  have hnn := h.good.like_nonneg
  by_cases hz : μ {d | env.likelihood d.1 (x j) d.2 = 0} = 0
  · have hsing : ∀ d : O × E, μ.real {d} = q d.2 * env.likelihood d.1 (x i) d.2 := fun d => hq.law d.1 d.2
    have hae : ∀ p : O × E → Prop, (∀ d, 0 < μ.real {d} → p d) → ∀ᵐ d ∂μ, p d := by
      intro p hp
      rw [ae_iff_of_countable]
      intro d hd
      exact hp d (ENNReal.toReal_pos hd (measure_ne_top _ _))
    have hpj' : ∀ d : O × E, 0 < μ.real {d} → 0 < env.likelihood d.1 (x j) d.2 := fun d hd => by
      refine lt_of_le_of_ne (hnn _ _ _) fun h0 => ?_
      have : μ {d} ≤ 0 := by
        rw [← hz]; exact measure_mono (Set.singleton_subset_iff.2 h0.symm)
      rw [Measure.real, le_antisymm this bot_le] at hd
      simp at hd
    have hpi' : ∀ d : O × E, 0 < μ.real {d} → 0 < env.likelihood d.1 (x i) d.2 := fun d hd => by
      refine lt_of_le_of_ne (hnn _ _ _) fun h0 => ?_
      rw [hsing, ← h0, mul_zero] at hd
      exact lt_irrefl _ hd
    refine C106_weight_vanishes h hD i j hwi hmeas (hae _ hpi') (hae _ hpj') Integrable.of_finite
      Integrable.of_finite ?_
    rw [integral_fintype Integrable.of_finite, integral_fintype Integrable.of_finite, ← sub_neg,
      ← Finset.sum_sub_distrib]
    have hsum1 : ∀ k, ∑ d : O × E, q d.2 * env.likelihood d.1 (x k) d.2 = 1 := fun k => by
      rw [Fintype.sum_prod_type_right]
      simp only [← Finset.mul_sum, hone, mul_one, hq.sum]
    have hgibbs := gibbs_strict (fun d : O × E => q d.2 * env.likelihood d.1 (x i) d.2)
      (fun d => q d.2 * env.likelihood d.1 (x j) d.2)
      (fun d => mul_nonneg (hq.nonneg _) (hnn _ _ _)) (fun d => mul_nonneg (hq.nonneg _) (hnn _ _ _))
      (hsum1 i) (hsum1 j)
      (fun d hd => by
        have h1 := hpj' d (by rw [hsing]; exact hd)
        exact mul_pos (lt_of_le_of_ne (hq.nonneg _) fun h0 => by
          rw [← h0, zero_mul] at hd; exact lt_irrefl _ hd) h1)
      (fun he => by
        obtain ⟨o, e, he0, hne⟩ := hdiff
        have := congrFun he (o, e)
        exact hne (mul_left_cancel₀ he0.ne' this).symm)
    refine lt_of_eq_of_lt (Finset.sum_congr rfl fun d _ => ?_) hgibbs
    simp only [smul_eq_mul]
    rw [hsing]
    rcases (mul_nonneg (hq.nonneg d.2) (hnn d.1 (x i) d.2)).eq_or_lt with h0 | h0
    · rw [← h0]; simp
    · have hq0 : q d.2 ≠ 0 := fun hh => by rw [hh, zero_mul] at h0; exact lt_irrefl _ h0
      have h1 := hpi' d (by rw [hsing]; exact h0)
      have h2 := hpj' d (by rw [hsing]; exact h0)
      rw [mul_div_mul_left _ _ hq0, Real.log_div h2.ne' h1.ne', mul_sub]
  · filter_upwards [C106_impossible h hD j (hmeas j) hz] with v hv hok
    exact tendsto_const_nhds.congr' ((hv hok).mono fun t ht => ht.symm)

/-- **C106, learning.**  If moreover all other particles are wrong in this sense, the weight of the true
particle tends to one, and the estimate of the mean of any function of the parameters to its value at
the true parameters, with probability one. -/
theorem C106_learns (h : Resting cfg env check w x s) (hD : IidData P μ D) (i : Fin n)
    (hwi : 0 < w i) (q : E → ℝ) (hq : DrawnFrom env.likelihood (x i) q μ)
    (hone : ∀ k e, ∑ o, env.likelihood o (x k) e = 1)
    (hdiff : ∀ j, j ≠ i → ∃ o e, 0 < q e ∧ env.likelihood o (x j) e ≠ env.likelihood o (x i) e) :
    ∀ᵐ v ∂P, (∀ t, (feed cfg env check (firstData D t v) s).2 = .ok ()) →
      Tendsto (fun t => (feed cfg env check (firstData D t v) s).1.weights.getD i 0) atTop (𝓝 1) ∧
      ∀ f : List ℝ → ℝ,
        Tendsto (fun t => cloudMean f (feed cfg env check (firstData D t v) s).1) atTop (𝓝 (f (x i))) := by
  have hall : ∀ᵐ v ∂P, ∀ j, j ≠ i → (∀ t, (feed cfg env check (firstData D t v) s).2 = .ok ()) →
      Tendsto (fun t => (feed cfg env check (firstData D t v) s).1.weights.getD j 0) atTop (𝓝 0) := by
    rw [ae_all_iff]
    intro j
    by_cases hj : j = i
    · exact ae_of_all _ fun v hji => absurd hj hji
    · filter_upwards [C106_wrong_particles h hD i j hwi q hq hone (hdiff j hj)] with v hv _ using hv
  filter_upwards [hall] with v hv hok
  set W : ℕ → Fin n → ℝ := fun t j => (feed cfg env check (firstData D t v) s).1.weights.getD j 0 with hW
  have hweights : ∀ t, (feed cfg env check (firstData D t v) s).1.weights = List.ofFn (W t) := fun t => by
    have hl : (feed cfg env check (firstData D t v) s).1.weights.length = n := by
      rw [(h.weight D t v (hok t)).1]; simp
    apply List.ext_getElem
    · simp [hl]
    · intro k h1 h2
      simp [hW, h1]
  have hpos : ∀ t, ∑ k, w k * ∏ r ∈ Finset.range t, env.likelihood (D r v).1 (x k) (D r v).2 ≠ 0 := by
    intro t
    have h2 := (feed_paths cfg env h.good check h.off h.policy h.thresh.1 h.thresh.2
      (firstData D t v) w (fun i _ => x i) h.nonneg h.sum s h.weights h.locs
      (moves_static env h.static _ _ x)).2 (hok t)
    obtain ⟨-, -, h3, -⟩ := h2
    simp only [pathLike_static, prod_first] at h3
    exact h3.ne'
  have hsum : ∀ t, ∑ j, W t j = 1 := fun t => by
    have h1 := (h.weight D t v (hok t)).1
    rw [hweights t] at h1
    have h2 := List.ofFn_injective h1
    rw [h2, ← Finset.sum_div, div_self (hpos t)]
  have hzero : ∀ j, j ≠ i → Tendsto (fun t => W t j) atTop (𝓝 0) := fun j hj => hv j hj hok
  have hi1 : Tendsto (fun t => W t i) atTop (𝓝 1) := by
    have h1 : ∀ t, W t i = 1 - ∑ j ∈ Finset.univ.erase i, W t j := fun t => by
      rw [← hsum t, ← Finset.add_sum_erase _ _ (Finset.mem_univ i)]; ring
    have h2 : Tendsto (fun t => ∑ j ∈ Finset.univ.erase i, W t j) atTop (𝓝 0) := by
      have := tendsto_finsetSum (Finset.univ.erase i) fun j hj => hzero j (Finset.ne_of_mem_erase hj)
      simpa using this
    have h3 := h2.const_sub 1
    simp only [sub_zero] at h3
    exact h3.congr fun t => (h1 t).symm
  refine ⟨hi1, fun f => ?_⟩
  have hcm : ∀ t, cloudMean f (feed cfg env check (firstData D t v) s).1 = ∑ j, W t j * f (x j) := fun t => by
    rw [cloudMean, hweights t, (h.weight D t v (hok t)).2, zip_ofFn, List.map_ofFn, List.sum_ofFn]
    rfl
  simp only [hcm]
  have h4 : Tendsto (fun t => ∑ j, W t j * f (x j)) atTop
      (𝓝 (∑ j, (if j = i then 1 else 0) * f (x j))) := by
    refine tendsto_finsetSum _ fun j _ => ?_
    by_cases hj : j = i
    · subst hj; rw [if_pos rfl]; exact hi1.mul_const _
    · rw [if_neg hj]; exact (hzero j hj).mul_const _
  simpa using h4

end

/-! ### A case: three phases -/

/-- A phase that rests. -/
noncomputable def restEnv (xs : List (List ℝ)) : Env ℝ Bool Unit Unit where
  likelihood o x _ := 1 / 2 + (if o then 1 else -1) * Real.sin (x.getD 0 0) / 4
  timestep r l _ := (l, r)
  canon l := l
  clearCacheRaises := false
  prior r n := ((xs ++ List.replicate n []).take n, r)
  resampler r w l := (.ok (w, l), r)
  kl _ _ _ _ := 0

/-- Three phases. -/
noncomputable def restLocs (i : Fin 3) : List ℝ := [(i.val - 1 : ℝ) * (Real.pi / 2)]

theorem restLocs_sin (i : Fin 3) : Real.sin ((restLocs i).getD 0 0) = (i.val : ℝ) - 1 := by
  fin_cases i <;> simp [restLocs] <;> norm_num

theorem rest_resting (check : Bool) :
    Resting phaseCfg (restEnv (List.ofFn restLocs)) check (fun _ : Fin 3 => 1 / 3) restLocs
      (construct phaseCfg (restEnv (List.ofFn restLocs)) 3 false ()).1 where
  good :=
    { like_nonneg := (phaseEnv_good fun _ => 0).like_nonneg
      prior_len := fun r n => by simp [restEnv]; omega
      canon_len := fun l => rfl
      timestep_len := fun r l e => rfl
      resampler_ok := fun r w l w' l' hw hl h => by
        simp only [restEnv, Except.ok.injEq, Prod.mk.injEq] at h
        obtain ⟨rfl, rfl⟩ := h
        exact ⟨hw, hl⟩ }
  static r l e := rfl
  off := Or.inr le_rfl
  policy := rfl
  thresh := by
    have hε : (eps : ℝ) ≤ 1 / 40 := by unfold eps; norm_num
    exact ⟨by show (eps : ℝ) ≤ 10 * eps; linarith [eps_pos (K := ℝ)],
      by show 10 * (eps : ℝ) < 1; linarith⟩
  nonneg _ := by norm_num
  sum := by norm_num
  weights := by simp [construct, reset, restEnv, phaseCfg, List.replicate]
  locs := by simp [construct, reset, restEnv, phaseCfg]

/-- Outcomes of the third phase. -/
noncomputable def restLaw : Measure (Bool × Unit) :=
  ENNReal.ofReal (3 / 4) • Measure.dirac (true, ()) + ENNReal.ofReal (1 / 4) • Measure.dirac (false, ())

instance : IsProbabilityMeasure restLaw where
  measure_univ := by
    simp only [restLaw, Measure.add_apply, Measure.smul_apply, measure_univ, smul_eq_mul, mul_one]
    rw [← ENNReal.ofReal_add (by norm_num) (by norm_num)]
    norm_num

theorem rest_data : IidData (Measure.infinitePi fun _ : ℕ => restLaw) restLaw fun t v => v t where
  meas t := measurable_pi_apply t
  law t := Measure.infinitePi_map_eval _ t
  indep i j hij := (iIndepFun_infinitePi (P := fun _ : ℕ => restLaw) (X := fun _ x => x)
    (fun _ => measurable_id)).indepFun hij

/-- Case for C106: the outcomes come from the third of three phases; the updater learns which one, with
probability one, and no run is rejected. -/
example : ∀ᵐ v ∂(Measure.infinitePi fun _ : ℕ => restLaw),
    Tendsto (fun t => (feed phaseCfg (restEnv (List.ofFn restLocs)) true
        (firstData (fun t (v : ℕ → Bool × Unit) => v t) t v)
        (construct phaseCfg (restEnv (List.ofFn restLocs)) 3 false ()).1).1.weights.getD 2 0)
      atTop (𝓝 1) := by
  have hdrawn : DrawnFrom (restEnv (List.ofFn restLocs)).likelihood (restLocs 2) (fun _ => 1) restLaw :=
    { nonneg := fun _ => by norm_num
      sum := by simp
      law := fun o e => by
        have hs := restLocs_sin 2
        simp only [restEnv, hs]
        cases o <;> simp [restLaw, measureReal_def] <;> norm_num }
  have hL := C106_learns (rest_resting true) rest_data 2 (by norm_num) (fun _ => 1) hdrawn
    (fun k e => by simp [restEnv]; ring)
    (fun j hj => ⟨true, (), one_pos, by
      simp only [restEnv, restLocs_sin]
      fin_cases j
      · norm_num
      · norm_num
      · exact absurd rfl hj⟩)
  filter_upwards [hL] with v hv
  refine (hv fun t => C106_accepted (rest_resting true) _ fun d _ i => ?_).1
  have hε : (eps : ℝ) ≤ 1 / 40 := by unfold eps; norm_num
  exact le_trans (by linarith) (phase_like d.1 (restLocs i) d.2).1

end QInfer
