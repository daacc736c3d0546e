import Verif.Props.OwnChoice
import Verif.Props.Heur

/-!
# C149: what a schedule of experiments can refute

Experiments follow a fixed schedule, such as the exponentially sparse times of `ExpSparseHeuristic`; none
needs to be repeated.  Whether a wrong particle loses its weight is decided by one series.
-/

namespace QInfer

open Spec Filter Topology MeasureTheory ProbabilityTheory Function

variable {Ω : Type*} {O E R : Type} [MeasurableSpace Ω] [MeasurableSpace O] [MeasurableSpace E]

/-- Outcomes of the experiments `sched 0`, `sched 1`, … at parameters `y`. -/
structure Spec.ScheduledData (P : Measure Ω) (like : O → List ℝ → E → ℝ) (y : List ℝ) (sched : ℕ → E)
    (X : ℕ → Ω → O) : Prop where
  meas : ∀ t, Measurable (X t)
  law : ∀ t (h : Fin t → O) o, P.real {v | (∀ i : Fin t, X i v = h i) ∧ X t v = o} =
    like o y (sched t) * P.real {v | ∀ i : Fin t, X i v = h i}

section

variable [Fintype O] [MeasurableSingletonClass O] {P : Measure Ω} [IsProbabilityMeasure P]
  {like : O → List ℝ → E → ℝ} {y : List ℝ} {sched : ℕ → E} {X : ℕ → Ω → O}

omit [MeasurableSpace E] in
/-- **C149, data.**  Independent outcomes with the probabilities of the model are such data. -/
theorem C149_independent (hm : ∀ t, Measurable (X t)) (hi : iIndepFun X P)
    (hl : ∀ t o, P.real {v | X t v = o} = like o y (sched t)) : ScheduledData P like y sched X where
  meas := hm
  law t h o := by
    classical
    have h1 := hi.measure_inter_preimage_eq_mul (Finset.range (t + 1))
      (sets := fun r => if hr : r < t then {h ⟨r, hr⟩} else {o})
      (fun r _ => by split_ifs <;> exact measurableSet_singleton _)
    have h2 := hi.measure_inter_preimage_eq_mul (Finset.range t)
      (sets := fun r => if hr : r < t then {h ⟨r, hr⟩} else {o})
      (fun r _ => by split_ifs <;> exact measurableSet_singleton _)
    have e1 : (⋂ r ∈ Finset.range (t + 1), X r ⁻¹' (if hr : r < t then {h ⟨r, hr⟩} else {o})) =
        {v | (∀ i : Fin t, X i v = h i) ∧ X t v = o} := by
      ext v
      simp only [Set.mem_iInter, Finset.mem_range, Set.mem_preimage, Set.mem_ofPred_eq]
      constructor
      · intro hv
        refine ⟨fun i => ?_, ?_⟩
        · have := hv i (by omega)
          rw [dif_pos i.2] at this
          exact this
        · have := hv t (by omega)
          rw [dif_neg (lt_irrefl t)] at this
          exact this
      · rintro ⟨ha, hb⟩ r hr
        by_cases hrt : r < t
        · rw [dif_pos hrt]; exact ha ⟨r, hrt⟩
        · rw [dif_neg hrt, show r = t by omega]; exact hb
    have e2 : (⋂ r ∈ Finset.range t, X r ⁻¹' (if hr : r < t then {h ⟨r, hr⟩} else {o})) =
        {v | ∀ i : Fin t, X i v = h i} := by
      ext v
      simp only [Set.mem_iInter, Finset.mem_range, Set.mem_preimage, Set.mem_ofPred_eq]
      constructor
      · intro hv i
        have := hv i i.2
        rw [dif_pos i.2] at this
        exact this
      · intro ha r hr
        rw [dif_pos hr]; exact ha ⟨r, hr⟩
    rw [e1, Finset.prod_range_succ, ← h2, e2, dif_neg (lt_irrefl t)] at h1
    rw [measureReal_def, h1, ENNReal.toReal_mul, mul_comm, ← hl t o]
    rfl

omit [MeasurableSpace E] in
theorem Spec.ScheduledData.mass (hX : ScheduledData P like y sched X) (t : ℕ) (o : O) :
    P.real {v | X t v = o} = like o y (sched t) := by
  classical
  have hs := cell_meas hX.meas t
  have hu : {v | X t v = o} = ⋃ h : Fin t → O, {v | (∀ i : Fin t, X i v = h i) ∧ X t v = o} := by
    ext v
    simp only [Set.mem_ofPred_eq, Set.mem_iUnion]
    exact ⟨fun hv => ⟨_, fun i => rfl, hv⟩, fun ⟨_, hv⟩ => hv.2⟩
  have hu2 : (Set.univ : Set Ω) = ⋃ h : Fin t → O, {v | ∀ i : Fin t, X i v = h i} := by
    ext v
    simp only [Set.mem_univ, Set.mem_iUnion, Set.mem_ofPred_eq, true_iff]
    exact ⟨_, fun i => rfl⟩
  have hdis : Pairwise (Disjoint on fun h : Fin t → O => {v | ∀ i : Fin t, X i v = h i}) := by
    intro h h' hne
    refine Set.disjoint_left.2 fun v hv hv' => hne (funext fun i => ?_)
    exact (hv i).symm.trans (hv' i)
  have hone := measureReal_iUnion_fintype (μ := P) hdis hs
  rw [← hu2, probReal_univ] at hone
  rw [hu, measureReal_iUnion_fintype]
  · simp only [hX.law]
    rw [← Finset.mul_sum, ← hone, mul_one]
  · intro h h' hne
    exact (hdis hne).mono (fun v hv => hv.1) fun v hv => hv.1
  · intro h
    have : {v | (∀ i : Fin t, X i v = h i) ∧ X t v = o} = {v | ∀ i : Fin t, X i v = h i} ∩ X t ⁻¹' {o} := rfl
    rw [this]
    exact (hs h).inter (hX.meas t (measurableSet_singleton o))

omit [MeasurableSpace E] in
theorem Spec.ScheduledData.possible (hX : ScheduledData P like y sched X) (h0 : ∀ o e, 0 ≤ like o y e) :
    ∀ᵐ v ∂P, ∀ t, 0 < like (X t v) y (sched t) := by
  rw [ae_all_iff]
  intro t
  have : ∀ᵐ v ∂P, ∀ o, like o y (sched t) = 0 → X t v ≠ o := by
    rw [ae_all_iff]
    intro o
    by_cases ho : like o y (sched t) = 0
    · have := hX.mass t o
      rw [ho, measureReal_eq_zero_iff] at this
      rw [ae_iff]
      refine measure_mono_null (fun v hv => ?_) this
      by_contra hne
      exact hv fun _ => hne
    · exact ae_of_all _ fun v h => absurd h ho
  filter_upwards [this] with v hv
  exact lt_of_le_of_ne (h0 _ _) fun hh => hv _ hh.symm rfl

omit [MeasurableSpace E] in
/-- Likelihood ratios converge. -/
theorem scheduled_ratio (hX : ScheduledData P like y sched X) (h0 : ∀ o z e, 0 ≤ like o z e) (z : List ℝ)
    (hz : ∀ e, ∑ o, like o z e = 1) :
    (∀ t, ∫ v, ∏ r ∈ Finset.range t, like (X r v) z (sched r) / like (X r v) y (sched r) ∂P ≤ 1) ∧
    ∀ᵐ v ∂P, ∃ c, Tendsto (fun t => ∏ r ∈ Finset.range t, like (X r v) z (sched r) / like (X r v) y (sched r))
      atTop (𝓝 c) := by
  refine products_converge hX.meas (fun t o => like o z (sched t) / like o y (sched t))
    (fun t o => div_nonneg (h0 _ _ _) (h0 _ _ _)) fun t h => ?_
  simp only [hX.law, ← mul_assoc]
  rw [← Finset.sum_mul]
  refine mul_le_of_le_one_left measureReal_nonneg ?_
  rw [← hz (sched t)]
  refine Finset.sum_le_sum fun o _ => ?_
  by_cases ho : like o y (sched t) = 0
  · rw [ho, mul_zero]; exact h0 _ _ _
  · rw [div_mul_cancel₀ _ ho]

omit [MeasurableSpace E] [MeasurableSpace O] [MeasurableSingletonClass O] in
theorem root_step (h0 : ∀ o z e, 0 ≤ like o z e) (z : List ℝ) (e : E) (a : ℝ) (ha : a = affinity like y z e) :
    ∑ o, √(like o z e / like o y e) / a * like o y e = a / a := by
  have : ∀ o, √(like o z e / like o y e) * like o y e = √(like o y e * like o z e) := fun o => by
    rcases (h0 o y e).eq_or_lt with h | h
    · rw [← h]; simp
    · rw [show like o y e * like o z e = like o y e ^ 2 * (like o z e / like o y e) by field_simp,
        Real.sqrt_mul (sq_nonneg _), Real.sqrt_sq h.le, mul_comm]
  calc ∑ o, √(like o z e / like o y e) / a * like o y e
      = ∑ o, √(like o y e * like o z e) / a := Finset.sum_congr rfl fun o _ => by
        rw [← this o]; ring
    _ = _ := by rw [← Finset.sum_div, ha]; rfl

omit [MeasurableSpace E] in
/-- If the defects of the affinities add up to infinity, the ratio tends to zero. -/
theorem scheduled_vanishes (hX : ScheduledData P like y sched X) (h0 : ∀ o z e, 0 ≤ like o z e)
    (hy : ∀ e, ∑ o, like o y e = 1) (z : List ℝ) (hz : ∀ e, ∑ o, like o z e = 1)
    (hinf : ¬Summable fun t => 1 - affinity like y z (sched t)) :
    ∀ᵐ v ∂P, Tendsto (fun t => ∏ r ∈ Finset.range t, like (X r v) z (sched r) / like (X r v) y (sched r)) atTop
      (𝓝 0) := by
  obtain ⟨A, hA⟩ : ∃ A : ℕ → ℝ, ∀ t, A t = affinity like y z (sched t) := ⟨_, fun _ => rfl⟩
  have hA0 : ∀ t, 0 ≤ A t := fun t => by rw [hA]; exact Finset.sum_nonneg fun o _ => Real.sqrt_nonneg _
  have hA1 : ∀ t, A t ≤ 1 := fun t => by
    rw [hA]; exact (C91_affinity like y z _ (fun o x => h0 o x _) (hy _) (hz _)).1
  have hconv := (products_converge (P := P) hX.meas (fun t o => √(like o z (sched t) / like o y (sched t)) / A t)
    (fun t o => div_nonneg (Real.sqrt_nonneg _) (hA0 _)) fun t h => by
      simp only [hX.law, ← mul_assoc]
      rw [← Finset.sum_mul, root_step h0 z (sched t) (A t) (hA t)]
      exact mul_le_of_le_one_left measureReal_nonneg (div_self_le_one _)).2
  have hAz : Tendsto (fun t => ∏ r ∈ Finset.range t, A r) atTop (𝓝 0) := by
    have hsum : Tendsto (fun t => ∑ r ∈ Finset.range t, (1 - A r)) atTop atTop := by
      refine (not_summable_iff_tendsto_nat_atTop_of_nonneg fun t => by linarith [hA1 t]).1 ?_
      simpa only [hA] using hinf
    have hexp : Tendsto (fun t => Real.exp (-∑ r ∈ Finset.range t, (1 - A r))) atTop (𝓝 0) :=
      Real.tendsto_exp_neg_atTop_nhds_zero.comp hsum
    refine squeeze_zero (fun t => Finset.prod_nonneg fun r _ => hA0 r) (fun t => ?_) hexp
    rw [← Finset.sum_neg_distrib, Real.exp_sum]
    refine Finset.prod_le_prod (fun r _ => hA0 r) fun r _ => ?_
    have := Real.add_one_le_exp (-(1 - A r))
    linarith
  filter_upwards [hconv, hX.possible fun o e => h0 o y e] with v ⟨c, hc⟩ hpos
  have hroot : ∀ t, √(∏ r ∈ Finset.range t, like (X r v) z (sched r) / like (X r v) y (sched r)) =
      (∏ r ∈ Finset.range t, √(like (X r v) z (sched r) / like (X r v) y (sched r)) / A r) *
        ∏ r ∈ Finset.range t, A r := by
    intro t
    rw [← Finset.prod_mul_distrib, Real.sqrt_prod _ fun r _ => div_nonneg (h0 _ _ _) (h0 _ _ _)]
    refine Finset.prod_congr rfl fun r _ => ?_
    by_cases hz0 : A r = 0
    · have h2 : √(like (X r v) y (sched r) * like (X r v) z (sched r)) = 0 := by
        rw [hA] at hz0
        exact (Finset.sum_eq_zero_iff_of_nonneg fun o _ => Real.sqrt_nonneg _).1 hz0 _ (Finset.mem_univ _)
      rw [Real.sqrt_eq_zero (mul_nonneg (h0 _ _ _) (h0 _ _ _))] at h2
      rw [(mul_eq_zero.1 h2).resolve_left (hpos r).ne', zero_div]
      simp
    · rw [div_mul_cancel₀ _ hz0]
  have hlim := hc.mul hAz
  rw [mul_zero] at hlim
  have h2 := (hlim.congr fun t => (hroot t).symm).pow 2
  rw [zero_pow two_ne_zero] at h2
  refine h2.congr fun t => ?_
  rw [Real.sq_sqrt]
  exact Finset.prod_nonneg fun r _ => div_nonneg (h0 _ _ _) (h0 _ _ _)

/-- A product of numbers in `(0, 1]` with summable defects stays away from zero. -/
theorem product_bounded_below (A : ℕ → ℝ) (hA0 : ∀ t, 0 < A t) (hA1 : ∀ t, A t ≤ 1)
    (hs : Summable fun t => 1 - A t) : ∃ c > 0, ∀ t, c ≤ ∏ r ∈ Finset.range t, A r := by
  obtain ⟨T, hT⟩ := eventually_atTop.1 (hs.tendsto_atTop_zero.eventually (gt_mem_nhds (by norm_num : (0 : ℝ) < 1 / 2)))
  have hlog : ∀ t, T ≤ t → Real.exp (-(2 * (1 - A t))) ≤ A t := fun t ht => by
    have h1 := hT t ht
    have h2 := hA1 t
    have h3 := Real.one_sub_inv_le_log_of_pos (hA0 t)
    rw [← Real.le_log_iff_exp_le (hA0 t)]
    have h4 : (A t)⁻¹ - 1 ≤ 2 * (1 - A t) := by
      rw [inv_eq_one_div, div_sub_one (hA0 t).ne', div_le_iff₀ (hA0 t)]
      nlinarith
    linarith
  have hsum : ∀ t, ∑ r ∈ Finset.range t, (1 - A r) ≤ ∑' r, (1 - A r) := fun t =>
    hs.sum_le_tsum _ fun r _ => by linarith [hA1 r]
  refine ⟨(∏ r ∈ Finset.range T, A r) * Real.exp (-(2 * ∑' r, (1 - A r))),
    mul_pos (Finset.prod_pos fun r _ => hA0 r) (Real.exp_pos _), fun t => ?_⟩
  have hstep : ∀ t, (∏ r ∈ Finset.range T, A r) * Real.exp (-(2 * ∑ r ∈ Finset.range t, (1 - A r))) ≤
      ∏ r ∈ Finset.range t, A r := by
    intro t
    by_cases ht : t ≤ T
    · have h1 : ∏ r ∈ Finset.range T, A r ≤ ∏ r ∈ Finset.range t, A r := by
        rw [← Finset.prod_range_mul_prod_Ico A ht]
        exact mul_le_of_le_one_right (Finset.prod_nonneg fun r _ => (hA0 r).le)
          (Finset.prod_le_one (fun r _ => (hA0 r).le) fun r _ => hA1 r)
      have h2 : Real.exp (-(2 * ∑ r ∈ Finset.range t, (1 - A r))) ≤ 1 := by
        rw [Real.exp_le_one_iff]
        have : 0 ≤ ∑ r ∈ Finset.range t, (1 - A r) := Finset.sum_nonneg fun r _ => by linarith [hA1 r]
        linarith
      exact (mul_le_of_le_one_right (Finset.prod_nonneg fun r _ => (hA0 r).le) h2).trans h1
    · push Not at ht
      induction t, ht.le using Nat.le_induction with
      | base => exact absurd ht (lt_irrefl _)
      | succ t ht' ih =>
        rw [Finset.sum_range_succ, Finset.prod_range_succ, mul_add, neg_add, Real.exp_add, ← mul_assoc]
        refine mul_le_mul ?_ (hlog t ht') (Real.exp_pos _).le (Finset.prod_nonneg fun r _ => (hA0 r).le)
        rcases ht'.eq_or_lt with h | h
        · subst h
          have h2 : Real.exp (-(2 * ∑ r ∈ Finset.range T, (1 - A r))) ≤ 1 := by
            rw [Real.exp_le_one_iff]
            have : 0 ≤ ∑ r ∈ Finset.range T, (1 - A r) := Finset.sum_nonneg fun r _ => by linarith [hA1 r]
            linarith
          exact mul_le_of_le_one_right (Finset.prod_nonneg fun r _ => (hA0 r).le) h2
        · exact ih h
  refine le_trans (mul_le_mul_of_nonneg_left ?_ (Finset.prod_nonneg fun r _ => (hA0 r).le)) (hstep t)
  rw [Real.exp_le_exp]
  linarith [hsum t]

omit [MeasurableSpace E] in
/-- If the defects of the affinities have a finite sum, the ratio does not tend to zero for certain. -/
theorem scheduled_survives (hX : ScheduledData P like y sched X) (h0 : ∀ o z e, 0 ≤ like o z e)
    (hy : ∀ e, ∑ o, like o y e = 1) (z : List ℝ) (hz : ∀ e, ∑ o, like o z e = 1)
    (hA0 : ∀ t, 0 < affinity like y z (sched t))
    (hs : Summable fun t => 1 - affinity like y z (sched t)) :
    ¬∀ᵐ v ∂P, Tendsto (fun t => ∏ r ∈ Finset.range t, like (X r v) z (sched r) / like (X r v) y (sched r)) atTop
      (𝓝 0) := by
  intro hall
  obtain ⟨A, hA⟩ : ∃ A : ℕ → ℝ, ∀ t, A t = affinity like y z (sched t) := ⟨_, fun _ => rfl⟩
  simp only [← hA] at hA0 hs
  have hA1 : ∀ t, A t ≤ 1 := fun t => by
    rw [hA]; exact (C91_affinity like y z _ (fun o x => h0 o x _) (hy _) (hz _)).1
  obtain ⟨c, hc, hcA⟩ := product_bounded_below A hA0 hA1 hs
  obtain ⟨ρ, hρ⟩ : ∃ ρ : ℕ → Ω → ℝ, ρ = fun t v =>
    ∏ r ∈ Finset.range t, like (X r v) z (sched r) / like (X r v) y (sched r) := ⟨_, rfl⟩
  have hρ0 : ∀ t v, 0 ≤ ρ t v := fun t v => by
    rw [hρ]; exact Finset.prod_nonneg fun r _ => div_nonneg (h0 _ _ _) (h0 _ _ _)
  have hρi : ∀ t, Integrable (ρ t) P := fun t => by
    rw [hρ]
    exact products_int hX.meas (fun t o => like o z (sched t) / like o y (sched t))
      (fun t o => div_nonneg (h0 _ _ _) (h0 _ _ _)) t
  have hρ1 : ∀ t, ∫ v, ρ t v ∂P ≤ 1 := fun t => by
    rw [hρ]; exact (scheduled_ratio hX h0 z hz).1 t
  have hmean : ∀ t, c ≤ ∫ v, √(ρ t v) ∂P := fun t => by
    have h1 := products_mean hX.meas (P := P) (fun t o => √(like o z (sched t) / like o y (sched t)) / A t)
      (fun t o => div_nonneg (Real.sqrt_nonneg _) (hA0 _).le) (fun t h => by
        simp only [hX.law, ← mul_assoc]
        rw [← Finset.sum_mul, root_step h0 z (sched t) (A t) (hA t), div_self (hA0 t).ne', one_mul]) t
    have h2 : ∀ v, √(ρ t v) = (∏ r ∈ Finset.range t, √(like (X r v) z (sched r) / like (X r v) y (sched r)) / A r) *
        ∏ r ∈ Finset.range t, A r := fun v => by
      rw [hρ, ← Finset.prod_mul_distrib]
      simp only
      rw [Real.sqrt_prod _ fun r _ => div_nonneg (h0 _ _ _) (h0 _ _ _)]
      exact Finset.prod_congr rfl fun r _ => (div_mul_cancel₀ _ (hA0 r).ne').symm
    simp only [h2]
    rw [integral_mul_const, h1, one_mul]
    exact hcA t
  -- truncated roots tend to zero in the mean
  have hm : ∀ t, AEStronglyMeasurable (ρ t) P := fun t => (hρi t).aestronglyMeasurable
  obtain ⟨M, hM⟩ : ∃ M : ℝ, M = 2 / c := ⟨_, rfl⟩
  have hM0 : 0 < M := by rw [hM]; positivity
  have htr : Tendsto (fun t => ∫ v, min (√(ρ t v)) M ∂P) atTop (𝓝 (∫ _ : Ω, (0 : ℝ) ∂P)) := by
    refine tendsto_integral_of_dominated_convergence (fun _ => M) (fun t => ?_) (integrable_const _)
      (fun t => ae_of_all _ fun v => ?_) ?_
    · exact ((Real.continuous_sqrt.comp_aestronglyMeasurable (hm t))).inf aestronglyMeasurable_const
    · rw [Real.norm_eq_abs, abs_of_nonneg (le_min (Real.sqrt_nonneg _) hM0.le)]
      exact min_le_right _ _
    · filter_upwards [hall] with v hv
      have h1 : Tendsto (fun t => √(ρ t v)) atTop (𝓝 0) := by
        have := (Real.continuous_sqrt.tendsto 0).comp hv
        rw [Real.sqrt_zero] at this
        rw [hρ]
        exact this
      have := h1.min (tendsto_const_nhds (x := M))
      rwa [min_eq_left hM0.le] at this
  rw [integral_zero] at htr
  have hle : ∀ t, c ≤ ∫ v, min (√(ρ t v)) M ∂P + 1 / M := fun t => by
    refine (hmean t).trans ?_
    have hint : Integrable (fun v => min (√(ρ t v)) M) P := by
      refine Integrable.mono' (integrable_const M)
        ((Real.continuous_sqrt.comp_aestronglyMeasurable (hm t)).inf aestronglyMeasurable_const)
        (ae_of_all _ fun v => ?_)
      rw [Real.norm_eq_abs, abs_of_nonneg (le_min (Real.sqrt_nonneg _) hM0.le)]
      exact min_le_right _ _
    have h1 : ∫ v, √(ρ t v) ∂P ≤ ∫ v, (min (√(ρ t v)) M + ρ t v / M) ∂P := by
      refine integral_mono_of_nonneg (ae_of_all _ fun v => Real.sqrt_nonneg _) (hint.add ((hρi t).div_const M))
        (ae_of_all _ fun v => ?_)
      show √(ρ t v) ≤ min (√(ρ t v)) M + ρ t v / M
      rcases le_total (√(ρ t v)) M with h | h
      · rw [min_eq_left h]
        have := div_nonneg (hρ0 t v) hM0.le
        linarith
      · rw [min_eq_right h]
        have h2 : √(ρ t v) ≤ ρ t v / M := by
          rw [le_div_iff₀ hM0]
          nlinarith [Real.sq_sqrt (hρ0 t v), Real.sqrt_nonneg (ρ t v)]
        linarith
    refine h1.trans ?_
    rw [integral_add hint ((hρi t).div_const M), integral_div]
    have := div_le_div_of_nonneg_right (hρ1 t) hM0.le
    linarith
  have hfin := ge_of_tendsto' (htr.add_const (1 / M)) hle
  rw [hM, zero_add, one_div_div] at hfin
  linarith

end

section

variable [Fintype O] [MeasurableSingletonClass O] {P : Measure Ω} [IsProbabilityMeasure P]
  {sched : ℕ → E} {X : ℕ → Ω → O}
  {n : ℕ} {cfg : SmcConfig ℝ} {env : Env ℝ O E R} {check : Bool} {w : Fin n → ℝ}
  {x : Fin n → List ℝ} {s : Smc ℝ O R}

/-- Data with their experiments. -/
def Spec.withSchedule (sched : ℕ → E) (X : ℕ → Ω → O) (t : ℕ) (v : Ω) : O × E := (X t v, sched t)

theorem scheduled_weight (h : Resting cfg env check w x s) (i : Fin n) (v : Ω)
    (hpos : ∀ t, 0 < env.likelihood (X t v) (x i) (sched t))
    (hok : ∀ t, (feed cfg env check (firstData (withSchedule sched X) t v) s).2 = .ok ()) (t : ℕ) (j : Fin n) :
    (feed cfg env check (firstData (withSchedule sched X) t v) s).1.weights.getD j 0 =
      w j * (∏ r ∈ Finset.range t,
        env.likelihood (X r v) (x j) (sched r) / env.likelihood (X r v) (x i) (sched r)) /
      ∑ k, w k * ∏ r ∈ Finset.range t,
        env.likelihood (X r v) (x k) (sched r) / env.likelihood (X r v) (x i) (sched r) := by
  rw [(h.weight (withSchedule sched X) t v (hok t)).1]
  simp only [List.getD_eq_getElem?_getD, List.getElem?_ofFn, Fin.is_lt, dite_true, Option.getD_some]
  have hL : ∏ r ∈ Finset.range t, env.likelihood (X r v) (x i) (sched r) ≠ 0 :=
    (Finset.prod_pos fun r _ => hpos r).ne'
  simp only [Finset.prod_div_distrib, ← mul_div_assoc]
  rw [← Finset.sum_div, div_div_div_cancel_right₀ hL]
  rfl

theorem scheduled_total (h : Resting cfg env check w x s) (i : Fin n) (v : Ω)
    (hpos : ∀ t, 0 < env.likelihood (X t v) (x i) (sched t)) (t : ℕ) :
    w i ≤ ∑ k, w k * ∏ r ∈ Finset.range t,
        env.likelihood (X r v) (x k) (sched r) / env.likelihood (X r v) (x i) (sched r) := by
  have h1 : ∏ r ∈ Finset.range t,
      env.likelihood (X r v) (x i) (sched r) / env.likelihood (X r v) (x i) (sched r) = 1 :=
    Finset.prod_eq_one fun r _ => div_self (hpos r).ne'
  have := Finset.single_le_sum (f := fun k => w k * ∏ r ∈ Finset.range t,
        env.likelihood (X r v) (x k) (sched r) / env.likelihood (X r v) (x i) (sched r))
    (fun k _ => mul_nonneg (h.nonneg k) (Finset.prod_nonneg fun r _ =>
      div_nonneg (h.good.like_nonneg _ _ _) (h.good.like_nonneg _ _ _))) (Finset.mem_univ i)
  simpa only [h1, mul_one] using this

/-- **C149, refuted.**  Outcomes of scheduled experiments come from particle `i`, which has weight.  If the
defects of the affinities between the laws of particles `i` and `j`, `1 - ∑ √(p q)`, add up to infinity
along the schedule, particle `j` loses its weight with probability one. -/
theorem C149_refuted (h : Resting cfg env check w x s) (i : Fin n) (hwi : 0 < w i)
    (hX : ScheduledData P env.likelihood (x i) sched X) (hone : ∀ k e, ∑ o, env.likelihood o (x k) e = 1)
    (j : Fin n) (hinf : ¬Summable fun t => 1 - affinity env.likelihood (x i) (x j) (sched t)) :
    ∀ᵐ v ∂P, (∀ t, (feed cfg env check (firstData (withSchedule sched X) t v) s).2 = .ok ()) →
      Tendsto (fun t => (feed cfg env check (firstData (withSchedule sched X) t v) s).1.weights.getD j 0)
        atTop (𝓝 0) := by
  have hnn := h.good.like_nonneg
  filter_upwards [scheduled_vanishes hX hnn (hone i) (x j) (hone j) hinf, hX.possible fun o e => hnn o _ e]
    with v hv hpos hok
  have hρ0 : ∀ t, 0 ≤ ∏ r ∈ Finset.range t,
      env.likelihood (X r v) (x j) (sched r) / env.likelihood (X r v) (x i) (sched r) := fun t =>
    Finset.prod_nonneg fun r _ => div_nonneg (hnn _ _ _) (hnn _ _ _)
  have hup := (hv.const_mul (w j)).div_const (w i)
  rw [mul_zero, zero_div] at hup
  refine squeeze_zero (fun t => ?_) (fun t => ?_) hup
  · rw [scheduled_weight h i v hpos hok t j]
    exact div_nonneg (mul_nonneg (h.nonneg j) (hρ0 t)) (hwi.le.trans (scheduled_total h i v hpos t))
  · rw [scheduled_weight h i v hpos hok t j]
    exact div_le_div_of_nonneg_left (mul_nonneg (h.nonneg j) (hρ0 t)) hwi (scheduled_total h i v hpos t)

theorem squares_summable {like : O → List ℝ → E → ℝ} (hnn : ∀ o z e, 0 ≤ like o z e) (y z : List ℝ)
    (hy : ∀ e, ∑ o, like o y e = 1) (hz : ∀ e, ∑ o, like o z e = 1) (sched : ℕ → E) (o : O)
    (hs : Summable fun t => 1 - affinity like y z (sched t)) :
    Summable fun t => (like o y (sched t) - like o z (sched t)) ^ 2 := by
  refine Summable.of_nonneg_of_le (fun t => sq_nonneg _) (fun t => ?_) (hs.mul_left 8)
  have hle1 : ∀ u : List ℝ, ∑ o, like o u (sched t) = 1 → like o u (sched t) ≤ 1 := fun u hu => by
    rw [← hu]
    exact Finset.single_le_sum (f := fun o => like o u (sched t)) (fun o _ => hnn _ _ _)
      (Finset.mem_univ o)
  have key : 2 * affinity like y z (sched t) = 2 - ∑ o,
      (√(like o y (sched t)) - √(like o z (sched t))) ^ 2 := by
    have : ∀ o, (√(like o y (sched t)) - √(like o z (sched t))) ^ 2 =
        like o y (sched t) + like o z (sched t) -
          2 * √(like o y (sched t) * like o z (sched t)) := by
      intro o
      rw [Real.sqrt_mul (hnn o _ _), sub_sq, Real.sq_sqrt (hnn o _ _), Real.sq_sqrt (hnn o _ _)]
      ring
    simp_rw [this]
    rw [Finset.sum_sub_distrib, Finset.sum_add_distrib, hy, hz, ← Finset.mul_sum]
    unfold Spec.affinity
    ring
  have h1 := Finset.single_le_sum (f := fun o =>
    (√(like o y (sched t)) - √(like o z (sched t))) ^ 2)
      (fun o _ => sq_nonneg _) (Finset.mem_univ o)
  have ha := Real.sq_sqrt (hnn o y (sched t))
  have hb := Real.sq_sqrt (hnn o z (sched t))
  have ha0 := Real.sqrt_nonneg (like o y (sched t))
  have hb0 := Real.sqrt_nonneg (like o z (sched t))
  have ha1 : √(like o y (sched t)) ≤ 1 := Real.sqrt_le_one.2 (hle1 y (hy _))
  have hb1 : √(like o z (sched t)) ≤ 1 := Real.sqrt_le_one.2 (hle1 z (hz _))
  obtain ⟨a, haa⟩ : ∃ a, a = √(like o y (sched t)) := ⟨_, rfl⟩
  obtain ⟨b, hbb⟩ : ∃ b, b = √(like o z (sched t)) := ⟨_, rfl⟩
  have h2 : (like o y (sched t) - like o z (sched t)) ^ 2 =
      (a - b) ^ 2 * (a + b) ^ 2 := by
    rw [← ha, ← hb, ← haa, ← hbb]; ring
  have h3 : (a + b) ^ 2 ≤ 4 := by
    rw [← haa] at ha0 ha1
    rw [← hbb] at hb0 hb1
    nlinarith
  have h4 : (a - b) ^ 2 * (a + b) ^ 2 ≤ (a - b) ^ 2 * 4 := mul_le_mul_of_nonneg_left h3 (sq_nonneg _)
  rw [h2]
  simp only [← haa, ← hbb] at h1
  linarith

/-- **C149, differences.**  It is enough that the squared differences of the probabilities of one outcome
add up to infinity. -/
theorem C149_differences (h : Resting cfg env check w x s) (i : Fin n) (hwi : 0 < w i)
    (hX : ScheduledData P env.likelihood (x i) sched X) (hone : ∀ k e, ∑ o, env.likelihood o (x k) e = 1)
    (j : Fin n) (o : O)
    (hinf : ¬Summable fun t => (env.likelihood o (x i) (sched t) - env.likelihood o (x j) (sched t)) ^ 2) :
    ∀ᵐ v ∂P, (∀ t, (feed cfg env check (firstData (withSchedule sched X) t v) s).2 = .ok ()) →
      Tendsto (fun t => (feed cfg env check (firstData (withSchedule sched X) t v) s).1.weights.getD j 0)
        atTop (𝓝 0) := by
  exact C149_refuted h i hwi hX hone j fun hs => hinf
    (squares_summable h.good.like_nonneg _ _ (hone i) (hone j) sched o hs)

/-- **C149, learnt.**  If this holds of every other particle, the weight of the truth tends to one and every
estimated mean to its true value. -/
theorem C149_learnt (h : Resting cfg env check w x s) (i : Fin n) (hwi : 0 < w i)
    (hX : ScheduledData P env.likelihood (x i) sched X) (hone : ∀ k e, ∑ o, env.likelihood o (x k) e = 1)
    (hinf : ∀ j, j ≠ i → ¬Summable fun t => 1 - affinity env.likelihood (x i) (x j) (sched t)) :
    ∀ᵐ v ∂P, (∀ t, (feed cfg env check (firstData (withSchedule sched X) t v) s).2 = .ok ()) →
      Tendsto (fun t => (feed cfg env check (firstData (withSchedule sched X) t v) s).1.weights.getD i 0)
        atTop (𝓝 1) ∧
      ∀ f : List ℝ → ℝ, Tendsto (fun t => cloudMean f
        (feed cfg env check (firstData (withSchedule sched X) t v) s).1) atTop (𝓝 (f (x i))) := by
  have hall : ∀ᵐ v ∂P, ∀ j, j ≠ i →
      (∀ t, (feed cfg env check (firstData (withSchedule sched X) t v) s).2 = .ok ()) →
      Tendsto (fun t => (feed cfg env check (firstData (withSchedule sched X) t v) s).1.weights.getD j 0)
        atTop (𝓝 0) := by
    rw [ae_all_iff]
    intro j
    by_cases hj : j = i
    · exact ae_of_all _ fun v hne => absurd hj hne
    · filter_upwards [C149_refuted h i hwi hX hone j (hinf j hj)] with v hv _ using hv
  filter_upwards [hall, hX.possible fun o e => h.good.like_nonneg o _ e] with v hall hpos hok
  obtain ⟨W, hW⟩ : ∃ W : ℕ → Fin n → ℝ, ∀ t j, W t j =
      (feed cfg env check (firstData (withSchedule sched X) t v) s).1.weights.getD j 0 := ⟨_, fun _ _ => rfl⟩
  have hlist : ∀ t, (feed cfg env check (firstData (withSchedule sched X) t v) s).1.weights =
      List.ofFn (W t) := by
    intro t
    have e : W t = fun j => w j * (∏ r ∈ Finset.range t, env.likelihood (X r v) (x j) (sched r)) /
        ∑ k, w k * ∏ r ∈ Finset.range t, env.likelihood (X r v) (x k) (sched r) := by
      funext j
      rw [hW, (h.weight (withSchedule sched X) t v (hok t)).1]
      simp [withSchedule]
    rw [(h.weight (withSchedule sched X) t v (hok t)).1, e]
    rfl
  have hsum : ∀ t, ∑ j, W t j = 1 := by
    intro t
    simp only [hW, scheduled_weight h i v hpos hok t]
    rw [← Finset.sum_div, div_self (hwi.trans_le (scheduled_total h i v hpos t)).ne']
  have hz : ∀ j, j ≠ i → Tendsto (fun t => W t j) atTop (𝓝 0) := fun j hj => by
    simp only [hW]; exact hall j hj hok
  have hi : Tendsto (fun t => W t i) atTop (𝓝 1) := by
    have h1 : ∀ t, W t i = 1 - ∑ j ∈ Finset.univ.erase i, W t j := fun t => by
      rw [← hsum t, ← Finset.add_sum_erase _ _ (Finset.mem_univ i)]; ring
    simp only [h1]
    have h2 : Tendsto (fun t => ∑ j ∈ Finset.univ.erase i, W t j) atTop
        (𝓝 (∑ j ∈ Finset.univ.erase i, (0 : ℝ))) :=
      tendsto_finsetSum _ fun j hj => hz j (Finset.ne_of_mem_erase hj)
    simpa using h2.const_sub 1
  have hlim : ∀ j, Tendsto (fun t => W t j) atTop (𝓝 (if j = i then 1 else 0)) := fun j => by
    by_cases hj : j = i
    · subst hj; simpa using hi
    · simpa [hj] using hz j hj
  refine ⟨by simpa only [hW] using hi, fun f => ?_⟩
  have hcm : ∀ t, cloudMean f (feed cfg env check (firstData (withSchedule sched X) t v) s).1 =
      ∑ j, W t j * f (x j) := fun t => by
    rw [cloudMean, hlist t, (h.weight (withSchedule sched X) t v (hok t)).2, zip_ofFn, List.map_ofFn, List.sum_ofFn]
    rfl
  simp only [hcm]
  have h3 : Tendsto (fun t => ∑ j, W t j * f (x j)) atTop (𝓝 (∑ j, (if j = i then 1 else 0) * f (x j))) :=
    tendsto_finsetSum _ fun j _ => (hlim j).mul_const _
  simpa using h3

/-- **C149, survives.**  If the defects have a finite sum and no affinity is zero, particle `j` keeps weight
in the limit with positive probability. -/
theorem C149_survives (h : Resting cfg env check w x s) (i : Fin n) (hwi : 0 < w i)
    (hX : ScheduledData P env.likelihood (x i) sched X) (hone : ∀ k e, ∑ o, env.likelihood o (x k) e = 1)
    (hok : ∀ᵐ v ∂P, ∀ t, (feed cfg env check (firstData (withSchedule sched X) t v) s).2 = .ok ())
    (j : Fin n) (hwj : 0 < w j) (hA : ∀ t, 0 < affinity env.likelihood (x i) (x j) (sched t))
    (hsum : Summable fun t => 1 - affinity env.likelihood (x i) (x j) (sched t)) :
    (∀ᵐ v ∂P, ∃ W, Tendsto (fun t =>
        (feed cfg env check (firstData (withSchedule sched X) t v) s).1.weights.getD j 0) atTop (𝓝 W)) ∧
    ¬∀ᵐ v ∂P, Tendsto (fun t =>
        (feed cfg env check (firstData (withSchedule sched X) t v) s).1.weights.getD j 0) atTop (𝓝 0) := by
  have hnn := h.good.like_nonneg
  have hall : ∀ᵐ v ∂P, ∀ k, ∃ c, Tendsto (fun t => ∏ r ∈ Finset.range t,
      env.likelihood (X r v) (x k) (sched r) / env.likelihood (X r v) (x i) (sched r)) atTop (𝓝 c) := by
    rw [ae_all_iff]
    exact fun k => (scheduled_ratio hX hnn (x k) (hone k)).2
  have hpossible := hX.possible fun o e => hnn o (x i) e
  constructor
  · filter_upwards [hok, hpossible, hall] with v hok hpos hall
    choose c hc using hall
    have hs : Tendsto (fun t => ∑ k, w k * ∏ r ∈ Finset.range t,
        env.likelihood (X r v) (x k) (sched r) / env.likelihood (X r v) (x i) (sched r)) atTop
          (𝓝 (∑ k, w k * c k)) := tendsto_finsetSum _ fun k _ => (hc k).const_mul _
    have hpos' : 0 < ∑ k, w k * c k :=
      hwi.trans_le (ge_of_tendsto' hs fun t => scheduled_total h i v hpos t)
    refine ⟨_, (((hc j).const_mul (w j)).div hs hpos'.ne').congr fun t => ?_⟩
    exact (scheduled_weight h i v hpos hok t j).symm
  · intro hzero
    refine scheduled_survives hX hnn (hone i) (x j) (hone j) hA hsum ?_
    filter_upwards [hzero, hok, hpossible, hall] with v hz hok hpos hall
    choose c hc using hall
    have hs : Tendsto (fun t => ∑ k, w k * ∏ r ∈ Finset.range t,
        env.likelihood (X r v) (x k) (sched r) / env.likelihood (X r v) (x i) (sched r)) atTop
          (𝓝 (∑ k, w k * c k)) := tendsto_finsetSum _ fun k _ => (hc k).const_mul _
    have h2 := (hz.mul hs).div_const (w j)
    rw [zero_mul, zero_div] at h2
    refine h2.congr fun t => ?_
    have h5 := (hwi.trans_le (scheduled_total h i v hpos t)).ne'
    rw [scheduled_weight h i v hpos hok t j, div_mul_cancel₀ _ h5, mul_div_cancel_left₀ _ hwj.ne']

/-- **C149.**  So a particle with weight loses it with probability one if and only if the defects add up to
infinity along the schedule. -/
theorem C149_refuted_iff (h : Resting cfg env check w x s) (i : Fin n) (hwi : 0 < w i)
    (hX : ScheduledData P env.likelihood (x i) sched X) (hone : ∀ k e, ∑ o, env.likelihood o (x k) e = 1)
    (hok : ∀ᵐ v ∂P, ∀ t, (feed cfg env check (firstData (withSchedule sched X) t v) s).2 = .ok ())
    (j : Fin n) (hwj : 0 < w j) (hA : ∀ t, 0 < affinity env.likelihood (x i) (x j) (sched t)) :
    (∀ᵐ v ∂P, Tendsto (fun t => (feed cfg env check (firstData (withSchedule sched X) t v) s).1.weights.getD j 0)
      atTop (𝓝 0)) ↔ ¬Summable fun t => 1 - affinity env.likelihood (x i) (x j) (sched t) := by
  constructor
  · exact fun hzero hsum => (C149_survives h i hwi hX hone hok j hwj hA hsum).2 hzero
  · intro hinf
    filter_upwards [C149_refuted h i hwi hX hone j hinf, hok] with v hv hok using hv hok

end

/-! ### Exponentially sparse times -/

section

variable {V F : Type} [DecidableEq F] {n : ℕ} {cfg : SmcConfig ℝ} {env : Env ℝ O E R} {check : Bool} {w : Fin n → ℝ}
  {x : Fin n → List ℝ} {s : Smc ℝ O R}

/-- **C149, aliases.**  Frequencies that differ, or add up, to a multiple of `2π / (A bᴷ)` have the same
precession probabilities at all times `A bᵗ` from `t = K` on, if the base `b` is a whole number. -/
theorem C149_sparse_aliases (hs : ExpSparse ℝ V F) (hf : hs.tField = none) (ofTime : ℝ → V) (junk : F → V)
    (b : ℕ) (hb : hs.base = b) (ω ω' : ℝ) (K : ℕ) (m : ℤ)
    (halias : hs.scale * hs.base ^ K * (ω - ω') = 2 * Real.pi * m ∨
      hs.scale * hs.base ^ K * (ω + ω') = 2 * Real.pi * m) (t : ℕ) (ht : K ≤ t) (T : ℝ)
    (hT : expSparseCall hs ofTime t junk = .ok (.scalar T)) :
    precessionPr0 ω T = precessionPr0 ω' T := by
  have hT' : T = hs.scale * hs.base ^ t := by
    rw [expSparseCall, hf] at hT
    simp only [Except.ok.injEq, SparseOut.scalar.injEq] at hT
    exact hT.symm
  obtain ⟨d, rfl⟩ := Nat.exists_eq_add_of_le ht
  have hcos : Real.cos (ω * T) = Real.cos (ω' * T) := by
    rw [hT', pow_add, hb] at *
    rcases halias with h | h
    · have : ω * (hs.scale * ((b : ℝ) ^ K * (b : ℝ) ^ d)) =
          ω' * (hs.scale * ((b : ℝ) ^ K * (b : ℝ) ^ d)) + (m * (b : ℤ) ^ d : ℤ) * (2 * Real.pi) := by
        push_cast
        linear_combination (b : ℝ) ^ d * h
      rw [this, Real.cos_add_int_mul_two_pi]
    · have : ω * (hs.scale * ((b : ℝ) ^ K * (b : ℝ) ^ d)) =
          -(ω' * (hs.scale * ((b : ℝ) ^ K * (b : ℝ) ^ d))) + (m * (b : ℤ) ^ d : ℤ) * (2 * Real.pi) := by
        push_cast
        linear_combination (b : ℝ) ^ d * h
      rw [this, Real.cos_add_int_mul_two_pi, Real.cos_neg]
  have hsq : ∀ ω, precessionPr0 ω T = (1 + Real.cos (ω * T)) / 2 := fun ω => by
    have : precessionPr0 ω T = Real.cos (ω * T / 2) ^ 2 := by
      simp only [precessionPr0, inversionPr0, sub_zero]
      congr 2
      ring
    rw [this, Real.cos_sq]
    ring_nf
  rw [hsq, hsq, hcos]

/-- **C149, frozen.**  Particles that predict the same from experiment `K` on keep the ratio of their weights
from then on, whatever the outcomes. -/
theorem C149_frozen (h : Resting cfg env check w x s) (i j : Fin n) (K : ℕ) (sched : ℕ → E)
    (hsame : ∀ t, K ≤ t → ∀ o, env.likelihood o (x i) (sched t) = env.likelihood o (x j) (sched t))
    (X : ℕ → Ω → O) (v : Ω)
    (hok : ∀ t, (feed cfg env check (firstData (withSchedule sched X) t v) s).2 = .ok ()) (t : ℕ) (ht : K ≤ t) :
    (feed cfg env check (firstData (withSchedule sched X) t v) s).1.weights.getD j 0 *
        (feed cfg env check (firstData (withSchedule sched X) K v) s).1.weights.getD i 0 =
      (feed cfg env check (firstData (withSchedule sched X) t v) s).1.weights.getD i 0 *
        (feed cfg env check (firstData (withSchedule sched X) K v) s).1.weights.getD j 0 := by
  rw [(h.weight (withSchedule sched X) t v (hok t)).1, (h.weight (withSchedule sched X) K v (hok K)).1]
  simp only [List.getD_eq_getElem?_getD, List.getElem?_ofFn, Fin.is_lt, dite_true, Option.getD_some, withSchedule]
  have hsplit : ∀ k : Fin n, ∏ r ∈ Finset.range t, env.likelihood (X r v) (x k) (sched r) =
      (∏ r ∈ Finset.range K, env.likelihood (X r v) (x k) (sched r)) *
        ∏ r ∈ Finset.Ico K t, env.likelihood (X r v) (x k) (sched r) := fun k =>
    (Finset.prod_range_mul_prod_Ico _ ht).symm
  have heq : ∏ r ∈ Finset.Ico K t, env.likelihood (X r v) (x i) (sched r) =
      ∏ r ∈ Finset.Ico K t, env.likelihood (X r v) (x j) (sched r) :=
    Finset.prod_congr rfl fun r hr => hsame r (Finset.mem_Ico.1 hr).1 _
  rw [hsplit i, hsplit j, heq]
  ring

end

/-! ### A case: times `2π 2ᵗ` -/

noncomputable def waveChance (x : List ℝ) (T : ℝ) : unitInterval :=
  ⟨precessionPr0 (x.getD 0 0) T, sq_nonneg _, Real.cos_sq_le_one _⟩

/-- The frequencies 0, 1/3 and 1. -/
noncomputable def waveLocs (i : Fin 3) : List ℝ := [![0, 1 / 3, 1] i]

noncomputable def waveTimes (t : ℕ) : ℝ := 2 * Real.pi * 2 ^ t

theorem wave_chance (ω : ℝ) (t : ℕ) : precessionPr0 ω (waveTimes t) = (1 + Real.cos (ω * (2 * Real.pi * 2 ^ t))) / 2 := by
  have : precessionPr0 ω (waveTimes t) = Real.cos (ω * (2 * Real.pi * 2 ^ t) / 2) ^ 2 := by
    simp only [precessionPr0, inversionPr0, sub_zero, waveTimes]
    congr 2
    ring
  rw [this, Real.cos_sq]
  ring_nf

theorem wave_third (t : ℕ) : Real.cos (1 / 3 * (2 * Real.pi * 2 ^ t)) = -1 / 2 := by
  induction t with
  | zero =>
    rw [show 1 / 3 * (2 * Real.pi * 2 ^ 0) = Real.pi - Real.pi / 3 by ring, Real.cos_pi_sub, Real.cos_pi_div_three]
    norm_num
  | succ t ih =>
    rw [show 1 / 3 * (2 * Real.pi * 2 ^ (t + 1)) = 2 * (1 / 3 * (2 * Real.pi * 2 ^ t)) by ring, Real.cos_two_mul, ih]
    norm_num

theorem wave_one (t : ℕ) : Real.cos (1 * (2 * Real.pi * 2 ^ t)) = 1 := by
  have : 1 * (2 * Real.pi * 2 ^ t) = 0 + ((2 ^ t : ℤ) : ℝ) * (2 * Real.pi) := by push_cast; ring
  rw [this, Real.cos_add_int_mul_two_pi, Real.cos_zero]

theorem wave_data : ScheduledData (Measure.infinitePi fun _ : ℕ => (volume : Measure unitInterval))
    (softEnv waveChance (List.ofFn waveLocs)).likelihood (waveLocs 0) waveTimes
    (fun t v => softOut waveChance (waveLocs 0) (waveTimes t) (v t)) := by
  refine C149_independent (fun t => (softOut_meas _ _ _).comp (measurable_pi_apply t)) ?_ fun t o => ?_
  · exact iIndepFun_infinitePi (P := fun _ : ℕ => (volume : Measure unitInterval))
      (X := fun t u => softOut waveChance (waveLocs 0) (waveTimes t) u) fun t => softOut_meas _ _ _
  · have h1 := (measurePreserving_eval_infinitePi (fun _ : ℕ => (volume : Measure unitInterval)) t).measureReal_preimage
      ((softOut_meas waveChance (waveLocs 0) (waveTimes t)) (measurableSet_singleton o)).nullMeasurableSet
    rw [← softOut_law waveChance (List.ofFn waveLocs) (waveLocs 0) (waveTimes t) o]
    exact h1

/-- Case for C149: if the frequency is 0, the frequency 1/3 is refuted. -/
example : ∀ᵐ v ∂(Measure.infinitePi fun _ : ℕ => (volume : Measure unitInterval)),
    Tendsto (fun t => (feed phaseCfg (softEnv waveChance (List.ofFn waveLocs)) true
        (firstData (withSchedule waveTimes fun t v => softOut waveChance (waveLocs 0) (waveTimes t) (v t)) t v)
        (construct phaseCfg (softEnv waveChance (List.ofFn waveLocs)) 3 false ()).1).1.weights.getD 1 0)
      atTop (𝓝 0) := by
  have h := C149_differences (soft_resting true waveChance waveLocs) 0 (by norm_num) wave_data
    (fun k e => soft_sum _ _ _ e) 1 true (fun hs => by
      have h1 := hs.tendsto_atTop_zero
      have h2 : ∀ t, ((softEnv waveChance (List.ofFn waveLocs)).likelihood true (waveLocs 0) (waveTimes t) -
          (softEnv waveChance (List.ofFn waveLocs)).likelihood true (waveLocs 1) (waveTimes t)) ^ 2 = 9 / 64 := by
        intro t
        simp only [softEnv, waveChance, waveLocs, if_true, List.getD_cons_zero, wave_chance]
        simp only [Matrix.cons_val_zero, Matrix.cons_val_one, zero_mul, Real.cos_zero, wave_third]
        norm_num
      simp only [h2] at h1
      exact absurd (tendsto_nhds_unique h1 tendsto_const_nhds) (by norm_num))
  filter_upwards [h] with v hv using hv fun t => soft_accepted _ _ _ _

/-- Case for C149: the frequency 1 is not refuted, however long the run. -/
example : ¬∀ᵐ v ∂(Measure.infinitePi fun _ : ℕ => (volume : Measure unitInterval)),
    Tendsto (fun t => (feed phaseCfg (softEnv waveChance (List.ofFn waveLocs)) true
        (firstData (withSchedule waveTimes fun t v => softOut waveChance (waveLocs 0) (waveTimes t) (v t)) t v)
        (construct phaseCfg (softEnv waveChance (List.ofFn waveLocs)) 3 false ()).1).1.weights.getD 2 0)
      atTop (𝓝 0) := by
  have hA : ∀ t, affinity (softEnv waveChance (List.ofFn waveLocs)).likelihood (waveLocs 0) (waveLocs 2)
      (waveTimes t) = 1 := by
    intro t
    have hsame : ∀ o, (softEnv waveChance (List.ofFn waveLocs)).likelihood o (waveLocs 2) (waveTimes t) =
        (softEnv waveChance (List.ofFn waveLocs)).likelihood o (waveLocs 0) (waveTimes t) := by
      intro o
      have e : waveChance (waveLocs 2) (waveTimes t) = waveChance (waveLocs 0) (waveTimes t) := by
        apply Subtype.ext
        simp only [waveChance, waveLocs, List.getD_cons_zero, wave_chance]
        rw [show (![0, 1 / 3, 1] : Fin 3 → ℝ) 2 = 1 from rfl, show (![0, 1 / 3, 1] : Fin 3 → ℝ) 0 = 0 from rfl,
          wave_one, zero_mul, Real.cos_zero]
      simp only [softEnv, e]
    simp only [affinity, hsame]
    rw [← soft_sum waveChance (List.ofFn waveLocs) (waveLocs 0) (waveTimes t)]
    exact Finset.sum_congr rfl fun o _ =>
      Real.sqrt_mul_self (le_trans (by norm_num) (soft_bound waveChance _ o _ _))
  exact (C149_survives (soft_resting true waveChance waveLocs) 0 (by norm_num) wave_data
    (fun k e => soft_sum _ _ _ e) (ae_of_all _ fun v t => soft_accepted _ _ _ _) 2 (by norm_num)
    (fun t => by rw [hA]; exact one_pos) (by simp only [hA, sub_self]; exact summable_zero)).2

/-- These are times of an `ExpSparseHeuristic`, and the theorem about aliases applies to 0 and 1. -/
example (t : ℕ) : precessionPr0 0 (waveTimes t) = precessionPr0 1 (waveTimes t) :=
  C149_sparse_aliases (V := ℝ) (F := Unit) ⟨[], 2 * Real.pi, 2, none, none⟩ rfl id (fun _ => 0) 2 (by norm_num) 0 1 0 (-1)
    (Or.inl (by norm_num)) t (Nat.zero_le t) _ rfl

end QInfer
