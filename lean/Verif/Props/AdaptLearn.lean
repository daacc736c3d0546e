import Verif.Lemmas.AdaptRate
import Verif.Props.ContLearn

/-!
# C146: experiments chosen on the way learn parameters from a continuum

C143 is about independent data.  Here every experiment may be chosen from all data before, at random or
not; only the outcome must come from the model.  The posterior concentrates on the parameters that predict
what the true ones do in the experiments that keep a positive share.
-/

namespace QInfer

open Spec Filter Topology MeasureTheory ProbabilityTheory Function

variable {Ω Ω' S O E R U : Type*} [MeasurableSpace Ω] [MeasurableSpace Ω'] [MeasurableSpace S]
  [MeasurableSpace O] [MeasurableSpace E] [MeasurableSpace U]

/-- Given the data before and the experiment, an outcome has the probability that the parameters `y` give
it.  The choice of the experiment is free. -/
structure Spec.AdaptiveData (P : Measure Ω) (like : O → List ℝ → E → ℝ) (y : List ℝ) (D : ℕ → Ω → O × E) :
    Prop where
  meas : ∀ t, Measurable (D t)
  law : ∀ t (h : Fin t → O × E) o e, P.real {v | (∀ i : Fin t, D i v = h i) ∧ D t v = (o, e)} =
    like o y e * P.real {v | (∀ i : Fin t, D i v = h i) ∧ (D t v).2 = e}

open Classical in
/-- How many of the first `t` experiments were `e`. -/
noncomputable def Spec.timesUsed (D : ℕ → Ω → O × E) (t : ℕ) (v : Ω) (e : E) : ℝ :=
  ((Finset.range t).filter fun i => (D i v).2 = e).card

/-- The experiments `e` keep at least the shares `q e`. -/
def Spec.KeepsShares (D : ℕ → Ω → O × E) (v : Ω) (q : E → ℝ) : Prop :=
  (∀ e, 0 ≤ q e) ∧ ∀ᶠ t : ℕ in atTop, ∀ e, q e * t ≤ timesUsed D t v e

section

variable [Fintype O] [Fintype E] [MeasurableSingletonClass O] [MeasurableSingletonClass E]
  {P : Measure Ω} [IsProbabilityMeasure P] {D : ℕ → Ω → O × E}

omit [Fintype O] [Fintype E] in
theorem hist_meas (hD : ∀ t, Measurable (D t)) (n : ℕ) (h : Fin n → O × E) :
    MeasurableSet {v | ∀ i : Fin n, D i v = h i} := by
  have : {v | ∀ i : Fin n, D i v = h i} = ⋂ i : Fin n, D i ⁻¹' {h i} := by ext v; simp
  rw [this]
  exact MeasurableSet.iInter fun i => hD i (measurableSet_singleton _)

omit [IsProbabilityMeasure P] in
/-- What has mean zero given the data before is uncorrelated with every function of them. -/
theorem hist_uncorrelated (hD : ∀ t, Measurable (D t)) (n : ℕ) (F : (Fin n → O × E) → ℝ) (Y : Ω → ℝ)
    (hY : Integrable Y P) (h0 : ∀ h : Fin n → O × E, ∫ v in {v | ∀ i : Fin n, D i v = h i}, Y v ∂P = 0) :
    ∫ v, F (fun i => D i v) * Y v ∂P = 0 := by
  classical
  have e : ∀ v, F (fun i => D i v) * Y v =
      ∑ h : Fin n → O × E, F h * {v | ∀ i : Fin n, D i v = h i}.indicator Y v := by
    intro v
    rw [Finset.sum_eq_single (fun i : Fin n => D i v)]
    · rw [Set.indicator_of_mem]
      exact fun i => rfl
    · intro h _ hne
      rw [Set.indicator_of_notMem, mul_zero]
      exact fun hh => hne (funext fun i => (hh i).symm)
    · simp
  simp only [e]
  rw [integral_finsetSum _ fun h _ => (hY.indicator (hist_meas hD n h)).const_mul _]
  refine Finset.sum_eq_zero fun h _ => ?_
  rw [integral_const_mul, integral_indicator (hist_meas hD n h), h0, mul_zero]

variable {like : O → List ℝ → E → ℝ} {y : List ℝ}

theorem setInt_ind (A B : Set Ω) (hB : MeasurableSet B) :
    ∫ v in A, B.indicator (fun _ => (1 : ℝ)) v ∂P = P.real (A ∩ B) := by
  rw [integral_indicator_const _ hB, smul_eq_mul, mul_one, measureReal_restrict_apply hB, Set.inter_comm]

/-- The frequencies of the outcomes of every experiment tend to their probabilities. -/
theorem Spec.AdaptiveData.frequencies [DecidableEq O] [DecidableEq E] (hD : AdaptiveData P like y D)
    (hl0 : ∀ o e, 0 ≤ like o y e) (hl1 : ∀ o e, like o y e ≤ 1) :
    ∀ᵐ v ∂P, ∀ d : O × E, Tendsto (fun t : ℕ => (∑ i ∈ Finset.range t,
      ((if D i v = d then (1 : ℝ) else 0) - like d.1 y d.2 * if (D i v).2 = d.2 then (1 : ℝ) else 0)) / t)
        atTop (𝓝 0) := by
  rw [ae_all_iff]
  rintro ⟨o, e⟩
  have hs1 : ∀ n, MeasurableSet {v | D n v = (o, e)} := fun n => hD.meas n (measurableSet_singleton (o, e))
  have hs2 : ∀ n, MeasurableSet {v | (D n v).2 = e} := fun n =>
    (measurable_snd.comp (hD.meas n)) (measurableSet_singleton e)
  obtain ⟨φ, hφ⟩ : ∃ φ : O × E → ℝ, φ = fun d => (if d = (o, e) then (1 : ℝ) else 0) -
      like o y e * if d.2 = e then (1 : ℝ) else 0 := ⟨_, rfl⟩
  have hYe : ∀ n, (fun v => φ (D n v)) = fun v => {v | D n v = (o, e)}.indicator (fun _ => (1 : ℝ)) v -
      like o y e * {v | (D n v).2 = e}.indicator (fun _ => (1 : ℝ)) v := fun n => by
    funext v
    rw [hφ]
    simp only [Set.indicator_apply, Set.mem_ofPred_eq]
  have hYm : ∀ n, Measurable fun v => φ (D n v) := fun n => by
    rw [hYe]
    exact (measurable_const.indicator (hs1 n)).sub ((measurable_const.indicator (hs2 n)).const_mul _)
  have hY1 : ∀ n v, |φ (D n v)| ≤ 1 := fun n v => by
    have h0 := hl0 o e; have h1 := hl1 o e
    rw [hφ, abs_le]
    by_cases ha : D n v = (o, e)
    · simp only [ha, if_true]; constructor <;> linarith
    · by_cases hb : (D n v).2 = e
      · simp only [ha, hb, if_true, if_false]; constructor <;> linarith
      · simp only [ha, hb, if_false]; constructor <;> linarith
  have := average_uncorrelated (P := P) (Y := fun n v => φ (D n v)) hYm hY1 (fun i n hin =>
    hist_uncorrelated hD.meas n (fun h => φ (h ⟨i, hin⟩)) (fun v => φ (D n v))
      (bounded_int (hYm n) 1 (hY1 n)) (fun h => by
        have hi : ∀ B : Set Ω, MeasurableSet B →
            IntegrableOn (fun v => B.indicator (fun _ => (1 : ℝ)) v) {v | ∀ i : Fin n, D i v = h i} P :=
          fun B hB => ((integrable_const (1 : ℝ)).indicator hB).integrableOn
        rw [hYe, integral_sub (hi _ (hs1 n)) ((hi _ (hs2 n)).const_mul _), integral_const_mul,
          setInt_ind _ _ (hs1 n), setInt_ind _ _ (hs2 n)]
        have h2 := hD.law n h o e
        simp only [Set.ofPred_and] at h2
        rw [h2, sub_self]))
  filter_upwards [this] with v hv
  rw [hφ] at hv
  exact hv

/-- No datum has probability zero. -/
theorem Spec.AdaptiveData.possible (hD : AdaptiveData P like y D) (hl0 : ∀ o e, 0 ≤ like o y e) :
    ∀ᵐ v ∂P, ∀ i, 0 < like (D i v).1 y (D i v).2 := by
  rw [ae_all_iff]
  intro n
  have key : ∀ (d : O × E) (h : Fin n → O × E), like d.1 y d.2 = 0 →
      ∀ᵐ v ∂P, ¬((∀ i : Fin n, D i v = h i) ∧ D n v = d) := by
    rintro ⟨o, e⟩ h h0
    have h1 := hD.law n h o e
    rw [h0, zero_mul, measureReal_eq_zero_iff] at h1
    exact ae_iff.2 (by simpa using h1)
  have key' : ∀ᵐ v ∂P, ∀ (d : O × E) (h : Fin n → O × E), like d.1 y d.2 = 0 →
      ¬((∀ i : Fin n, D i v = h i) ∧ D n v = d) := by
    rw [ae_all_iff]
    intro d
    rw [ae_all_iff]
    intro h
    by_cases h0 : like d.1 y d.2 = 0
    · filter_upwards [key d h h0] with v hv _ using hv
    · exact ae_of_all _ fun v h1 => absurd h1 h0
  filter_upwards [key'] with v hv
  refine lt_of_le_of_ne (hl0 _ _) fun h0 => ?_
  exact hv (D n v) (fun i => D i v) h0.symm ⟨fun i => rfl, rfl⟩

/-- **C146, shares.**  If the experiment `e` is chosen with at least the probability `p e` whatever the
data before, it keeps every smaller share with probability one. -/
theorem C146_explore (hD : ∀ t, Measurable (D t)) (p : E → ℝ)
    (hp : ∀ t (h : Fin t → O × E) e, p e * P.real {v | ∀ i : Fin t, D i v = h i} ≤
      P.real {v | (∀ i : Fin t, D i v = h i) ∧ (D t v).2 = e})
    (q : E → ℝ) (hq : ∀ e, 0 ≤ q e) (hqp : ∀ e, q e = 0 ∨ q e < p e) :
    ∀ᵐ v ∂P, KeepsShares D v q := by
  classical
  have hone : ∀ e, 0 < q e → ∀ᵐ v ∂P, ∀ᶠ t : ℕ in atTop, q e * t ≤ timesUsed D t v e := by
    intro e hqe
    have hpe : q e < p e := (hqp e).resolve_left hqe.ne'
    obtain ⟨c, hc⟩ : ∃ c : ∀ n, (Fin n → O × E) → ℝ, c = fun n h =>
      P.real {v | (∀ i : Fin n, D i v = h i) ∧ (D n v).2 = e} / P.real {v | ∀ i : Fin n, D i v = h i} :=
      ⟨_, rfl⟩
    have hle : ∀ n (h : Fin n → O × E), P.real {v | (∀ i : Fin n, D i v = h i) ∧ (D n v).2 = e} ≤
        P.real {v | ∀ i : Fin n, D i v = h i} := fun n h =>
      measureReal_mono fun v hv => hv.1
    have hc0 : ∀ n h, 0 ≤ c n h := fun n h => by rw [hc]; exact div_nonneg measureReal_nonneg measureReal_nonneg
    have hc1 : ∀ n h, c n h ≤ 1 := fun n h => by
      rw [hc]; exact div_le_one_of_le₀ (hle n h) measureReal_nonneg
    have hcm : ∀ n h, c n h * P.real {v | ∀ i : Fin n, D i v = h i} =
        P.real {v | (∀ i : Fin n, D i v = h i) ∧ (D n v).2 = e} := fun n h => by
      rw [hc]
      by_cases h0 : P.real {v | ∀ i : Fin n, D i v = h i} = 0
      · have h1 := hle n h
        rw [h0] at h1
        rw [h0, mul_zero]
        exact (le_antisymm h1 measureReal_nonneg).symm
      · exact div_mul_cancel₀ _ h0
    have hs2 : ∀ n, MeasurableSet {v | (D n v).2 = e} := fun n =>
      (measurable_snd.comp (hD n)) (measurableSet_singleton e)
    have hhist : ∀ n, Measurable fun v => c n fun i => D i v := fun n =>
      (measurable_of_finite (c n)).comp (measurable_pi_lambda _ fun i => hD i)
    obtain ⟨Y, hY⟩ : ∃ Y : ℕ → Ω → ℝ, Y = fun n v =>
      {v | (D n v).2 = e}.indicator (fun _ => (1 : ℝ)) v - c n fun i => D i v := ⟨_, rfl⟩
    have hYm : ∀ n, Measurable (Y n) := fun n => by
      rw [hY]; exact (measurable_const.indicator (hs2 n)).sub (hhist n)
    have hY1 : ∀ n v, |Y n v| ≤ 1 := fun n v => by
      have h0 := hc0 n fun i => D i v; have h1 := hc1 n fun i => D i v
      rw [hY, abs_le]
      simp only [Set.indicator_apply]
      split_ifs <;> constructor <;> linarith
    have hav := average_uncorrelated (P := P) (Y := Y) hYm hY1 (fun i n hin => by
      have := hist_uncorrelated (P := P) hD n
        (fun h => (if (h ⟨i, hin⟩).2 = e then (1 : ℝ) else 0) - c i fun j => h ⟨j, j.2.trans hin⟩) (Y n)
        (bounded_int (hYm n) 1 (hY1 n)) (fun h => by
          have hm := hist_meas hD n h
          have hi : IntegrableOn (fun v => {v | (D n v).2 = e}.indicator (fun _ => (1 : ℝ)) v)
            {v | ∀ i : Fin n, D i v = h i} P := ((integrable_const (1 : ℝ)).indicator (hs2 n)).integrableOn
          have hi2 : IntegrableOn (fun v => c n fun i => D i v) {v | ∀ i : Fin n, D i v = h i} P :=
            (bounded_int (hhist n) 1 fun v => by
              rw [abs_of_nonneg (hc0 _ _)]; exact hc1 _ _).integrableOn
          rw [hY, integral_sub hi hi2, setInt_ind _ _ (hs2 n)]
          have h3 : ∫ v in {v | ∀ i : Fin n, D i v = h i}, (c n fun i => D i v) ∂P =
              ∫ v in {v | ∀ i : Fin n, D i v = h i}, c n h ∂P :=
            setIntegral_congr_fun hm fun v hv => by
              show c n (fun i => D i v) = c n h
              congr 1
              exact funext fun i => hv i
          rw [h3, setIntegral_const, smul_eq_mul, mul_comm, hcm, Set.ofPred_and, sub_self])
      rw [← this]
      refine integral_congr_ae (ae_of_all _ fun v => ?_)
      simp only [hY, Set.indicator_apply, Set.mem_ofPred_eq])
    have hlow : ∀ᵐ v ∂P, ∀ n, p e ≤ c n fun i => D i v := by
      rw [ae_all_iff]
      intro n
      have : ∀ᵐ v ∂P, ∀ h : Fin n → O × E, P.real {v | ∀ i : Fin n, D i v = h i} = 0 →
          ¬∀ i : Fin n, D i v = h i := by
        rw [ae_all_iff]
        intro h
        by_cases h0 : P.real {v | ∀ i : Fin n, D i v = h i} = 0
        · rw [measureReal_eq_zero_iff] at h0
          have h1 : ∀ᵐ v ∂P, ¬∀ i : Fin n, D i v = h i := ae_iff.2 (by simpa using h0)
          filter_upwards [h1] with v hv _ using hv
        · exact ae_of_all _ fun v h1 => absurd h1 h0
      filter_upwards [this] with v hv
      have h0 : P.real {w | ∀ i : Fin n, D i w = D i v} ≠ 0 := fun h0 =>
        hv (fun i => D i v) h0 fun i => rfl
      have h1 := hp n (fun i => D i v) e
      rw [hc]
      exact (le_div_iff₀ (lt_of_le_of_ne measureReal_nonneg (Ne.symm h0))).2 h1
    filter_upwards [hav, hlow] with v hv hl
    filter_upwards [hv.eventually_const_lt (show q e - p e < 0 by linarith), eventually_ge_atTop 1] with t ht ht1
    have htp : (0 : ℝ) < t := by exact_mod_cast ht1
    rw [lt_div_iff₀ htp] at ht
    have hcount : timesUsed D t v e = ∑ i ∈ Finset.range t,
        {v | (D i v).2 = e}.indicator (fun _ => (1 : ℝ)) v := by
      simp only [timesUsed, Set.indicator_apply, Set.mem_ofPred_eq]
      rw [Finset.sum_boole]
    have hsum : ∑ i ∈ Finset.range t, Y i v = timesUsed D t v e -
        ∑ i ∈ Finset.range t, c i fun j => D j v := by
      rw [hcount, ← Finset.sum_sub_distrib]
      exact Finset.sum_congr rfl fun i _ => by rw [hY]
    have hcs : p e * t ≤ ∑ i ∈ Finset.range t, c i fun j => D j v := by
      calc p e * t = ∑ i ∈ Finset.range t, p e := by rw [Finset.sum_const, Finset.card_range, nsmul_eq_mul, mul_comm]
        _ ≤ _ := Finset.sum_le_sum fun i _ => hl i
    rw [hsum] at ht
    nlinarith
  have hall : ∀ᵐ v ∂P, ∀ e, 0 < q e → ∀ᶠ t : ℕ in atTop, q e * t ≤ timesUsed D t v e := by
    rw [ae_all_iff]
    intro e
    by_cases h0 : 0 < q e
    · filter_upwards [hone e h0] with v hv _ using hv
    · exact ae_of_all _ fun v h1 => absurd h1 h0
  filter_upwards [hall] with v hv
  refine ⟨hq, ?_⟩
  rw [eventually_all]
  intro e
  rcases (hq e).eq_or_lt with h0 | h0
  · refine Eventually.of_forall fun t => ?_
    rw [← h0, zero_mul]
    exact Nat.cast_nonneg _
  · exact hv e h0

end

section

variable [Fintype O] [Fintype E] [TopologicalSpace S] {like : O → List ℝ → E → ℝ} {par : S → List ℝ}
  [OpensMeasurableSpace S] {π : Measure S} [IsProbabilityMeasure π]
  [CompactSpace S] [MeasurableSingletonClass O] [MeasurableSingletonClass E]
  {P : Measure Ω} [IsProbabilityMeasure P] {D : ℕ → Ω → O × E} {θ : S}

/-- **C146.**  The outcomes come from the parameters at `θ`, the experiments are chosen in any way.  With
probability one, whatever shares `q` the experiments keep, the posterior probability of the parameters
outside an open set `U` falls exponentially, if `U` contains all those that predict the same as the true
ones in the experiments with positive share. -/
theorem C146_posterior (hm : Smooth like par) (hD : AdaptiveData P like (par θ) D)
    (hsupp : ∀ V ∈ 𝓝 θ, π V ≠ 0) :
    ∀ᵐ v ∂P, ∀ q, KeepsShares D v q → ∀ U : Set S, IsOpen U →
      (∀ x, PredictSame like q (par x) (par θ) → x ∈ U) →
      ∃ c > 0, ∀ᶠ t : ℕ in atTop, 0 < ∫ x, probData like (firstData D t v) (par x) ∂π ∧
        posteriorOf π par like (firstData D t v) Uᶜ ≤ Real.exp (-(c * t)) := by
  classical
  filter_upwards [hD.frequencies (fun o e => hm.nonneg o θ e) (fun o e => hm.le_one o θ e),
    hD.possible (fun o e => hm.nonneg o θ e)] with v hv hz q hq U hU hin
  obtain ⟨h, hh, δ, hδ, hδ1, hgap⟩ := gap_shares q
    (fun d => like d.1 (par θ) d.2) (fun x d => like d.1 (par x) d.2) Uᶜ hU.isClosed_compl.isCompact
    hq.1 (fun d => hm.nonneg _ _ _) (fun x d => hm.nonneg _ _ _) (fun e => hm.sum θ e)
    (fun x e => hm.sum x e) (fun d => hm.cont d.1 d.2) (by
      intro x hx
      by_contra hno
      push Not at hno
      exact hx (hin x fun o e he => hno (o, e) he))
  have hfall := likelihood_falls_shares q (fun d => like d.1 (par θ) d.2)
    (fun x d => like d.1 (par x) d.2) (fun i => D i v) Uᶜ h δ hh hδ hδ1 (fun x d => hm.nonneg _ _ _)
    (fun x d => hm.le_one _ _ _) hgap hz (by
      filter_upwards [hq.2] with t ht e
      have h1 := ht e
      rw [timesUsed] at h1
      rw [Finset.sum_boole]
      convert h1) hv
  exact ⟨h / 4, by positivity, posterior_falls hm hsupp U hU h hh D v hz hfall⟩

/-- **C146, means.**  With probability one the posterior mean of every continuous function of the
parameters that has the same value wherever the predictions in the experiments with positive share are the
true ones, tends to its true value. -/
theorem C146_mean (hm : Smooth like par) (hD : AdaptiveData P like (par θ) D)
    (hsupp : ∀ V ∈ 𝓝 θ, π V ≠ 0) :
    ∀ᵐ v ∂P, ∀ q, KeepsShares D v q → ∀ f : List ℝ → ℝ, (Continuous fun x => f (par x)) →
      (∀ x, PredictSame like q (par x) (par θ) → f (par x) = f (par θ)) →
      Tendsto (fun t => trueMean π (fun x _ => par x) like (firstData D t v) f) atTop (𝓝 (f (par θ))) := by
  filter_upwards [C146_posterior (π := π) hm hD hsupp] with v hv q hq f hf hval
  refine mean_of_posterior hm f hf D v fun k => ?_
  refine hv q hq {x | |f (par x) - f (par θ)| < 1 / ((k : ℝ) + 1)}
    (isOpen_lt (hf.sub continuous_const).abs continuous_const) fun x hx => ?_
  show |f (par x) - f (par θ)| < _
  rw [hval x hx, sub_self, abs_zero]; positivity

/-- **C146, the updater.**  If only the true values of the first `d` parameters predict what they do in the
experiments with positive share, and no datum is less probable than machine precision given the data
before, then with probability one, for every accuracy and enough data, an updater with enough particles
drawn from the prior has accepted all data, `est_mean` is that close to the true parameters, and
`est_covariance_mtx` that close to zero. -/
theorem C146_updater (hm : Smooth like par) (hD : AdaptiveData P like (par θ) D)
    (hsupp : ∀ V ∈ 𝓝 θ, π V ≠ 0) (d : ℕ) (hpar : ∀ k < d, Continuous fun x => (par x).getD k 0)
    {P' : Measure Ω'} [IsProbabilityMeasure P'] {X : ℕ → Ω' → S} {env : ℕ → Ω' → Env ℝ O E R}
    {s : ℕ → Ω' → Smc ℝ O R}
    (hS : ∀ ds, Sampled P' π X (fun x _ => par x) like ds env s) (cfg : SmcConfig ℝ) (check : Bool)
    (hc : check = false ∨ cfg.resampleThresh ≤ 0)
    (hp : cfg.policy = "error") (ht : eps ≤ cfg.zeroThresh) (ht1 : cfg.zeroThresh < 1) :
    ∀ᵐ v ∂P, ∀ q, KeepsShares D v q →
      (∀ x, PredictSame like q (par x) (par θ) → ∀ k < d, (par x).getD k 0 = (par θ).getD k 0) →
      (∀ t, eps * (∫ x, probData like (firstData D t v) (par x) ∂π) <
        ∫ x, probData like (firstData D (t + 1) v) (par x) ∂π) →
      ∀ ε > 0, ∀ᶠ t in atTop, ∀ᵐ v' ∂P', ∀ᶠ n in atTop,
        (feed cfg (env n v') check (firstData D t v) (s n v')).2 = .ok () ∧
        ∀ k < d, |(smcMean d (feed cfg (env n v') check (firstData D t v) (s n v')).1.weights
            (feed cfg (env n v') check (firstData D t v) (s n v')).1.locs).getD k 0 -
              (par θ).getD k 0| < ε ∧
          ∀ l < d, |((smcCov d (feed cfg (env n v') check (firstData D t v) (s n v')).1.weights
            (feed cfg (env n v') check (firstData D t v) (s n v')).1.locs).getD k []).getD l 0| < ε := by
  filter_upwards [C146_mean (π := π) hm hD hsupp] with v hv q hq hval hpred ε hε
  exact updater_of_means hm d hpar hS cfg check hc hp ht ht1 D v
    (fun k => hv q hq _ (hpar k k.2) fun x hx => hval x hx k k.2)
    (fun k l => hv q hq (fun y => y.getD k 0 * y.getD l 0) ((hpar k k.2).mul (hpar l l.2))
      fun x hx => by rw [hval x hx k k.2, hval x hx l l.2]) hpred ε hε

end

/-! ### Choosing experiments from the data -/

/-- The data of a run in which the next datum is a function of the data before and a fresh variate. -/
def Spec.play (f : List (O × E) → U → O × E) : ℕ → (ℕ → U) → List (O × E)
  | 0, _ => []
  | t + 1, v => play f t v ++ [f (play f t v) (v t)]

/-- The datum number `t` of such a run. -/
def Spec.played (f : List (O × E) → U → O × E) (t : ℕ) (v : ℕ → U) : O × E := f (play f t v) (v t)

omit [MeasurableSpace O] [MeasurableSpace E] [MeasurableSpace U] in
theorem play_eq (f : List (O × E) → U → O × E) (t : ℕ) (v : ℕ → U) :
    play f t v = List.ofFn fun i : Fin t => played f i v := by
  induction t with
  | zero => simp [play]
  | succ t ih =>
    rw [play, List.ofFn_succ', List.concat_eq_append]
    simp only [Fin.val_castSucc, Fin.val_last]
    rw [← ih]
    rfl

omit [MeasurableSpace O] [MeasurableSpace E] [MeasurableSpace U] in
theorem hist_iff (f : List (O × E) → U → O × E) (t : ℕ) (v : ℕ → U) (h : Fin t → O × E) :
    (∀ i : Fin t, played f i v = h i) ↔ play f t v = List.ofFn h := by
  rw [play_eq, List.ofFn_inj]
  exact ⟨fun hh => funext hh, fun hh i => congrFun hh i⟩

section

variable [Fintype O] [Fintype E] [MeasurableSingletonClass O] [MeasurableSingletonClass E]
  {ν : Measure U} [IsProbabilityMeasure ν] {f : List (O × E) → U → O × E}

omit [Fintype O] [Fintype E] in
theorem play_meas (hf : ∀ h, Measurable (f h)) (t : ℕ) (h : List (O × E)) :
    MeasurableSet[⨆ i ∈ Set.Iio t, MeasurableSpace.comap (fun v : ℕ → U => v i) inferInstance]
      {v | play f t v = h} := by
  induction t generalizing h with
  | zero =>
    by_cases h0 : [] = h
    · simp only [play, h0, Set.ofPred_true]; exact @MeasurableSet.univ _ (_)
    · simp only [play, h0, Set.ofPred_false]; exact @MeasurableSet.empty _ (_)
  | succ t ih =>
    rcases List.eq_nil_or_concat h with rfl | ⟨h', d, rfl⟩
    · have : {v | play f (t + 1) v = []} = ∅ := by ext v; simp [play]
      rw [this]; exact @MeasurableSet.empty _ (_)
    · have : {v | play f (t + 1) v = h' ++ [d]} =
          {v | play f t v = h'} ∩ (fun v : ℕ → U => v t) ⁻¹' (f h' ⁻¹' {d}) := by
        ext v
        simp only [play, Set.mem_inter_iff, Set.mem_ofPred_eq, Set.mem_preimage, Set.mem_singleton_iff]
        constructor
        · intro hh
          have := List.append_inj' hh rfl
          refine ⟨this.1, ?_⟩
          have h2 := this.2
          rw [this.1] at h2
          simpa using h2
        · rintro ⟨h1, h2⟩
          rw [h1, h2]
      rw [List.concat_eq_append, this]
      refine @MeasurableSet.inter _ (_) _ _ ?_ ?_
      · have hle : (⨆ i ∈ Set.Iio t, MeasurableSpace.comap (fun v : ℕ → U => v i) inferInstance) ≤
            ⨆ i ∈ Set.Iio (t + 1), MeasurableSpace.comap (fun v : ℕ → U => v i) inferInstance :=
          biSup_mono fun i hi => lt_trans hi (Nat.lt_succ_self t)
        exact hle _ (ih h')
      · have hle : MeasurableSpace.comap (fun v : ℕ → U => v t) inferInstance ≤
            ⨆ i ∈ Set.Iio (t + 1), MeasurableSpace.comap (fun v : ℕ → U => v i) inferInstance :=
          le_biSup (fun i => MeasurableSpace.comap (fun v : ℕ → U => v i) inferInstance)
            (Nat.lt_succ_self t)
        exact hle _ ⟨_, hf h' (measurableSet_singleton d), rfl⟩

omit [Fintype O] [Fintype E] in
theorem play_indep (hf : ∀ h, Measurable (f h)) (t : ℕ) (h : List (O × E)) (A : Set U) (hA : MeasurableSet A) :
    (Measure.infinitePi fun _ : ℕ => ν).real {v | play f t v = h ∧ v t ∈ A} =
      (Measure.infinitePi fun _ : ℕ => ν).real {v | play f t v = h} * ν.real A := by
  have hi : iIndepFun (fun (i : ℕ) (v : ℕ → U) => v i) (Measure.infinitePi fun _ : ℕ => ν) :=
    iIndepFun_infinitePi (P := fun _ : ℕ => ν) (X := fun _ x => x) (fun _ => measurable_id)
  have hle : ∀ i : ℕ, MeasurableSpace.comap (fun v : ℕ → U => v i) inferInstance ≤
      (inferInstance : MeasurableSpace (ℕ → U)) := fun i => (measurable_pi_apply i).comap_le
  have hind := indep_iSup_of_disjoint hle hi (S := Set.Iio t) (T := {t}) (by simp)
  have hmt : MeasurableSet[⨆ i ∈ ({t} : Set ℕ), MeasurableSpace.comap (fun v : ℕ → U => v i) inferInstance]
      ((fun v : ℕ → U => v t) ⁻¹' A) := by
    have hle2 : MeasurableSpace.comap (fun v : ℕ → U => v t) inferInstance ≤
        ⨆ i ∈ ({t} : Set ℕ), MeasurableSpace.comap (fun v : ℕ → U => v i) inferInstance :=
      le_biSup (fun i => MeasurableSpace.comap (fun v : ℕ → U => v i) inferInstance) rfl
    exact hle2 _ ⟨_, hA, rfl⟩
  have := (Indep_iff _ _ _).1 hind _ _ (play_meas hf t h) hmt
  have hmap : (Measure.infinitePi fun _ : ℕ => ν) ((fun v : ℕ → U => v t) ⁻¹' A) = ν A := by
    rw [← Measure.map_apply (measurable_pi_apply t) hA, Measure.infinitePi_map_eval]
  rw [hmap] at this
  rw [measureReal_def, measureReal_def, measureReal_def, ← ENNReal.toReal_mul, ← this]
  rfl

/-- **C146, runs.**  Choose the next experiment from the data before and a fresh variate, in any way, and
let the outcome be drawn from the model: this is adaptive data, whatever the rule. -/
theorem C146_rules (hf : ∀ h, Measurable (f h)) (like : O → List ℝ → E → ℝ) (y : List ℝ)
    (hl : ∀ h o e, ν.real {u | f h u = (o, e)} = like o y e * ν.real {u | (f h u).2 = e}) :
    AdaptiveData (Measure.infinitePi fun _ : ℕ => ν) like y (played f) where
  meas t := by
    refine measurable_to_countable' fun d => ?_
    have : played f t ⁻¹' {d} =
        ⋃ h : Fin t → O × E, {v | play f t v = List.ofFn h} ∩ (fun v => v t) ⁻¹' (f (List.ofFn h) ⁻¹' {d}) := by
      ext v
      simp only [Set.mem_preimage, Set.mem_singleton_iff, Set.mem_iUnion, Set.mem_inter_iff, Set.mem_ofPred_eq]
      constructor
      · intro hv
        refine ⟨fun i => played f i v, play_eq f t v, ?_⟩
        rw [← play_eq]; exact hv
      · rintro ⟨h, h1, h2⟩
        rw [played, h1]; exact h2
    rw [this]
    refine MeasurableSet.iUnion fun h => MeasurableSet.inter ?_
      (measurable_pi_apply t (hf _ (measurableSet_singleton d)))
    have hle : (⨆ i ∈ Set.Iio t, MeasurableSpace.comap (fun v : ℕ → U => v i) inferInstance) ≤
        (inferInstance : MeasurableSpace (ℕ → U)) :=
      iSup₂_le fun i _ => (measurable_pi_apply i).comap_le
    exact hle _ (play_meas hf t _)
  law t h o e := by
    have h1 : {v | (∀ i : Fin t, played f i v = h i) ∧ played f t v = (o, e)} =
        {v | play f t v = List.ofFn h ∧ v t ∈ {u | f (List.ofFn h) u = (o, e)}} := by
      ext v
      simp only [Set.mem_ofPred_eq, hist_iff]
      refine and_congr_right fun hh => ?_
      rw [played, hh]
    have h2 : {v | (∀ i : Fin t, played f i v = h i) ∧ (played f t v).2 = e} =
        {v | play f t v = List.ofFn h ∧ v t ∈ {u | (f (List.ofFn h) u).2 = e}} := by
      ext v
      simp only [Set.mem_ofPred_eq, hist_iff]
      refine and_congr_right fun hh => ?_
      rw [played, hh]
    rw [h1, h2, play_indep hf t (List.ofFn h) {u | f (List.ofFn h) u = (o, e)}
        (hf _ (measurableSet_singleton (o, e))),
      play_indep hf t (List.ofFn h) {u | (f (List.ofFn h) u).2 = e}
        ((measurable_snd.comp (hf _)) (measurableSet_singleton e)), hl]
    ring

/-- **C146, exploring runs.**  A rule that chooses the experiment `e` with at least the probability `p e`
whatever the data before, keeps every smaller share. -/
theorem C146_explore_rules (hf : ∀ h, Measurable (f h)) (like : O → List ℝ → E → ℝ) (y : List ℝ)
    (hl : ∀ h o e, ν.real {u | f h u = (o, e)} = like o y e * ν.real {u | (f h u).2 = e})
    (p : E → ℝ) (hp : ∀ h e, p e ≤ ν.real {u | (f h u).2 = e})
    (q : E → ℝ) (hq : ∀ e, 0 ≤ q e) (hqp : ∀ e, q e = 0 ∨ q e < p e) :
    ∀ᵐ v ∂(Measure.infinitePi fun _ : ℕ => ν), KeepsShares (played f) v q := by
  refine C146_explore (C146_rules hf like y hl).meas p (fun t h e => ?_) q hq hqp
  have h1 : {v | ∀ i : Fin t, played f i v = h i} = {v | play f t v = List.ofFn h} := by
    ext v
    simp only [Set.mem_ofPred_eq, hist_iff]
  have h2 : {v | (∀ i : Fin t, played f i v = h i) ∧ (played f t v).2 = e} =
      {v | play f t v = List.ofFn h ∧ v t ∈ {u | (f (List.ofFn h) u).2 = e}} := by
    ext v
    simp only [Set.mem_ofPred_eq, hist_iff]
    refine and_congr_right fun hh => ?_
    rw [played, hh]
  rw [h1, h2, play_indep hf t (List.ofFn h) {u | (f (List.ofFn h) u).2 = e}
    ((measurable_snd.comp (hf _)) (measurableSet_singleton e)), mul_comm]
  exact mul_le_mul_of_nonneg_left (hp _ e) measureReal_nonneg

end

/-! ### Precession -/

section

variable [Fintype E] [MeasurableSingletonClass E] {P : Measure Ω} [IsProbabilityMeasure P]
  {D : ℕ → Ω → Fin 2 × E}

/-- **C146, precession.**  However the durations are chosen, a frequency between 0 and `W` is learnt
whenever some duration of at most `π/W` keeps a positive share. -/
theorem C146_precession (W : ℝ) (time : E → ℝ) (ω : Set.Icc 0 W) {π : Measure (Set.Icc 0 W)}
    [IsProbabilityMeasure π] (hsupp : ∀ V ∈ 𝓝 ω, π V ≠ 0)
    (hD : AdaptiveData P (oneParam fun w e => precessionPr0 w (time e)) [ω.1] D) :
    ∀ᵐ v ∂P, ∀ e₀, 0 < time e₀ → time e₀ * W ≤ Real.pi → ∀ q₀ > 0,
      (∀ᶠ t : ℕ in atTop, q₀ * t ≤ timesUsed D t v e₀) → ∀ ε > 0,
      ∃ c > 0, ∀ᶠ t : ℕ in atTop,
        posteriorOf π (fun x => [x.1]) (oneParam fun w e => precessionPr0 w (time e)) (firstData D t v)
          {x | ε ≤ |x.1 - ω.1|} ≤ Real.exp (-(c * t)) := by
  classical
  have hm : Smooth (oneParam fun w e => precessionPr0 w (time e)) fun x : Set.Icc 0 W => [x.1] :=
    oneParam_smooth _ _
      (fun e => by
        have : Continuous fun w : ℝ => precessionPr0 w (time e) := by
          unfold precessionPr0 inversionPr0; fun_prop
        exact this.continuousOn)
      (fun x _ e => sq_nonneg _)
      (fun x _ e => Real.cos_sq_le_one _)
  filter_upwards [C146_posterior (π := π) (θ := ω) hm hD hsupp] with v hv e₀ ht htW q₀ hq₀ hsh ε hε
  have hset : {x : Set.Icc 0 W | |x.1 - ω.1| < ε}ᶜ = {x | ε ≤ |x.1 - ω.1|} := by
    ext x; simp
  obtain ⟨c, hc, h⟩ := hv (fun e => if e = e₀ then q₀ else 0)
    ⟨fun e => by dsimp only; split_ifs; exacts [hq₀.le, le_rfl], by
      filter_upwards [hsh] with t ht e
      by_cases he : e = e₀
      · rw [if_pos he, he]; exact ht
      · rw [if_neg he, zero_mul]; exact Nat.cast_nonneg _⟩
    {x | |x.1 - ω.1| < ε}
    (isOpen_lt (continuous_subtype_val.sub continuous_const).abs continuous_const) (fun x hx => by
      have h1 := oneParam_alike (fun w e => precessionPr0 w (time e)) _ x.1 ω.1 hx e₀
        (by rw [if_pos rfl]; exact hq₀)
      have h2 : x.1 = ω.1 := by
        by_contra hne
        exact (toldApart_iff _ _).1 (C139_short_times x.1 ω.1 W (time e₀) x.2 ω.2 ht htW hne) h1
      show |x.1 - ω.1| < ε
      rw [h2, sub_self, abs_zero]; exact hε)
  rw [hset] at h
  exact ⟨c, hc, by filter_upwards [h] with t ht using ht.2⟩

end

/-! ### A case: every other duration is short, the others come from any rule -/

/-- Two durations, a quarter of a period and twelve and a half periods. -/
noncomputable def twoTimes (e : Bool) : ℝ := if e then Real.pi / 2 else 25 * Real.pi

/-- Short duration at even steps, at odd steps what `pick` says; the outcome is 0 if the variate is below
its probability for the frequency 1. -/
noncomputable def twoRule (pick : List (Fin 2 × Bool) → Bool) (h : List (Fin 2 × Bool)) (u : unitInterval) :
    Fin 2 × Bool :=
  (if u.1 < precessionPr0 1 (twoTimes (if h.length % 2 = 0 then true else pick h)) then 0 else 1,
    if h.length % 2 = 0 then true else pick h)

theorem volume_below (a : ℝ) (h0 : 0 ≤ a) (h1 : a ≤ 1) :
    (volume : Measure unitInterval).real {u | u.1 < a} = a := by
  have : {u : unitInterval | u.1 < a} = Set.Iio ⟨a, h0, h1⟩ := by ext u; rfl
  rw [this, measureReal_def, unitInterval.volume_Iio, ENNReal.toReal_ofReal h0]

theorem twoRule_meas (pick : List (Fin 2 × Bool) → Bool) (h : List (Fin 2 × Bool)) :
    Measurable (twoRule pick h) := by
  refine Measurable.prodMk ?_ measurable_const
  exact Measurable.ite (measurableSet_lt measurable_subtype_coe measurable_const) measurable_const
    measurable_const

theorem twoRule_law (pick : List (Fin 2 × Bool) → Bool) (h : List (Fin 2 × Bool)) (o : Fin 2) (e : Bool) :
    (volume : Measure unitInterval).real {u | twoRule pick h u = (o, e)} =
      oneParam (fun w e => precessionPr0 w (twoTimes e)) o [1] e *
        (volume : Measure unitInterval).real {u | (twoRule pick h u).2 = e} := by
  obtain ⟨b, hb⟩ : ∃ b, b = if h.length % 2 = 0 then true else pick h := ⟨_, rfl⟩
  have h0 : 0 ≤ precessionPr0 1 (twoTimes b) := sq_nonneg _
  have h1 : precessionPr0 1 (twoTimes b) ≤ 1 := Real.cos_sq_le_one _
  have hv := volume_below _ h0 h1
  simp only [twoRule, ← hb, Prod.mk.injEq]
  by_cases hbe : b = e
  · subst hbe
    have hc : (volume : Measure unitInterval).real {u | ¬u.1 < precessionPr0 1 (twoTimes b)} =
        1 - precessionPr0 1 (twoTimes b) := by
      have := probReal_compl_eq_one_sub (μ := (volume : Measure unitInterval))
        (s := {u | u.1 < precessionPr0 1 (twoTimes b)})
        (measurableSet_lt measurable_subtype_coe measurable_const)
      rw [hv] at this
      exact this
    fin_cases o
    · simpa [oneParam, twoOutcome] using hv
    · simpa [oneParam, twoOutcome] using hc
  · simp [hbe]

theorem twoRule_share (pick : List (Fin 2 × Bool) → Bool) (v : ℕ → unitInterval) (t : ℕ) :
    (1 / 2 : ℝ) * t ≤ timesUsed (played (twoRule pick)) t v true := by
  classical
  have hsub : (Finset.range ((t + 1) / 2)).image (fun k => 2 * k) ⊆
      (Finset.range t).filter fun i => (played (twoRule pick) i v).2 = true := by
    intro i hi
    obtain ⟨k, hk, rfl⟩ := Finset.mem_image.1 hi
    rw [Finset.mem_range] at hk
    refine Finset.mem_filter.2 ⟨Finset.mem_range.2 (by omega), ?_⟩
    have hl : (play (twoRule pick) (2 * k) v).length = 2 * k := by rw [play_eq]; simp
    simp [played, twoRule, hl]
  have hcard := Finset.card_le_card hsub
  rw [Finset.card_image_of_injective _ (fun a b (hab : 2 * a = 2 * b) => by omega), Finset.card_range] at hcard
  have h2 : t ≤ 2 * ((t + 1) / 2) := by omega
  have h3 : (t : ℝ) ≤ 2 * (((t + 1) / 2 : ℕ) : ℝ) := by exact_mod_cast h2
  have h4 : (((t + 1) / 2 : ℕ) : ℝ) ≤ timesUsed (played (twoRule pick)) t v true := by
    rw [timesUsed]
    refine Nat.cast_le.2 (hcard.trans (le_of_eq ?_))
    congr
  linarith

/-- Case for C146: the frequency 1 is learnt, whatever the rule for every other duration. -/
example (pick : List (Fin 2 × Bool) → Bool) (ε : ℝ) (hε : 0 < ε) :
    ∀ᵐ v ∂(Measure.infinitePi fun _ : ℕ => (volume : Measure unitInterval)), ∃ c > 0, ∀ᶠ t : ℕ in atTop,
      posteriorOf (volume : Measure unitInterval) (fun x => [x.1])
        (oneParam fun w e => precessionPr0 w (twoTimes e)) (firstData (played (twoRule pick)) t v)
          {x | ε ≤ |x.1 - 1|} ≤ Real.exp (-(c * t)) := by
  have h := C146_precession 1 twoTimes (1 : unitInterval) (arc_support _)
    (C146_rules (twoRule_meas pick) (oneParam fun w e => precessionPr0 w (twoTimes e)) [1] (twoRule_law pick))
  filter_upwards [h] with v hv
  refine hv true (by simp [twoTimes]; positivity) ?_ (1 / 2) (by norm_num)
    (Eventually.of_forall fun t => twoRule_share pick v t) ε hε
  simp only [twoTimes, if_true]
  linarith [Real.pi_pos]

/-- Outcomes of the phase of C143 from variates. -/
noncomputable def arcRule (_ : List (Bool × Unit)) (u : unitInterval) : Bool × Unit :=
  (decide (u.1 < arcLike true (arcPar 1) ()), ())

theorem arcRule_data :
    AdaptiveData (Measure.infinitePi fun _ : ℕ => (volume : Measure unitInterval)) arcLike (arcPar 1)
      (played arcRule) := by
  have h0 : 0 ≤ arcLike true (arcPar 1) () := arc_smooth.nonneg _ _ _
  have h1 : arcLike true (arcPar 1) () ≤ 1 := arc_smooth.le_one _ _ _
  have hm : MeasurableSet {u : unitInterval | u.1 < arcLike true (arcPar 1) ()} :=
    measurableSet_lt measurable_subtype_coe measurable_const
  have hv := volume_below _ h0 h1
  have hc := probReal_compl_eq_one_sub (μ := (volume : Measure unitInterval)) hm
  rw [hv] at hc
  have hs : arcLike false (arcPar 1) () = 1 - arcLike true (arcPar 1) () := by
    have := arc_smooth.sum 1 ()
    simp only [Fintype.univ_bool, Finset.mem_singleton, Bool.true_eq_false, not_false_eq_true,
      Finset.sum_insert, Finset.sum_singleton] at this
    linarith
  refine C146_rules (fun h => ?_) arcLike (arcPar 1) (fun h o e => ?_)
  · refine Measurable.prodMk ?_ measurable_const
    refine measurable_to_bool ?_
    simpa [Set.preimage] using hm
  · have e1 : {u | (arcRule h u).2 = e} = Set.univ := by ext u; simp
    rw [e1, probReal_univ, mul_one]
    cases o
    · rw [hs, ← hc]
      congr 1
      ext u
      simp [arcRule]
    · rw [← hv]
      congr 1
      ext u
      simp [arcRule]

/-- Case for C146 with an updater: the phase at the end of an arc. -/
example : ∀ᵐ v ∂(Measure.infinitePi fun _ : ℕ => (volume : Measure unitInterval)), ∀ ε > 0, ∀ᶠ t in atTop,
    ∀ᵐ v' ∂(Measure.infinitePi fun _ : ℕ => (volume : Measure unitInterval)), ∀ᶠ n in atTop,
      |(smcMean 1 (feed phaseCfg (restEnv (List.ofFn fun i : Fin n => arcPar (v' i))) false
            (firstData (played arcRule) t v)
            (construct phaseCfg (restEnv (List.ofFn fun i : Fin n => arcPar (v' i))) n false ()).1).1.weights
          (feed phaseCfg (restEnv (List.ofFn fun i : Fin n => arcPar (v' i))) false
            (firstData (played arcRule) t v)
            (construct phaseCfg (restEnv (List.ofFn fun i : Fin n => arcPar (v' i))) n false ()).1).1.locs).getD
              0 0 - Real.pi / 2| < ε := by
  have hR := rest_resting false
  have h := C146_updater (π := (volume : Measure unitInterval)) (θ := 1) arc_smooth arcRule_data
    (arc_support 1) 1
    (fun k hk => by
      have : k = 0 := by omega
      subst this
      simp only [arcPar, List.getD_cons_zero]
      fun_prop)
    arc_sampled phaseCfg false (Or.inl rfl) hR.policy hR.thresh.1 hR.thresh.2
  filter_upwards [h] with v hv ε hε
  have hε' : (eps : ℝ) < 1 / 4 := by unfold eps; norm_num
  have hk : KeepsShares (played arcRule) v fun _ => 1 := by
    refine ⟨fun _ => zero_le_one, Eventually.of_forall fun t e => ?_⟩
    simp [timesUsed]
  filter_upwards [hv (fun _ => 1) hk (fun x hx k hk => by rw [arc_alike x hx])
    (fun t => predicted_of_bound arc_smooth (fun o x e => hε'.trans_le (arc_bounds o _ e)) _ v t) ε hε]
    with t ht
  filter_upwards [ht] with v' hv'
  filter_upwards [hv'] with n hn
  have := ((hn.2 0 one_pos).1)
  simpa [arcPar] using this

/-- Case for C146 with an exploring rule: if the variate is below 1/2 the experiment is `true`, otherwise it
is chosen from the data; `true` keeps a share of a third. -/
example (pick : List (Unit × Bool) → Bool) :
    ∀ᵐ v ∂(Measure.infinitePi fun _ : ℕ => (volume : Measure unitInterval)),
      KeepsShares (played fun h (u : unitInterval) => ((), if u.1 < 1 / 2 then true else pick h)) v
        fun e => if e then 1 / 3 else 0 := by
  have hb : (volume : Measure unitInterval).real {u | u.1 < 1 / 2} = 1 / 2 :=
    volume_below _ (by norm_num) (by norm_num)
  refine C146_explore_rules (fun h => ?_) (fun _ _ _ => 1) [] (fun h o e => ?_) (fun e => if e then 1 / 2 else 0)
    (fun h e => ?_) _ (fun e => ?_) (fun e => ?_)
  · exact measurable_const.prodMk (Measurable.ite
      (measurableSet_lt measurable_subtype_coe measurable_const) measurable_const measurable_const)
  · simp
  · cases e
    · simp
    · simp only [if_true]
      refine hb.symm.le.trans (measureReal_mono fun u hu => ?_)
      have hu' : u.1 < 1 / 2 := hu
      show (if u.1 < 1 / 2 then true else pick h) = true
      rw [if_pos hu']
  · cases e <;> norm_num
  · cases e
    · exact Or.inl rfl
    · exact Or.inr (by norm_num)

end QInfer
