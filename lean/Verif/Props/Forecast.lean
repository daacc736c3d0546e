import Verif.Props.OwnChoice
import Verif.Props.SmcCore
import Verif.Lemmas.History

/-!
# C153: forecasts become right

The normalization that `hypothetical_update` returns is the updater's forecast of an outcome.  Here nothing is
asked about telling parameters apart and experiments need not be repeated: if the truth has weight, the
forecasts for the experiments that are done can be wrong only finitely often by a given amount.
-/

namespace QInfer

open Spec Filter Topology MeasureTheory ProbabilityTheory Function

variable {Ω U U' : Type*} {O E R : Type} [MeasurableSpace Ω] [MeasurableSpace O] [MeasurableSpace E]
  [MeasurableSpace U] [MeasurableSpace U']

/-- The probability of an outcome for somebody who believes in the weights. -/
noncomputable def Spec.forecast (like : O → List ℝ → E → ℝ) (u : Smc ℝ O R) (o : O) (e : E) : ℝ :=
  cloudMean (fun y => like o y e) u

/-- What is missing from an affinity of one between the forecast and the law of the outcome. -/
noncomputable def Spec.miss [Fintype O] (like : O → List ℝ → E → ℝ) (y : List ℝ) (u : Smc ℝ O R) (e : E) : ℝ :=
  1 - ∑ o, √(forecast like u o e * like o y e)

omit [MeasurableSpace O] [MeasurableSpace E] in
/-- **C153, the forecast.**  `hypothetical_update` returns it. -/
theorem C153_forecast (env : Env ℝ O E R) (u : Smc ℝ O R) (hlen : u.locs.length = u.weights.length) (o : O) (e : E) :
    ∃ w' L, hypotheticalUpdate env u [o] [e] = .ok [[(w', L, forecast env.likelihood u o e)]] := by
  obtain ⟨w', L, n, hc, hb⟩ := bayesCell_hyp env u.weights u.locs o e hlen
  have hn : n = forecast env.likelihood u o e := by
    have := hypCell_eq env u.weights u.locs o e hlen
    rw [hc] at this
    simp only [Except.ok.injEq, Prod.mk.injEq] at this
    rw [this.2.2, zipWith_like]
    rfl
  refine ⟨w', L, ?_⟩
  rw [hypotheticalUpdate]
  simp only [List.mapM_cons, List.mapM_nil, hc, hn]
  rfl

section

variable [Fintype O] [Fintype E] [MeasurableSingletonClass O] [MeasurableSingletonClass E]
  {P : Measure Ω} [IsProbabilityMeasure P] {D : ℕ → Ω → O × E}
  {n : ℕ} {cfg : SmcConfig ℝ} {env : Env ℝ O E R} {check : Bool} {w : Fin n → ℝ}
  {x : Fin n → List ℝ} {s : Smc ℝ O R}

/-- Weighted likelihood of data. -/
noncomputable def mixLike (like : O → List ℝ → E → ℝ) (w : Fin n → ℝ) (x : Fin n → List ℝ) {t : ℕ}
    (h : Fin t → O × E) : ℝ := ∑ k, w k * ∏ r : Fin t, like (h r).1 (x k) (h r).2

/-- The exact forecast after data. -/
noncomputable def mixNext (like : O → List ℝ → E → ℝ) (w : Fin n → ℝ) (x : Fin n → List ℝ) {t : ℕ}
    (h : Fin t → O × E) (o : O) (e : E) : ℝ :=
  (∑ k, w k * (∏ r : Fin t, like (h r).1 (x k) (h r).2) * like o (x k) e) / mixLike like w x h

/-- Affinity of the exact forecast and the truth. -/
noncomputable def mixAff (like : O → List ℝ → E → ℝ) (w : Fin n → ℝ) (x : Fin n → List ℝ) (y : List ℝ) {t : ℕ}
    (h : Fin t → O × E) (e : E) : ℝ := ∑ o, √(mixNext like w x h o e * like o y e)

omit [MeasurableSpace O] [MeasurableSpace E] [Fintype O] [Fintype E] [MeasurableSingletonClass O]
  [MeasurableSingletonClass E] in
theorem mixNext_nonneg {like : O → List ℝ → E → ℝ} (hnn : ∀ o z e, 0 ≤ like o z e) (hw : ∀ k, 0 ≤ w k) {t : ℕ}
    (h : Fin t → O × E) (o : O) (e : E) : 0 ≤ mixNext like w x h o e :=
  div_nonneg (Finset.sum_nonneg fun k _ => mul_nonneg (mul_nonneg (hw k)
    (Finset.prod_nonneg fun r _ => hnn _ _ _)) (hnn _ _ _))
    (Finset.sum_nonneg fun k _ => mul_nonneg (hw k) (Finset.prod_nonneg fun r _ => hnn _ _ _))

omit [MeasurableSpace O] [MeasurableSpace E] [Fintype E] [MeasurableSingletonClass O]
  [MeasurableSingletonClass E] in
theorem mixNext_sum {like : O → List ℝ → E → ℝ} (hone : ∀ k e, ∑ o, like o (x k) e = 1) {t : ℕ}
    (h : Fin t → O × E) (hZ : mixLike like w x h ≠ 0) (e : E) : ∑ o, mixNext like w x h o e = 1 := by
  unfold mixNext
  rw [← Finset.sum_div, Finset.sum_comm]
  simp only [← Finset.mul_sum, hone, mul_one]
  exact div_self hZ

/-- The mean of the growth of the exact forecasts' misses. -/
theorem miss_mean (hnn : ∀ o z e, 0 ≤ env.likelihood o z e) (hw : ∀ k, 0 ≤ w k) (hw1 : ∑ k, w k = 1)
    (i : Fin n) (hwi : 0 < w i) (hD : AdaptiveData P env.likelihood (x i) D) (t : ℕ) :
    ∃ Z : Ω → ℝ, Integrable Z P ∧ ∫ v, Z v ∂P ≤ 1 ∧ (∀ v, 0 ≤ Z v) ∧
      ∀ v, (∀ r, 0 < env.likelihood (D r v).1 (x i) (D r v).2) →
        √(w i) * Real.exp (∑ r ∈ Finset.range t,
          (1 - mixAff env.likelihood w x (x i) (fun q : Fin r => D q v) (D r v).2)) ≤ Z v := by
  classical
  obtain ⟨φ, hφ⟩ : ∃ φ : ∀ t, (Fin t → O × E) → O × E → ℝ, φ = fun t h d =>
    √(mixNext env.likelihood w x h d.1 d.2 / env.likelihood d.1 (x i) d.2) /
      mixAff env.likelihood w x (x i) h d.2 := ⟨_, rfl⟩
  have hA0 : ∀ {t} (h : Fin t → O × E) e, 0 ≤ mixAff env.likelihood w x (x i) h e := fun h e =>
    Finset.sum_nonneg fun o _ => Real.sqrt_nonneg _
  have hφ0 : ∀ t h d, 0 ≤ φ t h d := fun t h d => by
    rw [hφ]; exact div_nonneg (Real.sqrt_nonneg _) (hA0 _ _)
  have hq0 := fun {t} (h : Fin t → O × E) o e => mixNext_nonneg (x := x) hnn hw h o e
  have hφ1 : ∀ t (h : Fin t → O × E) e, ∑ o, env.likelihood o (x i) e * φ t h (o, e) ≤ 1 := by
    intro t h e
    have : ∀ o, env.likelihood o (x i) e * φ t h (o, e) =
        √(mixNext env.likelihood w x h o e * env.likelihood o (x i) e) /
          mixAff env.likelihood w x (x i) h e := by
      intro o
      rw [hφ]
      dsimp only
      rw [← mul_div_assoc]
      congr 1
      rcases (hnn o (x i) e).eq_or_lt with h0 | h0
      · simp [← h0]
      · rw [Real.sqrt_div (hq0 h o e), Real.sqrt_mul (hq0 h o e)]
        have hs := Real.mul_self_sqrt h0.le
        have hs0 := (Real.sqrt_pos.2 h0).ne'
        rw [mul_div_assoc', div_eq_iff hs0, mul_assoc, hs, mul_comm]
    rw [Finset.sum_congr rfl fun o _ => this o, ← Finset.sum_div]
    exact div_self_le_one _
  refine ⟨fun v => ∏ r ∈ Finset.range t, φ r (fun q => D q v) (D r v), past_int hD.meas φ hφ0 t,
    past_mean hD.meas φ hφ0 (fun t h => ?_) t, fun v => Finset.prod_nonneg fun r _ => hφ0 _ _ _, fun v hpos => ?_⟩
  · have hs2 : ∀ e, MeasurableSet {v | (D t v).2 = e} := fun e =>
      (measurable_snd.comp (hD.meas t)) (measurableSet_singleton e)
    rw [Fintype.sum_prod_type, Finset.sum_comm]
    simp only [hD.law]
    simp only [Set.ofPred_and]
    calc ∑ e, ∑ o, φ t h (o, e) * (env.likelihood o (x i) e *
          P.real ({v | ∀ i : Fin t, D i v = h i} ∩ {v | (D t v).2 = e}))
        = ∑ e, (∑ o, env.likelihood o (x i) e * φ t h (o, e)) *
            P.real ({v | ∀ i : Fin t, D i v = h i} ∩ {v | (D t v).2 = e}) := by
          refine Finset.sum_congr rfl fun e _ => ?_
          rw [Finset.sum_mul]
          exact Finset.sum_congr rfl fun o _ => by ring
      _ ≤ ∑ e, P.real ({v | ∀ i : Fin t, D i v = h i} ∩ {v | (D t v).2 = e}) :=
          Finset.sum_le_sum fun e _ => mul_le_of_le_one_left measureReal_nonneg (hφ1 t h e)
      _ = P.real (⋃ e, {v | ∀ i : Fin t, D i v = h i} ∩ {v | (D t v).2 = e}) := by
          rw [measureReal_iUnion_fintype]
          · intro e e' hne
            refine Set.disjoint_left.2 fun v hv hv' => hne ?_
            exact (hv.2 : (D t v).2 = e).symm.trans hv'.2
          · exact fun e => (hist_meas hD.meas t h).inter (hs2 e)
      _ ≤ _ := measureReal_mono (Set.iUnion_subset fun e => Set.inter_subset_left)
  · obtain ⟨M, hM⟩ : ∃ M : ℕ → ℝ, ∀ r, M r = mixLike env.likelihood w x (fun q : Fin r => D q v) :=
      ⟨_, fun _ => rfl⟩
    obtain ⟨L, hL⟩ : ∃ L : ℕ → ℝ, ∀ r, L r = ∏ q ∈ Finset.range r, env.likelihood (D q v).1 (x i) (D q v).2 :=
      ⟨_, fun _ => rfl⟩
    have hL0 : ∀ r, 0 < L r := fun r => by rw [hL]; exact Finset.prod_pos fun q _ => hpos q
    have hML : ∀ r, w i * L r ≤ M r := fun r => by
      rw [hM, hL, Finset.prod_range]
      exact Finset.single_le_sum (f := fun k => w k * ∏ q : Fin r, env.likelihood (D q v).1 (x k) (D q v).2)
        (fun k _ => mul_nonneg (hw k) (Finset.prod_nonneg fun q _ => hnn _ _ _)) (Finset.mem_univ i)
    have hM0 : ∀ r, 0 < M r := fun r => lt_of_lt_of_le (mul_pos hwi (hL0 r)) (hML r)
    have hnext : ∀ r, mixNext env.likelihood w x (fun q : Fin r => D q v) (D r v).1 (D r v).2 =
        M (r + 1) / M r := fun r => by
      unfold mixNext
      rw [← hM, hM (r + 1)]
      unfold mixLike
      congr 1
      refine Finset.sum_congr rfl fun k _ => ?_
      rw [Fin.prod_univ_castSucc]
      simp [mul_assoc]
    have hAp : ∀ r, 0 < mixAff env.likelihood w x (x i) (fun q : Fin r => D q v) (D r v).2 := fun r => by
      refine lt_of_lt_of_le (Real.sqrt_pos.2 (mul_pos ?_ (hpos r))) (Finset.single_le_sum
        (f := fun o => √(mixNext env.likelihood w x (fun q : Fin r => D q v) o (D r v).2 *
          env.likelihood o (x i) (D r v).2)) (fun o _ => Real.sqrt_nonneg _) (Finset.mem_univ (D r v).1))
      rw [hnext]
      exact div_pos (hM0 _) (hM0 _)
    have hroot : ∀ t, ∏ r ∈ Finset.range t, √(mixNext env.likelihood w x (fun q : Fin r => D q v) (D r v).1
        (D r v).2 / env.likelihood (D r v).1 (x i) (D r v).2) = √(M t / L t) := by
      intro t
      induction t with
      | zero => simp [hM, hL, mixLike, hw1]
      | succ t ih =>
        rw [Finset.prod_range_succ, ih, ← Real.sqrt_mul (div_nonneg (hM0 t).le (hL0 t).le), hnext]
        congr 1
        have hLs : L (t + 1) = L t * env.likelihood (D t v).1 (x i) (D t v).2 := by
          rw [hL, hL, Finset.prod_range_succ]
        rw [hLs]
        have h1 := (hM0 t).ne'
        have h2 := (hL0 t).ne'
        have h3 := (hpos t).ne'
        field_simp
    have hw2 : √(w i) ≤ √(M t / L t) := Real.sqrt_le_sqrt (by
      rw [le_div_iff₀ (hL0 t)]; exact hML t)
    have hexp : Real.exp (∑ r ∈ Finset.range t,
        (1 - mixAff env.likelihood w x (x i) (fun q : Fin r => D q v) (D r v).2)) ≤
        ∏ r ∈ Finset.range t, (mixAff env.likelihood w x (x i) (fun q : Fin r => D q v) (D r v).2)⁻¹ := by
      rw [Real.exp_sum]
      refine Finset.prod_le_prod (fun r _ => (Real.exp_pos _).le) fun r _ => ?_
      rw [le_inv_comm₀ (Real.exp_pos _) (hAp r), ← Real.exp_neg]
      have := Real.add_one_le_exp (-(1 - mixAff env.likelihood w x (x i) (fun q : Fin r => D q v) (D r v).2))
      linarith
    calc √(w i) * _ ≤ √(M t / L t) * ∏ r ∈ Finset.range t,
          (mixAff env.likelihood w x (x i) (fun q : Fin r => D q v) (D r v).2)⁻¹ :=
        mul_le_mul hw2 hexp (Real.exp_pos _).le (Real.sqrt_nonneg _)
      _ = ∏ r ∈ Finset.range t, φ r (fun q => D q v) (D r v) := by
        rw [← hroot, ← Finset.prod_mul_distrib, hφ]
        rfl

omit [Fintype E] [MeasurableSingletonClass O] [MeasurableSingletonClass E] in
/-- On accepted runs the updater's forecasts are the exact ones. -/
theorem forecast_exact (h : Resting cfg env check w x s) (D : ℕ → Ω → O × E) (t : ℕ) (v : Ω)
    (hok : (feed cfg env check (firstData D t v) s).2 = .ok ()) (o : O) (e : E) :
    forecast env.likelihood (feed cfg env check (firstData D t v) s).1 o e =
      mixNext env.likelihood w x (fun q : Fin t => D q v) o e := by
  obtain ⟨h1, h2⟩ := h.weight D t v hok
  unfold Spec.forecast Spec.cloudMean mixNext mixLike
  rw [h1, h2, zip_ofFn, List.map_ofFn, List.sum_ofFn, Finset.sum_div]
  refine Finset.sum_congr rfl fun k _ => ?_
  simp only [Function.comp, Finset.prod_range]
  ring

omit [Fintype E] [MeasurableSingletonClass O] [MeasurableSingletonClass E] in
theorem miss_exact (h : Resting cfg env check w x s) (D : ℕ → Ω → O × E) (t : ℕ) (v : Ω)
    (hok : (feed cfg env check (firstData D t v) s).2 = .ok ()) (y : List ℝ) (e : E) :
    miss env.likelihood y (feed cfg env check (firstData D t v) s).1 e =
      1 - mixAff env.likelihood w x y (fun q : Fin t => D q v) e := by
  unfold Spec.miss mixAff
  simp only [forecast_exact h D t v hok]

/-- **C153, chance.**  The chance that the forecasts of a run ever miss by `c` or more in total. -/
theorem C153_chance (h : Resting cfg env check w x s) (i : Fin n) (hwi : 0 < w i)
    (hD : AdaptiveData P env.likelihood (x i) D) (hone : ∀ k e, ∑ o, env.likelihood o (x k) e = 1) (c : ℝ) :
    P.real {v | (∀ t, (feed cfg env check (firstData D t v) s).2 = .ok ()) ∧ ∃ t, c ≤ ∑ r ∈ Finset.range t,
      miss env.likelihood (x i) (feed cfg env check (firstData D r v) s).1 (D r v).2} ≤
        Real.exp (-c) / √(w i) := by
  have hnn := h.good.like_nonneg
  obtain ⟨S, hS⟩ : ∃ S : ℕ → Ω → ℝ, ∀ t v, S t v = ∑ r ∈ Finset.range t,
      (1 - mixAff env.likelihood w x (x i) (fun q : Fin r => D q v) (D r v).2) := ⟨_, fun _ _ => rfl⟩
  obtain ⟨B, hB⟩ : ∃ B : ℕ → Set Ω, ∀ t, B t = {v | (∀ r, 0 < env.likelihood (D r v).1 (x i) (D r v).2) ∧
      c ≤ S t v} := ⟨_, fun _ => rfl⟩
  have hw0 : 0 < √(w i) := Real.sqrt_pos.2 hwi
  have hb0 : 0 ≤ Real.exp (-c) / √(w i) := div_nonneg (Real.exp_pos _).le hw0.le
  have h1 : ∀ t, P (B t) ≤ ENNReal.ofReal (Real.exp (-c) / √(w i)) := by
    intro t
    obtain ⟨Z, hZ1, hZ2, hZ3, hZ4⟩ := miss_mean hnn h.nonneg h.sum i hwi hD t
    have hsub : B t ⊆ {v | √(w i) * Real.exp c ≤ Z v} := by
      intro v hv
      rw [hB] at hv
      refine le_trans (mul_le_mul_of_nonneg_left (Real.exp_le_exp.2 hv.2) hw0.le) ?_
      rw [hS]
      exact hZ4 v hv.1
    have hm := mul_meas_ge_le_integral_of_nonneg (ae_of_all P hZ3) hZ1 (√(w i) * Real.exp c)
    rw [ENNReal.le_ofReal_iff_toReal_le (measure_ne_top _ _) hb0]
    refine le_trans (measureReal_mono hsub) ?_
    rw [Real.exp_neg, le_div_iff₀ hw0, ← one_div, le_div_iff₀ (Real.exp_pos c)]
    refine le_trans (le_of_eq ?_) (hm.trans hZ2)
    ring
  have hmono : Monotone B := by
    refine monotone_nat_of_le_succ fun t v hv => ?_
    rw [hB] at hv ⊢
    refine ⟨hv.1, hv.2.trans ?_⟩
    rw [hS, hS, Finset.sum_range_succ]
    have : 0 < mixLike env.likelihood w x (fun q : Fin t => D q v) :=
      lt_of_lt_of_le (mul_pos hwi (Finset.prod_pos fun q _ => hv.1 _))
        (Finset.single_le_sum (f := fun k => w k * ∏ q : Fin t, env.likelihood (D q v).1 (x k) (D q v).2)
          (fun k _ => mul_nonneg (h.nonneg k) (Finset.prod_nonneg fun q _ => hnn _ _ _)) (Finset.mem_univ i))
    have := affinity_one (fun o => mixNext env.likelihood w x (fun q : Fin t => D q v) o (D t v).2)
      (fun o => env.likelihood o (x i) (D t v).2) (fun o => mixNext_nonneg hnn h.nonneg _ _ _)
      (fun o => hnn _ _ _) (mixNext_sum hone _ this.ne' _) (hone i _)
    unfold mixAff
    linarith
  have h2 : P (⋃ t, B t) ≤ ENNReal.ofReal (Real.exp (-c) / √(w i)) := by
    rw [hmono.measure_iUnion]
    exact iSup_le h1
  have h3 : P {v | (∀ t, (feed cfg env check (firstData D t v) s).2 = .ok ()) ∧ ∃ t, c ≤ ∑ r ∈ Finset.range t,
      miss env.likelihood (x i) (feed cfg env check (firstData D r v) s).1 (D r v).2} ≤ P (⋃ t, B t) := by
    refine measure_mono_ae ?_
    filter_upwards [hD.possible (fun o e => hnn o _ e)] with v hpos hv
    obtain ⟨hok, t, ht⟩ := hv
    refine Set.mem_iUnion.2 ⟨t, ?_⟩
    rw [hB]
    refine ⟨hpos, ht.trans (le_of_eq ?_)⟩
    rw [hS]
    exact Finset.sum_congr rfl fun r _ => miss_exact h D r v (hok r) _ _
  exact (ENNReal.le_ofReal_iff_toReal_le (measure_ne_top _ _) hb0).1 (h3.trans h2)

omit [MeasurableSingletonClass O] [MeasurableSingletonClass E] [Fintype E] in
/-- What a miss says about single forecasts. -/
theorem forecast_near (h : Resting cfg env check w x s) (i : Fin n) (hwi : 0 < w i)
    (hone : ∀ k e, ∑ o, env.likelihood o (x k) e = 1) (v : Ω)
    (hpos : ∀ r, 0 < env.likelihood (D r v).1 (x i) (D r v).2) (t : ℕ)
    (hok : (feed cfg env check (firstData D t v) s).2 = .ok ()) (o : O) (e : E) :
    (forecast env.likelihood (feed cfg env check (firstData D t v) s).1 o e - env.likelihood o (x i) e) ^ 2 ≤
      8 * miss env.likelihood (x i) (feed cfg env check (firstData D t v) s).1 e := by
  have hnn := h.good.like_nonneg
  have hZ : 0 < mixLike env.likelihood w x (fun q : Fin t => D q v) :=
    lt_of_lt_of_le (mul_pos hwi (Finset.prod_pos fun q _ => hpos _))
      (Finset.single_le_sum (f := fun k => w k * ∏ q : Fin t, env.likelihood (D q v).1 (x k) (D q v).2)
        (fun k _ => mul_nonneg (h.nonneg k) (Finset.prod_nonneg fun q _ => hnn _ _ _)) (Finset.mem_univ i))
  rw [forecast_exact h D t v hok, miss_exact h D t v hok]
  exact affinity_near (fun o => mixNext env.likelihood w x (fun q : Fin t => D q v) o e)
    (fun o => env.likelihood o (x i) e) (fun o => mixNext_nonneg hnn h.nonneg _ _ _)
    (fun o => hnn _ _ _) (mixNext_sum hone _ hZ.ne' _) (hone i _) o

/-- **C153, counting.**  The chance that in the whole run there are `m` experiments or more, for which the
forecast of some outcome was wrong by `ε` or more, is at most `exp (- m ε² / 8) / √w`. -/
theorem C153_count (h : Resting cfg env check w x s) (i : Fin n) (hwi : 0 < w i)
    (hD : AdaptiveData P env.likelihood (x i) D) (hone : ∀ k e, ∑ o, env.likelihood o (x k) e = 1)
    (ε : ℝ) (hε : 0 ≤ ε) (m : ℕ) :
    P.real {v | (∀ t, (feed cfg env check (firstData D t v) s).2 = .ok ()) ∧
      ∃ T : Finset ℕ, m ≤ T.card ∧ ∀ t ∈ T, ∃ o, ε ≤ |forecast env.likelihood
        (feed cfg env check (firstData D t v) s).1 o (D t v).2 - env.likelihood o (x i) (D t v).2|} ≤
          Real.exp (-(m * ε ^ 2 / 8)) / √(w i) := by
  refine le_trans ?_ (C153_chance h i hwi hD hone (m * ε ^ 2 / 8))
  refine ENNReal.toReal_mono (measure_ne_top _ _) (measure_mono_ae ?_)
  filter_upwards [hD.possible (fun o e => h.good.like_nonneg o _ e)] with v hpos hv
  obtain ⟨hok, T, hm, hT⟩ := hv
  obtain ⟨b, hb⟩ := T.exists_nat_subset_range
  have hmiss : ∀ t o, (forecast env.likelihood (feed cfg env check (firstData D t v) s).1 o (D t v).2 -
      env.likelihood o (x i) (D t v).2) ^ 2 ≤
        8 * miss env.likelihood (x i) (feed cfg env check (firstData D t v) s).1 (D t v).2 :=
    fun t o => forecast_near h i hwi hone v hpos t (hok t) o _
  refine ⟨hok, b, ?_⟩
  have h1 : ∑ t ∈ T, ε ^ 2 / 8 ≤ ∑ t ∈ T,
      miss env.likelihood (x i) (feed cfg env check (firstData D t v) s).1 (D t v).2 := by
    refine Finset.sum_le_sum fun t ht => ?_
    obtain ⟨o, ho⟩ := hT t ht
    have h2 := hmiss t o
    have h3 : ε ^ 2 ≤ (forecast env.likelihood (feed cfg env check (firstData D t v) s).1 o (D t v).2 -
      env.likelihood o (x i) (D t v).2) ^ 2 := by
      rw [← sq_abs (forecast _ _ _ _ - _)]
      exact pow_le_pow_left₀ hε ho 2
    linarith
  have h2 : ∑ t ∈ T, miss env.likelihood (x i) (feed cfg env check (firstData D t v) s).1 (D t v).2 ≤
      ∑ t ∈ Finset.range b, miss env.likelihood (x i) (feed cfg env check (firstData D t v) s).1 (D t v).2 :=
    Finset.sum_le_sum_of_subset_of_nonneg hb fun t _ _ => by
      have := hmiss t (D t v).1
      nlinarith [sq_nonneg (forecast env.likelihood (feed cfg env check (firstData D t v) s).1 (D t v).1 (D t v).2 -
        env.likelihood (D t v).1 (x i) (D t v).2)]
  rw [Finset.sum_const, nsmul_eq_mul] at h1
  have h4 : (m : ℝ) * (ε ^ 2 / 8) ≤ T.card * (ε ^ 2 / 8) :=
    mul_le_mul_of_nonneg_right (by exact_mod_cast hm) (by positivity)
  rw [mul_div_assoc]
  linarith

/-- **C153.**  With probability one the squared errors of all forecasts of a run add up to something finite,
and the forecasts for the experiments done become right. -/
theorem C153_right (h : Resting cfg env check w x s) (i : Fin n) (hwi : 0 < w i)
    (hD : AdaptiveData P env.likelihood (x i) D) (hone : ∀ k e, ∑ o, env.likelihood o (x k) e = 1) :
    ∀ᵐ v ∂P, (∀ t, (feed cfg env check (firstData D t v) s).2 = .ok ()) → ∀ o,
      Summable (fun t => (forecast env.likelihood (feed cfg env check (firstData D t v) s).1 o (D t v).2 -
        env.likelihood o (x i) (D t v).2) ^ 2) ∧
      Tendsto (fun t => forecast env.likelihood (feed cfg env check (firstData D t v) s).1 o (D t v).2 -
        env.likelihood o (x i) (D t v).2) atTop (𝓝 0) := by
  have hnull : P.real {v | (∀ t, (feed cfg env check (firstData D t v) s).2 = .ok ()) ∧ ∀ c : ℝ, ∃ t,
      c ≤ ∑ r ∈ Finset.range t,
        miss env.likelihood (x i) (feed cfg env check (firstData D r v) s).1 (D r v).2} = 0 := by
    refine le_antisymm ?_ measureReal_nonneg
    have hlim : Tendsto (fun c : ℝ => Real.exp (-c) / √(w i)) atTop (𝓝 0) := by
      have := (Real.tendsto_exp_neg_atTop_nhds_zero).div_const (√(w i))
      rwa [zero_div] at this
    refine ge_of_tendsto' hlim fun c => ?_
    refine le_trans ?_ (C153_chance h i hwi hD hone c)
    have hsub : {v | (∀ t, (feed cfg env check (firstData D t v) s).2 = .ok ()) ∧ ∀ c : ℝ, ∃ t,
      c ≤ ∑ r ∈ Finset.range t,
        miss env.likelihood (x i) (feed cfg env check (firstData D r v) s).1 (D r v).2} ⊆
      {v | (∀ t, (feed cfg env check (firstData D t v) s).2 = .ok ()) ∧ ∃ t, c ≤ ∑ r ∈ Finset.range t,
      miss env.likelihood (x i) (feed cfg env check (firstData D r v) s).1 (D r v).2} :=
      fun v hv => ⟨hv.1, hv.2 c⟩
    exact measureReal_mono hsub
  rw [measureReal_eq_zero_iff] at hnull
  have hae := measure_eq_zero_iff_ae_notMem.1 hnull
  filter_upwards [hae, hD.possible (fun o e => h.good.like_nonneg o _ e)] with v hv hpos hok o
  have hb : ∃ c : ℝ, ∀ t, ∑ r ∈ Finset.range t,
      miss env.likelihood (x i) (feed cfg env check (firstData D r v) s).1 (D r v).2 ≤ c := by
    by_contra hno
    push Not at hno
    exact hv ⟨hok, fun c => (hno c).imp fun t ht => ht.le⟩
  obtain ⟨c, hc⟩ := hb
  have hmiss : ∀ t o, (forecast env.likelihood (feed cfg env check (firstData D t v) s).1 o (D t v).2 -
      env.likelihood o (x i) (D t v).2) ^ 2 ≤
        8 * miss env.likelihood (x i) (feed cfg env check (firstData D t v) s).1 (D t v).2 :=
    fun t o => forecast_near h i hwi hone v hpos t (hok t) o _
  have hs : Summable fun t => miss env.likelihood (x i) (feed cfg env check (firstData D t v) s).1 (D t v).2 :=
    summable_of_sum_range_le (fun t => by
      have := hmiss t o
      nlinarith [sq_nonneg (forecast env.likelihood (feed cfg env check (firstData D t v) s).1 o (D t v).2 -
        env.likelihood o (x i) (D t v).2)]) hc
  have hsq := Summable.of_nonneg_of_le (fun t => sq_nonneg _) (fun t => hmiss t o) (hs.mul_left 8)
  refine ⟨hsq, ?_⟩
  have h0 := hsq.tendsto_atTop_zero
  have h1 := h0.sqrt
  rw [Real.sqrt_zero] at h1
  simp only [Real.sqrt_sq_eq_abs] at h1
  exact (tendsto_zero_iff_abs_tendsto_zero _).2 h1

omit [Fintype O] [Fintype E] [MeasurableSingletonClass O] [MeasurableSingletonClass E] in
/-- **C153, log loss.**  For any data and any experiments, whether or not a particle is the truth: the sum of
the logarithms of the recorded normalizations falls behind that of the probabilities which a particle of
weight `w i` gave to the data by at most `log (1 / w i)`. -/
theorem C153_log_loss (h : Resting cfg env check w x s) (hn : s.normRecord = []) (ds : List (O × E))
    (hok : (feed cfg env check ds s).2 = .ok ()) (i : Fin n) (hwi : 0 < w i)
    (hpos : ∀ d ∈ ds, 0 < env.likelihood d.1 (x i) d.2) :
    (ds.map fun d => Real.log (env.likelihood d.1 (x i) d.2)).sum - Real.log (1 / w i) ≤
      ((feed cfg env check ds s).1.normRecord.map Real.log).sum := by
  obtain ⟨-, h2⟩ := feed_paths cfg env h.good check h.off h.policy h.thresh.1 h.thresh.2
    ds w (fun i _ => x i) h.nonneg h.sum s h.weights h.locs (moves_static env h.static _ _ x)
  obtain ⟨-, -, -, ns, h3, -, h4, h5⟩ := h2 hok
  rw [h3, hn, List.nil_append]
  have hL : 0 < (ds.map fun d => env.likelihood d.1 (x i) d.2).prod :=
    List.prod_pos fun a ha => by
      obtain ⟨d, hd, rfl⟩ := List.mem_map.1 ha
      exact hpos d hd
  have h6 : w i * (ds.map fun d => env.likelihood d.1 (x i) d.2).prod ≤ ns.prod := by
    rw [h5]
    simp only [pathLike_static]
    exact Finset.single_le_sum (f := fun k => w k * (ds.map fun d => env.likelihood d.1 (x k) d.2).prod)
      (fun k _ => mul_nonneg (h.nonneg k) (List.prod_nonneg fun a ha => by
        obtain ⟨d, hd, rfl⟩ := List.mem_map.1 ha
        exact h.good.like_nonneg _ _ _)) (Finset.mem_univ i)
  have h7 := Real.log_le_log (mul_pos hwi hL) h6
  rw [Real.log_mul hwi.ne' hL.ne', Real.log_list_prod fun a ha => ?_, Real.log_list_prod fun a ha => ?_,
    List.map_map] at h7
  · rw [one_div, Real.log_inv]
    refine le_trans (le_of_eq ?_) h7
    rw [sub_neg_eq_add, add_comm]
    rfl
  · exact (lt_of_lt_of_le eps_pos (h4 a ha)).ne'
  · obtain ⟨d, hd, rfl⟩ := List.mem_map.1 ha
    exact (hpos d hd).ne'

end

/-! ### A case: nothing can be told apart -/

/-- Case for C153: three particles, which may predict the same, and experiments chosen by any heuristic.  The
forecasts become right; the chance that 8000 or more of them are wrong by a tenth or more is at most
`exp (-10) √3`, below one in ten thousand. -/
example (q : List ℝ → Fin 2 → unitInterval) (x : Fin 3 → List ℝ) (heur : Smc ℝ Bool Unit → unitInterval → Fin 2)
    (hheur : ∀ s, Measurable (heur s)) (i : Fin 3) :
    let env := softEnv q (List.ofFn x)
    let s := (construct phaseCfg env 3 false ()).1
    let D := played (closedLoop phaseCfg env true s heur (softOut q (x i)))
    let P := Measure.infinitePi fun _ : ℕ => (volume : Measure unitInterval).prod (volume : Measure unitInterval)
    (∀ᵐ v ∂P, ∀ o, Tendsto (fun t => forecast env.likelihood
      (feed phaseCfg env true (firstData D t v) s).1 o (D t v).2 - env.likelihood o (x i) (D t v).2)
        atTop (𝓝 0)) ∧
    P.real {v | ∃ T : Finset ℕ, 8000 ≤ T.card ∧ ∀ t ∈ T, ∃ o, 1 / 10 ≤ |forecast env.likelihood
        (feed phaseCfg env true (firstData D t v) s).1 o (D t v).2 - env.likelihood o (x i) (D t v).2|} ≤
      Real.exp (-10) * √3 := by
  intro env s D P
  have hD : AdaptiveData P env.likelihood (x i) D :=
    C147_loop (cfg := phaseCfg) (check := true) (s := s) (ν := volume) (ν' := volume) heur hheur
      (softOut q (x i)) (softOut_meas _ _) (x i) (fun e o => softOut_law _ _ _ e o)
  have hok : ∀ v t, (feed phaseCfg env true (firstData D t v) s).2 = .ok () := fun v t => soft_accepted _ _ _ _
  constructor
  · filter_upwards [C153_right (soft_resting true q x) i (by norm_num) hD fun k e => soft_sum _ _ _ e] with v hv o
    exact (hv (hok v) o).2
  · have := C153_count (soft_resting true q x) i (by norm_num) hD (fun k e => soft_sum _ _ _ e)
      (1 / 10) (by norm_num) 8000
    refine le_trans (le_of_eq ?_) (this.trans (le_of_eq ?_))
    · congr 1
      ext v
      exact ⟨fun hv => ⟨hok v, hv⟩, fun hv => hv.2⟩
    · rw [show (1 / 3 : ℝ) = 3⁻¹ by norm_num, Real.sqrt_inv, div_inv_eq_mul]
      congr 2
      norm_num

end QInfer
