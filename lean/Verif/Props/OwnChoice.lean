import Verif.Props.AdaptLearn
import Verif.Props.Consistency
import Verif.Lemmas.Products

/-!
# C147: an updater that chooses its own experiments

C91 is about mean weights and experiments that all tell the truth from the other particles.  Here the
experiments are chosen in any way, and the statement is about almost every run: whatever an experiment that
is repeated for ever can tell from the truth loses its weight, the weights of all particles converge, and
the truth keeps weight.
-/

namespace QInfer

open Spec Filter Topology MeasureTheory ProbabilityTheory Function

variable {Ω U U' : Type*} {O E R : Type} [MeasurableSpace Ω] [MeasurableSpace O] [MeasurableSpace E]
  [MeasurableSpace U] [MeasurableSpace U']

section

variable [Fintype O] [Fintype E] [MeasurableSingletonClass O] [MeasurableSingletonClass E]
  {P : Measure Ω} [IsProbabilityMeasure P] {D : ℕ → Ω → O × E} {like : O → List ℝ → E → ℝ} {y : List ℝ}

/-- A product of functions of the data that on average do not grow, converges. -/
theorem product_converges (hD : AdaptiveData P like y D) (φ : O × E → ℝ) (hφ : ∀ d, 0 ≤ φ d)
    (h1 : ∀ e, ∑ o, like o y e * φ (o, e) ≤ 1) :
    ∀ᵐ v ∂P, ∃ c, Tendsto (fun t => ∏ r ∈ Finset.range t, φ (D r v)) atTop (𝓝 c) := by
  refine (products_converge hD.meas (fun _ => φ) (fun _ => hφ) fun t h => ?_).2
  have hs2 : ∀ e, MeasurableSet {v | (D t v).2 = e} := fun e =>
    (measurable_snd.comp (hD.meas t)) (measurableSet_singleton e)
  rw [Fintype.sum_prod_type, Finset.sum_comm]
  simp only [hD.law]
  simp only [Set.ofPred_and]
  calc ∑ e, ∑ o, φ (o, e) * (like o y e * P.real ({v | ∀ i : Fin t, D i v = h i} ∩ {v | (D t v).2 = e}))
      = ∑ e, (∑ o, like o y e * φ (o, e)) * P.real ({v | ∀ i : Fin t, D i v = h i} ∩ {v | (D t v).2 = e}) := by
        refine Finset.sum_congr rfl fun e _ => ?_
        rw [Finset.sum_mul]
        exact Finset.sum_congr rfl fun o _ => by ring
    _ ≤ ∑ e, P.real ({v | ∀ i : Fin t, D i v = h i} ∩ {v | (D t v).2 = e}) :=
        Finset.sum_le_sum fun e _ => mul_le_of_le_one_left measureReal_nonneg (h1 e)
    _ = P.real (⋃ e, {v | ∀ i : Fin t, D i v = h i} ∩ {v | (D t v).2 = e}) := by
        rw [measureReal_iUnion_fintype]
        · intro e e' hne
          refine Set.disjoint_left.2 fun v hv hv' => hne ?_
          exact (hv.2 : (D t v).2 = e).symm.trans hv'.2
        · exact fun e => (hist_meas hD.meas t h).inter (hs2 e)
    _ ≤ _ := measureReal_mono (Set.iUnion_subset fun e => Set.inter_subset_left)

/-- The likelihood of parameters that an experiment repeated for ever can tell from the truth, falls behind
that of the truth. -/
theorem ratio_vanishes (hD : AdaptiveData P like y D) (h0 : ∀ o z e, 0 ≤ like o z e)
    (hy : ∀ e, ∑ o, like o y e = 1) (z : List ℝ) (hz : ∀ e, ∑ o, like o z e = 1) :
    ∀ᵐ v ∂P, (∃ o e, (∃ᶠ t in atTop, (D t v).2 = e) ∧ like o z e ≠ like o y e) →
      Tendsto (fun t => ∏ r ∈ Finset.range t, like (D r v).1 z (D r v).2 / like (D r v).1 y (D r v).2) atTop
        (𝓝 0) := by
  classical
  obtain ⟨A, hA⟩ : ∃ A : E → ℝ, A = fun e => Spec.affinity like y z e := ⟨fun e => Spec.affinity like y z e, rfl⟩
  have hA0 : ∀ e, 0 ≤ A e := fun e => by rw [hA]; exact Finset.sum_nonneg fun o _ => Real.sqrt_nonneg _
  have hA1 : ∀ e, A e ≤ 1 := fun e => by
    rw [hA]; exact (C91_affinity like y z e (fun o x => h0 o x e) (hy e) (hz e)).1
  have hsq : ∀ a b : ℝ, 0 ≤ a → 0 ≤ b → a * √(b / a) = √(a * b) ∨ a = 0 := by
    intro a b ha hb
    rcases ha.eq_or_lt with h | h
    · exact Or.inr h.symm
    · left
      rw [show a * b = a ^ 2 * (b / a) by field_simp, Real.sqrt_mul (sq_nonneg a), Real.sqrt_sq ha]
  have hconv := product_converges hD (fun d => √(like d.1 z d.2 / like d.1 y d.2) / A d.2)
    (fun d => div_nonneg (Real.sqrt_nonneg _) (hA0 _)) (fun e => by
      have : ∑ o, like o y e * (√(like o z e / like o y e) / A e) ≤ (∑ o, √(like o y e * like o z e)) / A e := by
        rw [Finset.sum_div]
        refine Finset.sum_le_sum fun o _ => ?_
        rw [← mul_div_assoc]
        refine div_le_div_of_nonneg_right ?_ (hA0 e)
        rcases hsq _ _ (h0 o y e) (h0 o z e) with h | h
        · exact h.le
        · rw [h]; simp
      refine this.trans ?_
      have hAe : A e = ∑ o, √(like o y e * like o z e) := by rw [hA]; rfl
      rw [← hAe]
      exact div_self_le_one _)
  filter_upwards [hconv, hD.possible (fun o e => h0 o y e)] with v ⟨c, hc⟩ hpos ⟨o, e, hinf, hne⟩
  have hlt : A e < 1 := by
    rw [hA]
    exact (C91_affinity like y z e (fun o x => h0 o x e) (hy e) (hz e)).2 ⟨o, Ne.symm hne⟩
  have hAz : Tendsto (fun t => ∏ r ∈ Finset.range t, A (D r v).2) atTop (𝓝 0) := by
    have hcount : Tendsto (fun t => ((Finset.range t).filter fun r => (D r v).2 = e).card) atTop atTop := by
      refine tendsto_atTop_atTop.2 fun b => ?_
      induction b with
      | zero => exact ⟨0, fun _ _ => Nat.zero_le _⟩
      | succ b ih =>
        obtain ⟨T, hT⟩ := ih
        obtain ⟨r, hr, hre⟩ := (frequently_atTop.1 hinf) T
        refine ⟨r + 1, fun t ht => ?_⟩
        have h1 := hT r hr
        have h2 : insert r ((Finset.range r).filter fun r => (D r v).2 = e) ⊆
            (Finset.range t).filter fun r => (D r v).2 = e := by
          intro k hk
          rcases Finset.mem_insert.1 hk with rfl | hk
          · exact Finset.mem_filter.2 ⟨Finset.mem_range.2 (by omega), hre⟩
          · have := Finset.mem_filter.1 hk
            exact Finset.mem_filter.2 ⟨Finset.mem_range.2 (by have := Finset.mem_range.1 this.1; omega), this.2⟩
        have h3 := Finset.card_le_card h2
        rw [Finset.card_insert_of_notMem (by simp)] at h3
        omega
    have hle : ∀ t, ∏ r ∈ Finset.range t, A (D r v).2 ≤
        A e ^ ((Finset.range t).filter fun r => (D r v).2 = e).card := fun t => by
      rw [← Finset.prod_const, Finset.prod_filter]
      refine Finset.prod_le_prod (fun r _ => hA0 _) fun r _ => ?_
      split_ifs with hr
      · rw [hr]
      · exact hA1 _
    exact squeeze_zero (fun t => Finset.prod_nonneg fun r _ => hA0 _) hle
      ((tendsto_pow_atTop_nhds_zero_of_lt_one (hA0 e) hlt).comp hcount)
  have hroot : ∀ t, √(∏ r ∈ Finset.range t, like (D r v).1 z (D r v).2 / like (D r v).1 y (D r v).2) =
      (∏ r ∈ Finset.range t, √(like (D r v).1 z (D r v).2 / like (D r v).1 y (D r v).2) / A (D r v).2) *
        ∏ r ∈ Finset.range t, A (D r v).2 := by
    intro t
    rw [← Finset.prod_mul_distrib, Real.sqrt_prod _ fun r _ => div_nonneg (h0 _ _ _) (h0 _ _ _)]
    refine Finset.prod_congr rfl fun r _ => ?_
    by_cases hz0 : A (D r v).2 = 0
    · have h2 : √(like (D r v).1 y (D r v).2 * like (D r v).1 z (D r v).2) = 0 := by
        rw [hA] at hz0
        exact (Finset.sum_eq_zero_iff_of_nonneg fun o _ => Real.sqrt_nonneg _).1 hz0 _ (Finset.mem_univ _)
      rw [Real.sqrt_eq_zero (mul_nonneg (h0 _ _ _) (h0 _ _ _))] at h2
      rw [(mul_eq_zero.1 h2).resolve_left (hpos r).ne', zero_div]
      simp
    · rw [div_mul_cancel₀ _ hz0]
  have hlim := hc.mul hAz
  rw [mul_zero] at hlim
  have h2 := (hlim.congr fun t => (hroot t).symm).pow 2
  rw [zero_pow two_ne_zero] at h2
  refine h2.congr fun t => ?_
  rw [Real.sq_sqrt]
  exact Finset.prod_nonneg fun r _ => div_nonneg (h0 _ _ _) (h0 _ _ _)

end

section

variable [Fintype O] [Fintype E] [MeasurableSingletonClass O] [MeasurableSingletonClass E]
  {P : Measure Ω} [IsProbabilityMeasure P] {D : ℕ → Ω → O × E}
  {n : ℕ} {cfg : SmcConfig ℝ} {env : Env ℝ O E R} {check : Bool} {w : Fin n → ℝ}
  {x : Fin n → List ℝ} {s : Smc ℝ O R}

/-- **C147.**  The outcomes come from particle `i`, which has weight; the experiments are chosen in any
way.  With probability one all weights converge, and so does the estimate of the mean of every function of
the parameters; the truth keeps weight for ever; and a particle keeps weight only if it predicts the same
as the truth in every experiment that is repeated for ever. -/
theorem C147_limits (h : Resting cfg env check w x s) (i : Fin n) (hwi : 0 < w i)
    (hD : AdaptiveData P env.likelihood (x i) D) (hone : ∀ k e, ∑ o, env.likelihood o (x k) e = 1) :
    ∀ᵐ v ∂P, (∀ t, (feed cfg env check (firstData D t v) s).2 = .ok ()) →
      ∃ W : Fin n → ℝ, 0 < W i ∧ ∑ j, W j = 1 ∧
        (∀ j : Fin n, Tendsto (fun t => (feed cfg env check (firstData D t v) s).1.weights.getD j 0) atTop (𝓝 (W j))) ∧
        (∀ j, W j ≠ 0 → ∀ e, (∃ᶠ t in atTop, (D t v).2 = e) →
          ∀ o, env.likelihood o (x j) e = env.likelihood o (x i) e) ∧
        ∀ f : List ℝ → ℝ, Tendsto (fun t => cloudMean f (feed cfg env check (firstData D t v) s).1) atTop
          (𝓝 (∑ j, W j * f (x j))) := by
  classical
  have hnn := h.good.like_nonneg
  have hall : ∀ᵐ v ∂P, ∀ j : Fin n,
      (∃ o e, (∃ᶠ t in atTop, (D t v).2 = e) ∧ env.likelihood o (x j) e ≠ env.likelihood o (x i) e) →
      Tendsto (fun t => ∏ r ∈ Finset.range t, env.likelihood (D r v).1 (x j) (D r v).2 /
        env.likelihood (D r v).1 (x i) (D r v).2) atTop (𝓝 0) := by
    rw [ae_all_iff]
    exact fun j => ratio_vanishes hD (fun o z e => hnn o z e) (hone i) (x j) (hone j)
  filter_upwards [hall, hD.possible (fun o e => hnn o _ e)] with v hv hpos hok
  obtain ⟨ρ, hρ⟩ : ∃ ρ : Fin n → ℕ → ℝ, ρ = fun j t => ∏ r ∈ Finset.range t,
    env.likelihood (D r v).1 (x j) (D r v).2 / env.likelihood (D r v).1 (x i) (D r v).2 := ⟨_, rfl⟩
  have hρ0 : ∀ j t, 0 ≤ ρ j t := fun j t => by
    rw [hρ]; exact Finset.prod_nonneg fun r _ => div_nonneg (hnn _ _ _) (hnn _ _ _)
  have hρi : ∀ t, ρ i t = 1 := fun t => by
    rw [hρ]; exact Finset.prod_eq_one fun r _ => div_self (hpos r).ne'
  have hlim : ∀ j, ∃ c, Tendsto (ρ j) atTop (𝓝 c) ∧
      (c ≠ 0 → ∀ e, (∃ᶠ t in atTop, (D t v).2 = e) → ∀ o, env.likelihood o (x j) e = env.likelihood o (x i) e) := by
    intro j
    by_cases hj : ∃ o e, (∃ᶠ t in atTop, (D t v).2 = e) ∧ env.likelihood o (x j) e ≠ env.likelihood o (x i) e
    · refine ⟨0, ?_, fun h0 => absurd rfl h0⟩
      rw [hρ]
      exact hv j hj
    · push Not at hj
      have hev : ∀ᶠ t in atTop, ∃ᶠ t' in atTop, (D t' v).2 = (D t v).2 := by
        have h1 : ∀ᶠ t in atTop, ∀ e, (¬∃ᶠ t' in atTop, (D t' v).2 = e) → (D t v).2 ≠ e := by
          rw [eventually_all]
          intro e
          by_cases he : ∃ᶠ t' in atTop, (D t' v).2 = e
          · exact Eventually.of_forall fun t hne => absurd he hne
          · rw [not_frequently] at he
            filter_upwards [he] with t ht _ using ht
        filter_upwards [h1] with t ht
        by_contra hno
        exact ht _ hno rfl
      obtain ⟨T, hT⟩ := eventually_atTop.1 hev
      refine ⟨ρ j T, ?_, fun _ e he o => hj o e he⟩
      have hconst : ∀ t, T ≤ t → ρ j t = ρ j T := by
        intro t ht
        induction t, ht using Nat.le_induction with
        | base => rfl
        | succ t ht ih =>
          rw [← ih, hρ]
          simp only
          rw [Finset.prod_range_succ, hj _ _ (hT t ht), div_self (hpos t).ne', mul_one]
      exact tendsto_const_nhds.congr' (eventually_atTop.2 ⟨T, fun t ht => (hconst t ht).symm⟩)
  choose c hc hcj using hlim
  have hci : c i = 1 := tendsto_nhds_unique (hc i) (by
    have : ρ i = fun _ => 1 := funext hρi
    rw [this]; exact tendsto_const_nhds)
  have hc0 : ∀ j, 0 ≤ c j := fun j => ge_of_tendsto' (hc j) (hρ0 j)
  have hZ : 0 < ∑ k, w k * c k :=
    lt_of_lt_of_le (by rw [hci, mul_one]; exact hwi : 0 < w i * c i)
      (Finset.single_le_sum (f := fun k => w k * c k) (fun k _ => mul_nonneg (h.nonneg k) (hc0 k))
        (Finset.mem_univ i))
  have hwt : ∀ t, (feed cfg env check (firstData D t v) s).1.weights =
      List.ofFn fun j => w j * ρ j t / ∑ k, w k * ρ k t := by
    intro t
    rw [(h.weight D t v (hok t)).1]
    congr 1
    funext j
    have hL : ∏ r ∈ Finset.range t, env.likelihood (D r v).1 (x i) (D r v).2 ≠ 0 :=
      (Finset.prod_pos fun r _ => hpos r).ne'
    have hmul : ∀ k, w k * ρ k t = w k * (∏ r ∈ Finset.range t, env.likelihood (D r v).1 (x k) (D r v).2) /
        ∏ r ∈ Finset.range t, env.likelihood (D r v).1 (x i) (D r v).2 := fun k => by
      rw [hρ]
      simp only [Finset.prod_div_distrib]
      rw [mul_div_assoc]
    simp only [hmul]
    rw [← Finset.sum_div, div_div_div_cancel_right₀ hL]
  have hsum : Tendsto (fun t => ∑ k, w k * ρ k t) atTop (𝓝 (∑ k, w k * c k)) :=
    tendsto_finsetSum _ fun k _ => (hc k).const_mul _
  have hw : ∀ j, Tendsto (fun t => w j * ρ j t / ∑ k, w k * ρ k t) atTop
      (𝓝 (w j * c j / ∑ k, w k * c k)) := fun j => ((hc j).const_mul _).div hsum hZ.ne'
  refine ⟨fun j => w j * c j / ∑ k, w k * c k, ?_, ?_, fun j => ?_, fun j hj => ?_, fun f => ?_⟩
  · dsimp only
    rw [hci, mul_one]; exact div_pos hwi hZ
  · rw [← Finset.sum_div, div_self hZ.ne']
  · refine (hw j).congr fun t => ?_
    rw [hwt t]; simp
  · refine hcj j fun h0 => hj ?_
    simp only [h0, mul_zero, zero_div]
  · have hcm : ∀ t, cloudMean f (feed cfg env check (firstData D t v) s).1 =
        ∑ j, w j * ρ j t / (∑ k, w k * ρ k t) * f (x j) := fun t => by
      rw [cloudMean, hwt t, (h.weight D t v (hok t)).2, zip_ofFn, List.map_ofFn, List.sum_ofFn]
      rfl
    simp only [hcm]
    exact tendsto_finsetSum _ fun j _ => (hw j).mul_const _

/-- **C147, learning.**  If moreover every other particle with weight predicts something else in some
experiment that is repeated for ever, the weight of the truth tends to one and every estimated mean to its
true value. -/
theorem C147_learns (h : Resting cfg env check w x s) (i : Fin n) (hwi : 0 < w i)
    (hD : AdaptiveData P env.likelihood (x i) D) (hone : ∀ k e, ∑ o, env.likelihood o (x k) e = 1) :
    ∀ᵐ v ∂P, (∀ t, (feed cfg env check (firstData D t v) s).2 = .ok ()) →
      (∀ j, j ≠ i → ∃ o e, (∃ᶠ t in atTop, (D t v).2 = e) ∧ env.likelihood o (x j) e ≠ env.likelihood o (x i) e) →
      Tendsto (fun t => (feed cfg env check (firstData D t v) s).1.weights.getD i 0) atTop (𝓝 1) ∧
        ∀ f : List ℝ → ℝ, Tendsto (fun t => cloudMean f (feed cfg env check (firstData D t v) s).1) atTop
          (𝓝 (f (x i))) := by
  filter_upwards [C147_limits h i hwi hD hone] with v hv hok hdiff
  obtain ⟨W, -, hsum, hw, hne, hf⟩ := hv hok
  have h0 : ∀ j, j ≠ i → W j = 0 := fun j hj => by
    by_contra hW
    obtain ⟨o, e, he, hoe⟩ := hdiff j hj
    exact hoe (hne j hW e he o)
  have hi : W i = 1 := by
    rw [← hsum, Finset.sum_eq_single i (fun j _ hj => h0 j hj) (by simp)]
  refine ⟨hi ▸ hw i, fun f => ?_⟩
  have := hf f
  rwa [Finset.sum_eq_single i (fun j _ hj => by rw [h0 j hj, zero_mul]) (by simp), hi, one_mul] at this

/-- **C147, leaders.**  If again and again the experiment tells the two particles of largest weight from each
other, the weight of the truth tends to one and every estimated mean to its true value. -/
theorem C147_leaders (h : Resting cfg env check w x s) (i : Fin n) (hwi : 0 < w i)
    (hD : AdaptiveData P env.likelihood (x i) D) (hone : ∀ k e, ∑ o, env.likelihood o (x k) e = 1) :
    ∀ᵐ v ∂P, (∀ t, (feed cfg env check (firstData D t v) s).2 = .ok ()) →
      (∃ᶠ t in atTop, ∃ j k : Fin n, j ≠ k ∧
        (∀ l : Fin n, l ≠ j → l ≠ k →
          (feed cfg env check (firstData D t v) s).1.weights.getD l 0 ≤
            (feed cfg env check (firstData D t v) s).1.weights.getD j 0 ∧
          (feed cfg env check (firstData D t v) s).1.weights.getD l 0 ≤
            (feed cfg env check (firstData D t v) s).1.weights.getD k 0) ∧
        ∃ o, env.likelihood o (x j) (D t v).2 ≠ env.likelihood o (x k) (D t v).2) →
      Tendsto (fun t => (feed cfg env check (firstData D t v) s).1.weights.getD i 0) atTop (𝓝 1) ∧
        ∀ f : List ℝ → ℝ, Tendsto (fun t => cloudMean f (feed cfg env check (firstData D t v) s).1) atTop
          (𝓝 (f (x i))) := by
  filter_upwards [C147_limits h i hwi hD hone] with v hv hok hlead
  obtain ⟨W, hWi, hsum, hw, hne, hf⟩ := hv hok
  have h0 : ∀ j, j ≠ i → W j = 0 := fun j0 hj0 => by
    by_contra hW
    have hfix : ∃ j k : Fin n, ∃ e : E, ∃ᶠ t in atTop, (j ≠ k ∧
        (∀ l : Fin n, l ≠ j → l ≠ k →
          (feed cfg env check (firstData D t v) s).1.weights.getD l 0 ≤
            (feed cfg env check (firstData D t v) s).1.weights.getD j 0 ∧
          (feed cfg env check (firstData D t v) s).1.weights.getD l 0 ≤
            (feed cfg env check (firstData D t v) s).1.weights.getD k 0) ∧
        ∃ o, env.likelihood o (x j) (D t v).2 ≠ env.likelihood o (x k) (D t v).2) ∧ (D t v).2 = e := by
      by_contra hno
      have hno' : ∀ q : Fin n × Fin n × E, ∀ᶠ t in atTop, ¬((q.1 ≠ q.2.1 ∧
          (∀ l : Fin n, l ≠ q.1 → l ≠ q.2.1 →
            (feed cfg env check (firstData D t v) s).1.weights.getD l 0 ≤
              (feed cfg env check (firstData D t v) s).1.weights.getD q.1 0 ∧
            (feed cfg env check (firstData D t v) s).1.weights.getD l 0 ≤
              (feed cfg env check (firstData D t v) s).1.weights.getD q.2.1 0) ∧
          ∃ o, env.likelihood o (x q.1) (D t v).2 ≠ env.likelihood o (x q.2.1) (D t v).2) ∧
            (D t v).2 = q.2.2) := fun q => by
        rw [← not_frequently]
        exact fun hq => hno ⟨q.1, q.2.1, q.2.2, hq⟩
      obtain ⟨t, ⟨j, k, hjk⟩, ht⟩ := (hlead.and_eventually (eventually_all.2 hno')).exists
      exact ht (j, k, (D t v).2) ⟨hjk, rfl⟩
    obtain ⟨j, k, e, hjk⟩ := hfix
    have hW0 : ∀ l, 0 ≤ W l := fun l => by
      refine ge_of_tendsto' (hw l) fun t => ?_
      rw [(h.weight D t v (hok t)).1]
      simp only [List.getD_eq_getElem?_getD, List.getElem?_ofFn, Fin.is_lt, dite_true, Option.getD_some]
      exact div_nonneg (mul_nonneg (h.nonneg _) (Finset.prod_nonneg fun r _ => h.good.like_nonneg _ _ _))
        (Finset.sum_nonneg fun k _ => mul_nonneg (h.nonneg _)
          (Finset.prod_nonneg fun r _ => h.good.like_nonneg _ _ _))
    have hle : ∀ l m : Fin n, (∃ᶠ t in atTop, (feed cfg env check (firstData D t v) s).1.weights.getD l 0 ≤
        (feed cfg env check (firstData D t v) s).1.weights.getD m 0) → W l ≤ W m := fun l m hlm => by
      by_contra hlt
      push Not at hlt
      obtain ⟨t, h1, h2⟩ := (hlm.and_eventually ((hw m).eventually_lt (hw l) hlt)).exists
      exact absurd h1 (not_le.2 h2)
    have hkeep : ∀ m m' : Fin n, (∀ l, l ≠ m → l ≠ m' → W l ≤ W m) → W m ≠ 0 := by
      intro m m' hm hm0
      have hl : ∃ l, l ≠ m' ∧ W l ≠ 0 := by
        by_cases hi : i = m'
        · exact ⟨j0, fun hh => hj0 (hh.trans hi.symm), hW⟩
        · exact ⟨i, hi, hWi.ne'⟩
      obtain ⟨l, hl1, hl2⟩ := hl
      by_cases hlm : l = m
      · exact hl2 (hlm ▸ hm0)
      · have := hm l hlm hl1
        rw [hm0] at this
        exact hl2 (le_antisymm this (hW0 l))
    have hj : W j ≠ 0 := hkeep j k fun l h1 h2 => hle l j (hjk.mono fun t ht => (ht.1.2.1 l h1 h2).1)
    have hk : W k ≠ 0 := hkeep k j fun l h1 h2 => hle l k (hjk.mono fun t ht => (ht.1.2.1 l h2 h1).2)
    have he : ∃ᶠ t in atTop, (D t v).2 = e := hjk.mono fun t ht => ht.2
    obtain ⟨t, ⟨-, -, o, ho⟩, ht⟩ := hjk.exists
    rw [ht] at ho
    exact ho ((hne j hj e he o).trans (hne k hk e he o).symm)
  have hi : W i = 1 := by
    rw [← hsum, Finset.sum_eq_single i (fun j _ hj => h0 j hj) (by simp)]
  refine ⟨hi ▸ hw i, fun f => ?_⟩
  have := hf f
  rwa [Finset.sum_eq_single i (fun j _ hj => by rw [h0 j hj, zero_mul]) (by simp), hi, one_mul] at this

/-- A loop of the updater and an experimenter: the heuristic sees the updater after the data so far and a
fresh variate; the outcome comes from the parameters `y` by another variate. -/
noncomputable def Spec.closedLoop (cfg : SmcConfig ℝ) (env : Env ℝ O E R) (check : Bool) (s : Smc ℝ O R)
    (heur : Smc ℝ O R → U → E) (out : E → U' → O) (h : List (O × E)) (u : U × U') : O × E :=
  (out (heur (feed cfg env check h s).1 u.1) u.2, heur (feed cfg env check h s).1 u.1)

/-- **C147, the loop.**  An updater whose experiments are chosen by any heuristic that looks at the updater
and uses randomness of its own, with outcomes drawn from the parameters `y`, gets adaptive data. -/
theorem C147_loop (heur : Smc ℝ O R → U → E) (hheur : ∀ s, Measurable (heur s)) (out : E → U' → O)
    (hout : ∀ e, Measurable (out e)) {ν : Measure U} [IsProbabilityMeasure ν] {ν' : Measure U'}
    [IsProbabilityMeasure ν'] (y : List ℝ)
    (hl : ∀ e o, ν'.real {u | out e u = o} = env.likelihood o y e) :
    AdaptiveData (Measure.infinitePi fun _ : ℕ => ν.prod ν') env.likelihood y
      (played (closedLoop cfg env check s heur out)) := by
  classical
  refine C146_rules (fun h => ?_) env.likelihood y (fun h o e => ?_)
  · refine Measurable.prodMk ?_ ((hheur _).comp measurable_fst)
    have : Measurable fun q : E × U' => out q.1 q.2 := measurable_from_prod_countable_right fun e => hout e
    exact this.comp (((hheur _).comp measurable_fst).prodMk measurable_snd)
  · have e1 : {u : U × U' | closedLoop cfg env check s heur out h u = (o, e)} =
        {u | heur (feed cfg env check h s).1 u = e} ×ˢ {u | out e u = o} := by
      ext u
      simp only [closedLoop, Prod.mk.injEq, Set.mem_prod, Set.mem_ofPred_eq]
      constructor
      · rintro ⟨h1, h2⟩; exact ⟨h2, by rw [← h2]; exact h1⟩
      · rintro ⟨h1, h2⟩; exact ⟨by rw [h1]; exact h2, h1⟩
    have e2 : {u : U × U' | (closedLoop cfg env check s heur out h u).2 = e} =
        {u | heur (feed cfg env check h s).1 u = e} ×ˢ Set.univ := by
      ext u
      simp [closedLoop]
    rw [e1, e2, measureReal_prod_prod, measureReal_prod_prod, hl, probReal_univ]
    ring

end

/-! ### A case: asking after the leader -/

/-- Two outcomes; the chance of the first is `1/4 + q/2`. -/
noncomputable def softEnv (q : List ℝ → E → unitInterval) (xs : List (List ℝ)) : Env ℝ Bool E Unit where
  likelihood o x e := 1 / 4 + (if o then (q x e : ℝ) else 1 - q x e) / 2
  timestep r l _ := (l, r)
  canon l := l
  clearCacheRaises := false
  prior r n := ((xs ++ List.replicate n []).take n, r)
  resampler r w l := (.ok (w, l), r)
  kl _ _ _ _ := 0

omit [MeasurableSpace E] in
theorem soft_bound (q : List ℝ → E → unitInterval) (xs : List (List ℝ)) (o : Bool) (x : List ℝ) (e : E) :
    1 / 4 ≤ (softEnv q xs).likelihood o x e := by
  have h0 := (q x e).2.1
  have h1 := (q x e).2.2
  cases o <;> simp only [softEnv, if_true, Bool.false_eq_true, if_false] <;> linarith

omit [MeasurableSpace E] in
theorem soft_sum (q : List ℝ → E → unitInterval) (xs : List (List ℝ)) (x : List ℝ) (e : E) :
    ∑ o, (softEnv q xs).likelihood o x e = 1 := by
  simp [softEnv]
  ring

omit [MeasurableSpace E] in
theorem soft_resting (check : Bool) (q : List ℝ → E → unitInterval) (x : Fin 3 → List ℝ) :
    Resting phaseCfg (softEnv q (List.ofFn x)) check (fun _ : Fin 3 => 1 / 3) x
      (construct phaseCfg (softEnv q (List.ofFn x)) 3 false ()).1 where
  good :=
    { like_nonneg := fun o y e => le_trans (by norm_num) (soft_bound q _ o y e)
      prior_len := fun r n => by simp [softEnv]; omega
      canon_len := fun l => rfl
      timestep_len := fun r l e => rfl
      resampler_ok := fun r w l w' l' hw hl h => by
        simp only [softEnv, Except.ok.injEq, Prod.mk.injEq] at h
        obtain ⟨rfl, rfl⟩ := h
        exact ⟨hw, hl⟩ }
  static r l e := rfl
  off := Or.inr le_rfl
  policy := rfl
  thresh := by
    have hε : (eps : ℝ) ≤ 1 / 40 := by unfold eps; norm_num
    exact ⟨by show (eps : ℝ) ≤ 10 * eps; linarith [eps_pos (K := ℝ)],
      by show 10 * (eps : ℝ) < 1; linarith⟩
  nonneg _ := by norm_num
  sum := by norm_num
  weights := by simp [construct, reset, softEnv, phaseCfg, List.replicate]
  locs := by simp [construct, reset, softEnv, phaseCfg]

theorem soft_accepted (check : Bool) (q : List ℝ → E → unitInterval) (x : Fin 3 → List ℝ) (ds : List (Bool × E)) :
    (feed phaseCfg (softEnv q (List.ofFn x)) check ds
      (construct phaseCfg (softEnv q (List.ofFn x)) 3 false ()).1).2 = .ok () := by
  refine C106_accepted (soft_resting check q x) _ fun d _ i => ?_
  have hε : (eps : ℝ) ≤ 1 / 40 := by unfold eps; norm_num
  exact le_trans (by linarith) (soft_bound q _ d.1 (x i) d.2)

/-- The outcome from a variate. -/
noncomputable def softOut (q : List ℝ → E → unitInterval) (y : List ℝ) (e : E) (u : unitInterval) : Bool :=
  decide (u.1 < 1 / 4 + (q y e : ℝ) / 2)

omit [MeasurableSpace E] in
theorem softOut_meas (q : List ℝ → E → unitInterval) (y : List ℝ) (e : E) : Measurable (softOut q y e) := by
  refine measurable_to_bool ?_
  have : softOut q y e ⁻¹' {true} = {u : unitInterval | u.1 < 1 / 4 + (q y e : ℝ) / 2} := by
    ext u; simp [softOut]
  rw [this]
  exact measurableSet_lt measurable_subtype_coe measurable_const

omit [MeasurableSpace E] in
theorem softOut_law (q : List ℝ → E → unitInterval) (xs : List (List ℝ)) (y : List ℝ) (e : E) (o : Bool) :
    (volume : Measure unitInterval).real {u | softOut q y e u = o} = (softEnv q xs).likelihood o y e := by
  have h0 := (q y e).2.1
  have h1 := (q y e).2.2
  have hm : MeasurableSet {u : unitInterval | u.1 < 1 / 4 + (q y e : ℝ) / 2} :=
    measurableSet_lt measurable_subtype_coe measurable_const
  have hv := volume_below (1 / 4 + (q y e : ℝ) / 2) (by linarith) (by linarith)
  cases o
  · have hc := probReal_compl_eq_one_sub (μ := (volume : Measure unitInterval)) hm
    rw [hv] at hc
    have : {u | softOut q y e u = false} = {u : unitInterval | u.1 < 1 / 4 + (q y e : ℝ) / 2}ᶜ := by
      ext u; simp [softOut]
    rw [this, hc]
    simp only [softEnv, Bool.false_eq_true, if_false]
    ring
  · have : {u | softOut q y e u = true} = {u : unitInterval | u.1 < 1 / 4 + (q y e : ℝ) / 2} := by
      ext u; simp [softOut]
    rw [this, hv]
    simp only [softEnv, if_true]

/-- Three parameters; experiment `e` asks whether the parameter is `e`. -/
noncomputable def askLocs (i : Fin 3) : List ℝ := [(i.val : ℝ)]

noncomputable def askChance (x : List ℝ) (e : Fin 3) : unitInterval := if x.getD 0 0 = e.val then 1 else 0

/-- Ask after the particle of largest weight. -/
noncomputable def askLeader (s : Smc ℝ Bool Unit) : Fin 3 :=
  if s.weights.getD 1 0 ≤ s.weights.getD 0 0 ∧ s.weights.getD 2 0 ≤ s.weights.getD 0 0 then 0
  else if s.weights.getD 2 0 ≤ s.weights.getD 1 0 then 1 else 2

theorem askLeader_max (s : Smc ℝ Bool Unit) (l : Fin 3) :
    s.weights.getD l 0 ≤ s.weights.getD (askLeader s) 0 := by
  have h : ∀ a b c : ℝ, ∀ l : Fin 3, (![a, b, c] l : ℝ) ≤
      ![a, b, c] (if b ≤ a ∧ c ≤ a then 0 else if c ≤ b then 1 else 2) := by
    intro a b c l
    by_cases h1 : b ≤ a ∧ c ≤ a
    · rw [if_pos h1]; fin_cases l <;> simp [h1.1, h1.2]
    · rw [if_neg h1]
      rw [not_and_or, not_le, not_le] at h1
      by_cases h2 : c ≤ b
      · rw [if_pos h2]; fin_cases l <;> simp [h2]
        rcases h1 with h1 | h1 <;> linarith
      · rw [if_neg h2]
        rw [not_le] at h2
        fin_cases l <;> simp [h2.le]
        rcases h1 with h1 | h1 <;> linarith
  have e : ∀ l : Fin 3, s.weights.getD l 0 =
      (![s.weights.getD 0 0, s.weights.getD 1 0, s.weights.getD 2 0] l : ℝ) := fun l => by
    fin_cases l <;> rfl
  rw [e l, e (askLeader s)]
  exact h _ _ _ l

/-- Case for C147: an updater that asks after its leading particle finds the truth. -/
example (i : Fin 3) : ∀ᵐ v ∂(Measure.infinitePi fun _ : ℕ =>
      (Measure.dirac () : Measure Unit).prod (volume : Measure unitInterval)),
    Tendsto (fun t => (feed phaseCfg (softEnv askChance (List.ofFn askLocs)) true
        (firstData (played (closedLoop phaseCfg (softEnv askChance (List.ofFn askLocs)) true
          (construct phaseCfg (softEnv askChance (List.ofFn askLocs)) 3 false ()).1
          (fun s _ => askLeader s) (softOut askChance (askLocs i)))) t v)
        (construct phaseCfg (softEnv askChance (List.ofFn askLocs)) 3 false ()).1).1.weights.getD i 0)
      atTop (𝓝 1) := by
  have hl := C147_leaders (soft_resting true askChance askLocs) i (by norm_num)
    (C147_loop (cfg := phaseCfg) (check := true)
      (s := (construct phaseCfg (softEnv askChance (List.ofFn askLocs)) 3 false ()).1)
      (ν := Measure.dirac ()) (ν' := volume) (fun s _ => askLeader s) (fun s => measurable_const)
      (softOut askChance (askLocs i)) (softOut_meas _ _) (askLocs i) (fun e o => softOut_law _ _ _ e o))
    (fun k e => soft_sum _ _ _ e)
  filter_upwards [hl] with v hv
  refine (hv (fun t => soft_accepted _ _ _ _) (Frequently.of_forall fun t => ?_)).1
  obtain ⟨u, hu⟩ : ∃ u, u = (feed phaseCfg (softEnv askChance (List.ofFn askLocs)) true
        (firstData (played (closedLoop phaseCfg (softEnv askChance (List.ofFn askLocs)) true
          (construct phaseCfg (softEnv askChance (List.ofFn askLocs)) 3 false ()).1
          (fun s _ => askLeader s) (softOut askChance (askLocs i)))) t v)
        (construct phaseCfg (softEnv askChance (List.ofFn askLocs)) 3 false ()).1).1 := ⟨_, rfl⟩
  have he : (played (closedLoop phaseCfg (softEnv askChance (List.ofFn askLocs)) true
          (construct phaseCfg (softEnv askChance (List.ofFn askLocs)) 3 false ()).1
          (fun s _ => askLeader s) (softOut askChance (askLocs i))) t v).2 = askLeader u := by
    rw [hu, firstData, ← play_eq]
    rfl
  rw [he, ← hu]
  have hk : ∃ k : Fin 3, k ≠ askLeader u ∧ ∀ l : Fin 3, l ≠ askLeader u → l ≠ k →
      u.weights.getD l 0 ≤ u.weights.getD k 0 := by
    obtain ⟨k, hk, hmax⟩ := Finset.exists_max_image (Finset.univ.erase (askLeader u))
      (fun l : Fin 3 => u.weights.getD l 0) (by
        rw [← Finset.card_pos, Finset.card_erase_of_mem (Finset.mem_univ _)]; simp)
    exact ⟨k, Finset.ne_of_mem_erase hk, fun l h1 _ => hmax l (Finset.mem_erase.2 ⟨h1, Finset.mem_univ _⟩)⟩
  obtain ⟨k, hk, hmax⟩ := hk
  refine ⟨askLeader u, k, hk.symm, fun l h1 h2 => ⟨askLeader_max u l, hmax l h1 h2⟩, true, ?_⟩
  have hne : (k.val : ℝ) ≠ (askLeader u).val := fun hh => hk (Fin.ext (by exact_mod_cast hh))
  simp only [softEnv, askChance, askLocs, List.getD_cons_zero, if_true, if_neg hne]
  norm_num

end QInfer
