import Verif.Props.Unbiased
import Mathlib.Probability.Independence.Integration

/-!
# C111: resampled clouds converge
-/

namespace QInfer

open Spec MeasureTheory ProbabilityTheory

/-- Second moment of the mean of pairwise independent bounded variables. -/
theorem mean_second {Ω : Type*} [MeasurableSpace Ω] (P : Measure Ω) [IsProbabilityMeasure P] {n : ℕ}
    (hn : n ≠ 0) (Y : Fin n → Ω → ℝ) (hm : ∀ k, Measurable (Y k)) {C : ℝ} (hC : ∀ k ω, |Y k ω| ≤ C)
    (μ : ℝ) (hμ : ∀ k, ∫ ω, Y k ω ∂P = μ) (hi : ∀ k l, k ≠ l → IndepFun (Y k) (Y l) P) :
    Integrable (fun ω => (∑ k, 1 / (n : ℝ) * Y k ω) ^ 2) P ∧
    ∫ ω, (∑ k, 1 / (n : ℝ) * Y k ω) ^ 2 ∂P ≤ μ ^ 2 + C ^ 2 / n := by
  have hn0 : (n : ℝ) ≠ 0 := Nat.cast_ne_zero.2 hn
  have hfun : (fun ω => (∑ k, 1 / (n : ℝ) * Y k ω) ^ 2) =
      fun ω => ∑ k, ∑ l, (1 / (n : ℝ)) ^ 2 * (Y k ω * Y l ω) := by
    funext ω
    rw [pow_two, Finset.sum_mul_sum]
    refine Finset.sum_congr rfl fun k _ => Finset.sum_congr rfl fun l _ => by ring
  have hsq : ∀ k l ω, |Y k ω * Y l ω| ≤ C ^ 2 := fun k l ω => by
    rw [abs_mul, pow_two]
    exact mul_le_mul (hC k ω) (hC l ω) (abs_nonneg _) ((abs_nonneg _).trans (hC k ω))
  have hint : ∀ k l, Integrable (fun ω => Y k ω * Y l ω) P := fun k l =>
    Integrable.of_bound ((hm k).mul (hm l)).aestronglyMeasurable (C ^ 2)
      (Filter.Eventually.of_forall fun ω => by rw [Real.norm_eq_abs]; exact hsq k l ω)
  rw [hfun]
  refine ⟨integrable_finsetSum _ fun k _ => integrable_finsetSum _ fun l _ => (hint k l).const_mul _, ?_⟩
  rw [integral_finsetSum _ fun k _ => integrable_finsetSum _ fun l _ => (hint k l).const_mul _]
  have hterm : ∀ k l, ∫ ω, (1 / (n : ℝ)) ^ 2 * (Y k ω * Y l ω) ∂P ≤
      (1 / (n : ℝ)) ^ 2 * (μ ^ 2 + if k = l then C ^ 2 else 0) := by
    intro k l
    rw [integral_const_mul]
    refine mul_le_mul_of_nonneg_left ?_ (by positivity)
    split
    · have : ∫ ω, Y k ω * Y l ω ∂P ≤ ∫ _, C ^ 2 ∂P := integral_mono (hint k l) (integrable_const _)
        fun ω => (le_abs_self _).trans (hsq k l ω)
      rw [integral_const] at this
      simp only [probReal_univ, one_smul] at this
      linarith [sq_nonneg μ]
    · rename_i hkl
      rw [(hi k l hkl).integral_fun_mul_eq_mul_integral (hm k).aestronglyMeasurable
        (hm l).aestronglyMeasurable]
      rw [hμ k, hμ l]
      exact le_of_eq (by ring)
  calc _ = ∑ k, ∑ l, ∫ ω, (1 / (n : ℝ)) ^ 2 * (Y k ω * Y l ω) ∂P := by
        refine Finset.sum_congr rfl fun k _ => ?_
        rw [integral_finsetSum _ fun l _ => (hint k l).const_mul _]
    _ ≤ ∑ k : Fin n, ∑ l : Fin n, (1 / (n : ℝ)) ^ 2 * (μ ^ 2 + if k = l then C ^ 2 else 0) :=
        Finset.sum_le_sum fun k _ => Finset.sum_le_sum fun l _ => hterm k l
    _ = _ := by
        simp only [mul_add, Finset.sum_add_distrib, Finset.sum_const, Finset.card_univ, Fintype.card_fin,
          nsmul_eq_mul, mul_ite, mul_zero, Finset.sum_ite_eq, Finset.mem_univ, if_true]
        field_simp

section run

variable {O E : Type*} {n : ℕ}

theorem pathValue_abs (like : O → List ℝ → E → ℝ) (step : E → List ℝ → List ℝ) (f : List ℝ → ℝ) {C : ℝ}
    (hf : ∀ x, |f x| ≤ C) (ds : List (O × E)) (hL : ∀ d ∈ ds, ∀ x, 0 < like d.1 x d.2)
    (hL1 : ∀ d ∈ ds, ∀ x, like d.1 x d.2 ≤ 1) (x : List ℝ) : |pathValue like step f ds x| ≤ C := by
  induction ds generalizing x with
  | nil => exact hf x
  | cons d ds ih =>
    have h1 := ih (fun d hd => hL d (List.mem_cons_of_mem _ hd))
      (fun d hd => hL1 d (List.mem_cons_of_mem _ hd)) (step d.2 x)
    rw [pathValue, abs_mul, abs_of_pos (hL d List.mem_cons_self x)]
    exact (mul_le_of_le_one_left (abs_nonneg _) (hL1 d List.mem_cons_self x)).trans h1

/-- One draw of the parents. -/
theorem draw_second (w : Fin n → ℝ) (hw : ∀ i, 0 ≤ w i) (hs : ∑ i, w i = 1) (g : Fin n → ℝ) {C : ℝ}
    (hg : ∀ i, |g i| ≤ C) :
    Integrable (fun u : Fin n → Unit01 => (∑ k, 1 / (n : ℝ) * g (parent w (pos_of_sum hs) (u k))) ^ 2)
      (drawLaw n) ∧
    ∫ u : Fin n → Unit01, (∑ k, 1 / (n : ℝ) * g (parent w (pos_of_sum hs) (u k))) ^ 2 ∂(drawLaw n) ≤
      (∑ i, w i * g i) ^ 2 + C ^ 2 / n := by
  have hn := pos_of_sum hs
  have hmg : Measurable fun u : Unit01 => g (parent w hn u) :=
    (measurable_of_finite g).comp ((measurable_parent w hn).comp measurable_subtype_coe)
  refine mean_second (drawLaw n) hn.ne' (fun k u => g (parent w hn (u k)))
    (fun k => hmg.comp (measurable_pi_apply k)) (fun k u => hg _) _ (fun k => ?_) fun k l hkl => ?_
  · rw [← parent_average w hw hs g]
    have := (measurePreserving_eval (fun _ : Fin n => uniform01) k).map_eq
    conv_rhs => rw [← this]
    rw [integral_map (measurable_pi_apply k).aemeasurable hmg.aestronglyMeasurable]
    rfl
  · exact (iIndepFun_pi (μ := fun _ : Fin n => uniform01) (X := fun _ u => g (parent w hn u))
      fun _ => hmg.aemeasurable).indepFun hkl

/-- The second moment of `bootVal`. -/
theorem bootVal_second (thresh : ℝ) (check : Bool) (like : O → List ℝ → E → ℝ)
    (step : E → List ℝ → List ℝ) (f : List ℝ → ℝ) {C : ℝ} (hf : ∀ x, |f x| ≤ C) (ds : List (O × E))
    (hL : ∀ d ∈ ds, ∀ x, 0 < like d.1 x d.2) (hL1 : ∀ d ∈ ds, ∀ x, like d.1 x d.2 ≤ 1)
    (m : ℕ) (hm : ds.length ≤ m) (w : Fin n → ℝ)
    (hw : ∀ i, 0 ≤ w i) (hs : ∑ i, w i = 1) (x : Fin n → List ℝ) :
    Integrable (fun v => bootVal thresh check like step f (pos_of_sum hs) ds m w x v ^ 2) (stockLaw m n) ∧
    ∫ v, bootVal thresh check like step f (pos_of_sum hs) ds m w x v ^ 2 ∂(stockLaw m n) ≤
      (∑ i, w i * pathValue like step f ds (x i)) ^ 2 + ds.length * C ^ 2 / n := by
  induction ds generalizing m w x with
  | nil =>
    refine ⟨?_, ?_⟩
    · simp only [bootVal]; exact integrable_const _
    · simp [bootVal, pathValue]
  | cons d ds ih =>
    simp only [List.length_cons] at hm
    obtain ⟨m, rfl⟩ : ∃ m', m = m' + 1 := ⟨m - 1, by omega⟩
    have hn := pos_of_sum hs
    have hn0 : (n : ℝ) ≠ 0 := Nat.cast_ne_zero.2 hn.ne'
    have hL' : ∀ d ∈ ds, ∀ x, 0 < like d.1 x d.2 := fun d hd => hL d (List.mem_cons_of_mem _ hd)
    have hL1' : ∀ d ∈ ds, ∀ x, like d.1 x d.2 ≤ 1 := fun d hd => hL1 d (List.mem_cons_of_mem _ hd)
    set Z := ∑ j, w j * like d.1 (x j) d.2 with hZ
    have hlike : ∀ y, 0 < like d.1 y d.2 := hL d List.mem_cons_self
    have hZ0 : 0 < Z := by
      obtain ⟨i, -, hi⟩ : ∃ i ∈ Finset.univ, 0 < w i := by
        apply Finset.exists_lt_of_sum_lt (f := fun _ => (0 : ℝ))
        rw [hs]; simp
      exact lt_of_lt_of_le (mul_pos hi (hlike _)) (Finset.single_le_sum
        (f := fun j => w j * like d.1 (x j) d.2)
        (fun j _ => mul_nonneg (hw j) (hlike _).le) (Finset.mem_univ i))
    have hZ1 : Z ≤ 1 := by
      rw [← hs]
      exact Finset.sum_le_sum fun j _ => mul_le_of_le_one_right (hw j) (hL1 d List.mem_cons_self _)
    have hZ2 : Z ^ 2 ≤ 1 := pow_le_one₀ hZ0.le hZ1
    set w' : Fin n → ℝ := fun i => w i * like d.1 (x i) d.2 / Z with hw'd
    have hw' : ∀ i, 0 ≤ w' i := fun i => div_nonneg (mul_nonneg (hw i) (hlike _).le) hZ0.le
    have hs' : ∑ i, w' i = 1 := by
      rw [hw'd, ← Finset.sum_div]; exact div_self hZ0.ne'
    have hgoal : Z * ∑ i, w' i * pathValue like step f ds (step d.2 (x i)) =
        ∑ i, w i * pathValue like step f (d :: ds) (x i) := by
      rw [Finset.mul_sum]
      refine Finset.sum_congr rfl fun i _ => ?_
      rw [pathValue, hw'd]
      field_simp
    have hbound : ∀ I : ℝ, I ≤ (∑ i, w' i * pathValue like step f ds (step d.2 (x i))) ^ 2 +
        (ds.length + 1 : ℝ) * C ^ 2 / n → Z ^ 2 * I ≤
        (∑ i, w i * pathValue like step f (d :: ds) (x i)) ^ 2 + ((d :: ds).length : ℝ) * C ^ 2 / n := by
      intro I hI
      rw [← hgoal, mul_pow, List.length_cons, Nat.cast_succ]
      have h0 : 0 ≤ (ds.length + 1 : ℝ) * C ^ 2 / n := by positivity
      calc Z ^ 2 * I ≤ Z ^ 2 * ((∑ i, w' i * pathValue like step f ds (step d.2 (x i))) ^ 2 +
            (ds.length + 1 : ℝ) * C ^ 2 / n) := mul_le_mul_of_nonneg_left hI (by positivity)
        _ ≤ _ := by
          rw [mul_add]
          exact add_le_add le_rfl (mul_le_of_le_one_left h0 hZ2)
    by_cases hc : check = true ∧ nEss (List.ofFn w') < (((n : ℝ) * thresh : ℝ) : WithTop ℝ)
    · have hform : (fun v => bootVal thresh check like step f (pos_of_sum hs) (d :: ds) (m + 1) w x v ^ 2) =
          fun v : Fin (m + 1) → Fin n → Unit01 =>
            Z ^ 2 * bootVal thresh check like step f hn ds m (fun _ => 1 / (n : ℝ))
              (fun k => step d.2 (x (parent w' hn (v 0 k)))) (Fin.tail v) ^ 2 := by
        funext v
        simp only [bootVal]
        rw [if_pos hc, mul_pow]
      rw [hform]
      have hih := fun J : Fin n → Fin n => ih hL' hL1' m (by omega) (fun _ => 1 / (n : ℝ))
        (fun _ => by positivity) (by simp [hn0]) fun k => step d.2 (x (J k))
      obtain ⟨s1, s2⟩ := stock_average m (Fin n → Fin n) (fun u k => parent w' hn (u k))
        (measurable_pi_lambda _ fun k => ((measurable_parent w' hn).comp measurable_subtype_coe).comp
          (measurable_pi_apply k))
        (fun J v => bootVal thresh check like step f hn ds m (fun _ => 1 / (n : ℝ))
            (fun k => step d.2 (x (J k))) v ^ 2)
        (fun J => (hih J).1)
      refine ⟨s1.const_mul (Z ^ 2), ?_⟩
      rw [integral_const_mul, s2]
      apply hbound
      obtain ⟨d1, d2⟩ := draw_second w' hw' hs' (fun i => pathValue like step f ds (step d.2 (x i)))
        fun i => pathValue_abs like step f hf ds hL' hL1' _
      have hmono := integral_mono_of_nonneg (μ := drawLaw n)
        (f := fun u => ∫ v, bootVal thresh check like step f hn ds m (fun _ => 1 / (n : ℝ))
            (fun k => step d.2 (x (parent w' hn (u k)))) v ^ 2 ∂(stockLaw m n))
        (Filter.Eventually.of_forall fun u => integral_nonneg fun v => sq_nonneg _)
        (d1.add (integrable_const ((ds.length : ℝ) * C ^ 2 / n)))
        (Filter.Eventually.of_forall fun u => (hih fun k => parent w' hn (u k)).2)
      refine hmono.trans ?_
      simp only [Pi.add_apply]
      rw [integral_add d1 (integrable_const _), integral_const]
      simp only [probReal_univ, one_smul]
      calc _ ≤ _ := add_le_add d2 le_rfl
        _ = _ := by ring
    · have hform : (fun v => bootVal thresh check like step f (pos_of_sum hs) (d :: ds) (m + 1) w x v ^ 2) =
          fun v => Z ^ 2 * bootVal thresh check like step f hn ds (m + 1) w' (fun i => step d.2 (x i)) v ^ 2 := by
        funext v
        simp only [bootVal]
        rw [if_neg hc, mul_pow]
      obtain ⟨i1, i2⟩ := ih hL' hL1' (m + 1) (by omega) w' hw' hs' fun i => step d.2 (x i)
      rw [hform]
      refine ⟨i1.const_mul (Z ^ 2), ?_⟩
      rw [integral_const_mul]
      apply hbound
      refine i2.trans (add_le_add le_rfl ?_)
      have : (0 : ℝ) ≤ C ^ 2 / n := by positivity
      calc (ds.length : ℝ) * C ^ 2 / n = ds.length * (C ^ 2 / n) := by ring
        _ ≤ (ds.length + 1) * (C ^ 2 / n) := by nlinarith
        _ = _ := by ring

/-- Likelihoods at least `ℓ` give normalizations at least `ℓ`. -/
theorem bootVal_lower (thresh : ℝ) (check : Bool) (like : O → List ℝ → E → ℝ)
    (step : E → List ℝ → List ℝ) {l : ℝ} (hl : 0 < l) (ds : List (O × E))
    (hL : ∀ d ∈ ds, ∀ x, l ≤ like d.1 x d.2) (m : ℕ) (hm : ds.length ≤ m) (w : Fin n → ℝ)
    (hw : ∀ i, 0 ≤ w i) (hs : ∑ i, w i = 1) (x : Fin n → List ℝ) (v : Fin m → Fin n → Unit01) :
    l ^ ds.length ≤ bootVal thresh check like step (fun _ => 1) (pos_of_sum hs) ds m w x v := by
  induction ds generalizing m w x with
  | nil => simp [bootVal, hs]
  | cons d ds ih =>
    simp only [List.length_cons] at hm
    obtain ⟨m, rfl⟩ : ∃ m', m = m' + 1 := ⟨m - 1, by omega⟩
    have hn := pos_of_sum hs
    have hn0 : (n : ℝ) ≠ 0 := Nat.cast_ne_zero.2 hn.ne'
    have hL' : ∀ d ∈ ds, ∀ x, l ≤ like d.1 x d.2 := fun d hd => hL d (List.mem_cons_of_mem _ hd)
    have hlike : ∀ y, l ≤ like d.1 y d.2 := hL d List.mem_cons_self
    have hZl : l ≤ ∑ j, w j * like d.1 (x j) d.2 := by
      calc l = ∑ j, w j * l := by rw [← Finset.sum_mul, hs, one_mul]
        _ ≤ _ := Finset.sum_le_sum fun j _ => mul_le_mul_of_nonneg_left (hlike _) (hw j)
    have hZ0 := hl.trans_le hZl
    simp only [bootVal]
    rw [List.length_cons, pow_succ, mul_comm]
    refine mul_le_mul hZl ?_ (by positivity) hZ0.le
    split
    · exact ih hL' m (by omega) _ (fun _ => by positivity) (by simp [hn0]) _ _
    · refine ih hL' (m + 1) (by omega) _ (fun i => div_nonneg (mul_nonneg (hw i) (hl.le.trans (hlike _))) hZ0.le)
        ?_ _ _
      rw [← Finset.sum_div]; exact div_self hZ0.ne'

variable {cfg : SmcConfig ℝ} {env : Env ℝ O E (List (List ℝ))} {p : LwSetup}
  {step : E → List ℝ → List ℝ}

theorem cloudMean_sub (f : List ℝ → ℝ) (c : ℝ) {R : Type*} (u : Smc ℝ O R) :
    cloudMean (fun x => f x - c) u = cloudMean f u - c * cloudMean (fun _ => 1) u := by
  unfold cloudMean
  induction u.weights.zip u.locs with
  | nil => simp
  | cons a t ih =>
    simp only [List.map_cons, List.sum_cons] at ih ⊢
    rw [ih]
    ring

/-- **C111, variance.**  The product of the normalizations times the estimated mean of `f`, whenever the
updater resamples by copies, differs from the exact value (C108) by a mean square of at most the number of
data times `C² / n`. -/
theorem C111_variance (h : Boot cfg env p step) (check : Bool) (f : List ℝ → ℝ) {C : ℝ}
    (hf : ∀ x, |f x| ≤ C) (ds : List (O × E))
    (hL : ∀ d ∈ ds, ∀ x, eps ≤ env.likelihood d.1 x d.2) (hL1 : ∀ d ∈ ds, ∀ x, env.likelihood d.1 x d.2 ≤ 1)
    (m : ℕ) (hm : ds.length ≤ m) (w : Fin n → ℝ)
    (hw : ∀ i, 0 ≤ w i) (hs : ∑ i, w i = 1) (x : Fin n → List ℝ)
    (s : (Fin m → Fin n → Unit01) → Smc ℝ O (List (List ℝ))) (hsw : ∀ v, (s v).weights = List.ofFn w)
    (hsl : ∀ v, (s v).locs = List.ofFn x) (hsn : ∀ v, (s v).normRecord = [])
    (hsv : ∀ v, (s v).seed = stock v) :
    let exact := ∑ i, w i * pathValue env.likelihood step f ds (x i)
    Integrable (fun v => ((feed cfg env check ds (s v)).1.normRecord.prod *
      cloudMean f (feed cfg env check ds (s v)).1 - exact) ^ 2) (stockLaw m n) ∧
    ∫ v, ((feed cfg env check ds (s v)).1.normRecord.prod *
      cloudMean f (feed cfg env check ds (s v)).1 - exact) ^ 2 ∂(stockLaw m n) ≤ ds.length * C ^ 2 / n := by
  intro exact
  have hL0 : ∀ d ∈ ds, ∀ x, 0 < env.likelihood d.1 x d.2 := fun d hd x => eps_pos.trans_le (hL d hd x)
  have hb : ∀ v, (feed cfg env check ds (s v)).1.normRecord.prod *
      cloudMean f (feed cfg env check ds (s v)).1 =
      bootVal cfg.resampleThresh check env.likelihood step f (pos_of_sum hs) ds m w x v := fun v => by
    rw [(feed_boot h check f ds hL m hm w hw hs x (s v) (hsw v) (hsl v) v (hsv v)).2.1, hsn, List.prod_nil,
      one_mul]
  simp only [hb]
  obtain ⟨a1, a2⟩ := bootVal_average cfg.resampleThresh check env.likelihood step f ds hL0 m hm w hw hs x
  obtain ⟨b1, b2⟩ := bootVal_second cfg.resampleThresh check env.likelihood step f hf ds hL0 hL1 m hm w hw hs x
  generalize bootVal cfg.resampleThresh check env.likelihood step f (pos_of_sum hs) ds m w x = B at *
  have hexp : (fun v => (B v - exact) ^ 2) = fun v => B v ^ 2 - (2 * exact * B v - exact ^ 2) := by
    funext v; ring
  rw [hexp]
  have i2 : Integrable (fun v => 2 * exact * B v - exact ^ 2) (stockLaw m n) :=
    (a1.const_mul _).sub (integrable_const _)
  refine ⟨b1.sub i2, ?_⟩
  rw [integral_sub b1 i2, integral_sub (a1.const_mul _) (integrable_const _), integral_const_mul, a2,
    integral_const]
  simp only [probReal_univ, one_smul]
  have : exact = ∑ i, w i * pathValue env.likelihood step f ds (x i) := rfl
  rw [← this] at b2 ⊢
  nlinarith

/-- **C111, evidence.**  The product of the normalizations differs from the evidence by `ε` or more with
probability at most the number of data over `n ε²`. -/
theorem C111_evidence (h : Boot cfg env p step) (check : Bool) (ds : List (O × E))
    (hL : ∀ d ∈ ds, ∀ x, eps ≤ env.likelihood d.1 x d.2) (hL1 : ∀ d ∈ ds, ∀ x, env.likelihood d.1 x d.2 ≤ 1)
    (m : ℕ) (hm : ds.length ≤ m) (w : Fin n → ℝ)
    (hw : ∀ i, 0 ≤ w i) (hs : ∑ i, w i = 1) (x : Fin n → List ℝ)
    (s : (Fin m → Fin n → Unit01) → Smc ℝ O (List (List ℝ))) (hsw : ∀ v, (s v).weights = List.ofFn w)
    (hsl : ∀ v, (s v).locs = List.ofFn x) (hsn : ∀ v, (s v).normRecord = [])
    (hsv : ∀ v, (s v).seed = stock v) (ε : ℝ) (hε : 0 < ε) :
    (stockLaw m n).real {v | ε ≤ |(feed cfg env check ds (s v)).1.normRecord.prod -
      ∑ i, w i * pathValue env.likelihood step (fun _ => 1) ds (x i)|} ≤ ds.length / (n * ε ^ 2) := by
  obtain ⟨h1, h2⟩ := C111_variance h check (fun _ => 1) (C := 1) (fun _ => by simp) ds hL hL1 m hm w hw hs x s
    hsw hsl hsn hsv
  simp only [(feed_boot h check (fun _ => 1) ds hL m hm w hw hs x (s _) (hsw _) (hsl _) _ (hsv _)).2.2,
    mul_one] at h1 h2
  have hmk := mul_meas_ge_le_integral_of_nonneg (Filter.Eventually.of_forall fun v => sq_nonneg _) h1 (ε ^ 2)
  have hset : {v | ε ≤ |(feed cfg env check ds (s v)).1.normRecord.prod -
      ∑ i, w i * pathValue env.likelihood step (fun _ => 1) ds (x i)|} =
      {v | ε ^ 2 ≤ ((feed cfg env check ds (s v)).1.normRecord.prod -
      ∑ i, w i * pathValue env.likelihood step (fun _ => 1) ds (x i)) ^ 2} := by
    ext v
    simp only [Set.mem_ofPred_eq]
    rw [← sq_abs (_ - _)]
    exact (pow_le_pow_iff_left₀ hε.le (abs_nonneg _) two_ne_zero).symm
  rw [hset]
  have hn0 : (0 : ℝ) < n := Nat.cast_pos.2 (pos_of_sum hs)
  have := hmk.trans h2
  rw [one_pow, mul_one, le_div_iff₀ hn0] at this
  rw [le_div_iff₀ (by positivity)]
  linarith

/-- The squared error of the estimate against any number `M`. -/
theorem error_second (h : Boot cfg env p step) (check : Bool) (f : List ℝ → ℝ) {C : ℝ} (M : ℝ)
    (hf : ∀ x, |f x - M| ≤ C) (ds : List (O × E)) {l : ℝ} (hl : eps ≤ l)
    (hL : ∀ d ∈ ds, ∀ x, l ≤ env.likelihood d.1 x d.2) (hL1 : ∀ d ∈ ds, ∀ x, env.likelihood d.1 x d.2 ≤ 1)
    (m : ℕ) (hm : ds.length ≤ m) (w : Fin n → ℝ)
    (hw : ∀ i, 0 ≤ w i) (hs : ∑ i, w i = 1) (x : Fin n → List ℝ)
    (s : (Fin m → Fin n → Unit01) → Smc ℝ O (List (List ℝ))) (hsw : ∀ v, (s v).weights = List.ofFn w)
    (hsl : ∀ v, (s v).locs = List.ofFn x) (hsn : ∀ v, (s v).normRecord = [])
    (hsv : ∀ v, (s v).seed = stock v) :
    Integrable (fun v => (cloudMean f (feed cfg env check ds (s v)).1 - M) ^ 2) (stockLaw m n) ∧
    ∫ v, (cloudMean f (feed cfg env check ds (s v)).1 - M) ^ 2 ∂(stockLaw m n) ≤
      ((∑ i, w i * pathValue env.likelihood step (fun x => f x - M) ds (x i)) ^ 2 +
        ds.length * C ^ 2 / n) / l ^ (2 * ds.length) := by
  have hl0 : 0 < l := eps_pos.trans_le hl
  have hLe : ∀ d ∈ ds, ∀ x, eps ≤ env.likelihood d.1 x d.2 := fun d hd x => hl.trans (hL d hd x)
  have hL0 : ∀ d ∈ ds, ∀ x, 0 < env.likelihood d.1 x d.2 := fun d hd x => eps_pos.trans_le (hLe d hd x)
  have hb := fun (g : List ℝ → ℝ) v => feed_boot h check g ds hLe m hm w hw hs x (s v) (hsw v) (hsl v) v (hsv v)
  simp only [hsn, List.prod_nil, one_mul] at hb
  have h1 : ∀ v, (feed cfg env check ds (s v)).1.normRecord.prod =
      bootVal cfg.resampleThresh check env.likelihood step (fun _ => 1) (pos_of_sum hs) ds m w x v := fun v => by
    have := (hb (fun _ => 1) v).2.1
    rwa [(hb (fun _ => 1) v).2.2, mul_one] at this
  have hlow := bootVal_lower cfg.resampleThresh check env.likelihood step hl0 ds hL m hm w hw hs x
  have hpos : ∀ v, 0 < bootVal cfg.resampleThresh check env.likelihood step (fun _ => 1) (pos_of_sum hs) ds m
      w x v := fun v => (pow_pos hl0 _).trans_le (hlow v)
  have hq : ∀ v, cloudMean f (feed cfg env check ds (s v)).1 - M =
      bootVal cfg.resampleThresh check env.likelihood step (fun x => f x - M) (pos_of_sum hs) ds m w x v /
      bootVal cfg.resampleThresh check env.likelihood step (fun _ => 1) (pos_of_sum hs) ds m w x v := fun v => by
    rw [← (hb (fun x => f x - M) v).2.1, ← h1 v, mul_div_cancel_left₀ _ (by rw [h1 v]; exact (hpos v).ne'),
      cloudMean_sub, (hb f v).2.2, mul_one]
  simp only [hq]
  obtain ⟨a1, -⟩ := bootVal_average cfg.resampleThresh check env.likelihood step (fun _ => 1) ds hL0 m hm w hw hs x
  obtain ⟨a2, -⟩ := bootVal_average cfg.resampleThresh check env.likelihood step (fun x => f x - M) ds hL0 m hm
    w hw hs x
  obtain ⟨b1, b2⟩ := bootVal_second cfg.resampleThresh check env.likelihood step (fun x => f x - M) hf ds hL0
    hL1 m hm w hw hs x
  have hle : ∀ v, (bootVal cfg.resampleThresh check env.likelihood step (fun x => f x - M) (pos_of_sum hs) ds
      m w x v / bootVal cfg.resampleThresh check env.likelihood step (fun _ => 1) (pos_of_sum hs) ds m w x v) ^ 2
      ≤ bootVal cfg.resampleThresh check env.likelihood step (fun x => f x - M) (pos_of_sum hs) ds m w x v ^ 2 /
        l ^ (2 * ds.length) := fun v => by
    rw [div_pow, mul_comm 2, pow_mul]
    exact div_le_div_of_nonneg_left (sq_nonneg _) (by positivity)
      (pow_le_pow_left₀ (by positivity) (hlow v) 2)
  have hint : Integrable (fun v => (bootVal cfg.resampleThresh check env.likelihood step (fun x => f x - M)
      (pos_of_sum hs) ds m w x v / bootVal cfg.resampleThresh check env.likelihood step (fun _ => 1)
      (pos_of_sum hs) ds m w x v) ^ 2) (stockLaw m n) := by
    refine (b1.div_const (l ^ (2 * ds.length))).mono'
      ((a2.aestronglyMeasurable.aemeasurable.div a1.aestronglyMeasurable.aemeasurable).pow_const
        2).aestronglyMeasurable (Filter.Eventually.of_forall fun v => ?_)
    rw [Real.norm_eq_abs, abs_of_nonneg (sq_nonneg _)]
    exact hle v
  refine ⟨hint, (integral_mono hint (b1.div_const _) hle).trans ?_⟩
  rw [integral_div]
  exact div_le_div_of_nonneg_right b2 (by positivity)

theorem pathValue_sub (like : O → List ℝ → E → ℝ) (step : E → List ℝ → List ℝ) (f : List ℝ → ℝ) (c : ℝ)
    (ds : List (O × E)) (x : List ℝ) :
    pathValue like step (fun x => f x - c) ds x =
      pathValue like step f ds x - c * pathValue like step (fun _ => 1) ds x := by
  induction ds generalizing x with
  | nil => simp [pathValue]
  | cons d ds ih => simp only [pathValue, ih]; ring

theorem pathValue_pos (like : O → List ℝ → E → ℝ) (step : E → List ℝ → List ℝ) (ds : List (O × E))
    (hL : ∀ d ∈ ds, ∀ x, 0 < like d.1 x d.2) (x : List ℝ) : 0 < pathValue like step (fun _ => 1) ds x := by
  induction ds generalizing x with
  | nil => exact one_pos
  | cons d ds ih =>
    exact mul_pos (hL d List.mem_cons_self x) (ih (fun d hd => hL d (List.mem_cons_of_mem _ hd)) _)

theorem pathValue_le (like : O → List ℝ → E → ℝ) (step : E → List ℝ → List ℝ) (f : List ℝ → ℝ) {C : ℝ}
    (hf : ∀ x, |f x| ≤ C) (ds : List (O × E)) (hL : ∀ d ∈ ds, ∀ x, 0 < like d.1 x d.2) (x : List ℝ) :
    |pathValue like step f ds x| ≤ C * pathValue like step (fun _ => 1) ds x := by
  induction ds generalizing x with
  | nil => simpa [pathValue] using hf x
  | cons d ds ih =>
    have hd := hL d List.mem_cons_self x
    rw [pathValue, pathValue, abs_mul, abs_of_pos hd]
    calc _ ≤ like d.1 x d.2 * (C * pathValue like step (fun _ => 1) ds (step d.2 x)) :=
          mul_le_mul_of_nonneg_left (ih (fun d hd => hL d (List.mem_cons_of_mem _ hd)) _) hd.le
      _ = _ := by ring

/-- **C111, posterior mean.**  The estimated mean of `f`, `|f| ≤ C`, after data with likelihoods of at
least `l`, differs from the exact posterior mean of the weighted particles it started with by a mean square
of at most `4 T C² / (n l^2T)`, however often the updater resamples. -/
theorem C111_mean (h : Boot cfg env p step) (check : Bool) (f : List ℝ → ℝ) {C : ℝ}
    (hf : ∀ x, |f x| ≤ C) (ds : List (O × E)) {l : ℝ} (hl : eps ≤ l)
    (hL : ∀ d ∈ ds, ∀ x, l ≤ env.likelihood d.1 x d.2) (hL1 : ∀ d ∈ ds, ∀ x, env.likelihood d.1 x d.2 ≤ 1)
    (m : ℕ) (hm : ds.length ≤ m) (w : Fin n → ℝ)
    (hw : ∀ i, 0 ≤ w i) (hs : ∑ i, w i = 1) (x : Fin n → List ℝ)
    (s : (Fin m → Fin n → Unit01) → Smc ℝ O (List (List ℝ))) (hsw : ∀ v, (s v).weights = List.ofFn w)
    (hsl : ∀ v, (s v).locs = List.ofFn x) (hsn : ∀ v, (s v).normRecord = [])
    (hsv : ∀ v, (s v).seed = stock v) :
    let exact := (∑ i, w i * pathValue env.likelihood step f ds (x i)) /
      ∑ i, w i * pathValue env.likelihood step (fun _ => 1) ds (x i)
    Integrable (fun v => (cloudMean f (feed cfg env check ds (s v)).1 - exact) ^ 2) (stockLaw m n) ∧
    ∫ v, (cloudMean f (feed cfg env check ds (s v)).1 - exact) ^ 2 ∂(stockLaw m n) ≤
      4 * ds.length * C ^ 2 / (n * l ^ (2 * ds.length)) := by
  intro exact
  have hL0 : ∀ d ∈ ds, ∀ x, 0 < env.likelihood d.1 x d.2 := fun d hd x =>
    eps_pos.trans_le (hl.trans (hL d hd x))
  have hp := pathValue_pos env.likelihood step ds hL0
  have hden : 0 < ∑ i, w i * pathValue env.likelihood step (fun _ => 1) ds (x i) := by
    obtain ⟨i, -, hi⟩ : ∃ i ∈ Finset.univ, 0 < w i := by
      apply Finset.exists_lt_of_sum_lt (f := fun _ => (0 : ℝ))
      rw [hs]; simp
    exact lt_of_lt_of_le (mul_pos hi (hp (x i))) (Finset.single_le_sum
      (f := fun j => w j * pathValue env.likelihood step (fun _ => 1) ds (x j))
      (fun j _ => mul_nonneg (hw j) (hp _).le) (Finset.mem_univ i))
  have hM : |exact| ≤ C := by
    rw [abs_div, abs_of_pos hden, div_le_iff₀ hden, Finset.mul_sum]
    refine (Finset.abs_sum_le_sum_abs _ _).trans (Finset.sum_le_sum fun i _ => ?_)
    rw [abs_mul, abs_of_nonneg (hw i)]
    calc _ ≤ w i * (C * pathValue env.likelihood step (fun _ => 1) ds (x i)) :=
          mul_le_mul_of_nonneg_left (pathValue_le _ step f hf ds hL0 _) (hw i)
      _ = _ := by ring
  have hzero : ∑ i, w i * pathValue env.likelihood step (fun x => f x - exact) ds (x i) = 0 := by
    simp only [pathValue_sub, mul_sub, Finset.sum_sub_distrib]
    have : ∑ i, w i * (exact * pathValue env.likelihood step (fun _ => 1) ds (x i)) =
        exact * ∑ i, w i * pathValue env.likelihood step (fun _ => 1) ds (x i) := by
      rw [Finset.mul_sum]
      exact Finset.sum_congr rfl fun i _ => by ring
    rw [this]
    show _ - (_ / _) * _ = _
    rw [div_mul_cancel₀ _ hden.ne', sub_self]
  obtain ⟨e1, e2⟩ := error_second h check f (C := 2 * C) exact
    (fun y => (abs_sub _ _).trans (by linarith [hf y])) ds hl hL hL1 m hm w hw hs x s hsw hsl hsn hsv
  refine ⟨e1, e2.trans (le_of_eq ?_)⟩
  rw [hzero]
  have hn0 : (n : ℝ) ≠ 0 := Nat.cast_ne_zero.2 (pos_of_sum hs).ne'
  have hl0 : l ≠ 0 := (eps_pos.trans_le hl).ne'
  field_simp
  ring

/-- **C111.**  With `n` particles drawn independently from the prior `π`, the estimated mean of `f`,
`|f| ≤ C`, after `T` data with likelihoods of at least `l`, resampled by copies whenever the updater decides
to, differs from the exact posterior mean by a mean square of at most `4 (T + 1) C² / (n l^2T)`: on average
over the draws of the resampler at most `G`, and `G` averages over the particles to at most this. -/
theorem C111_converges {Ω : Type*} [MeasurableSpace Ω] (P : Measure Ω) [IsProbabilityMeasure P]
    {Θ : Type*} [MeasurableSpace Θ] (π : Measure Θ) (loc : Θ → List ℝ) (X : Fin n → Ω → Θ)
    (hX : ∀ i, Measurable (X i)) (hπ : ∀ i, P.map (X i) = π) (hind : ∀ i j, i ≠ j → IndepFun (X i) (X j) P)
    (hn : n ≠ 0)
    (h : Boot cfg env p step) (check : Bool) (f : List ℝ → ℝ) {C : ℝ} (hf : ∀ x, |f x| ≤ C)
    (ds : List (O × E)) {l : ℝ} (hl : eps ≤ l)
    (hL : ∀ d ∈ ds, ∀ x, l ≤ env.likelihood d.1 x d.2) (hL1 : ∀ d ∈ ds, ∀ x, env.likelihood d.1 x d.2 ≤ 1)
    (m : ℕ) (hm : ds.length ≤ m)
    (s : Ω → (Fin m → Fin n → Unit01) → Smc ℝ O (List (List ℝ)))
    (hsw : ∀ ω v, (s ω v).weights = List.ofFn fun _ : Fin n => 1 / (n : ℝ))
    (hsl : ∀ ω v, (s ω v).locs = List.ofFn fun i => loc (X i ω)) (hsn : ∀ ω v, (s ω v).normRecord = [])
    (hsv : ∀ ω v, (s ω v).seed = stock v)
    (hmf : Measurable fun θ => pathValue env.likelihood step f ds (loc θ))
    (hm1 : Measurable fun θ => pathValue env.likelihood step (fun _ => 1) ds (loc θ)) :
    let exact := (∫ θ, pathValue env.likelihood step f ds (loc θ) ∂π) /
      ∫ θ, pathValue env.likelihood step (fun _ => 1) ds (loc θ) ∂π
    ∃ G : Ω → ℝ, (∀ ω, ∫ v, (cloudMean f (feed cfg env check ds (s ω v)).1 - exact) ^ 2 ∂(stockLaw m n) ≤ G ω) ∧
      Integrable G P ∧ ∫ ω, G ω ∂P ≤ 4 * (ds.length + 1) * C ^ 2 / (n * l ^ (2 * ds.length)) := by
  intro exact
  have hn0 : (n : ℝ) ≠ 0 := Nat.cast_ne_zero.2 hn
  have hl0 : 0 < l := eps_pos.trans_le hl
  have hL0 : ∀ d ∈ ds, ∀ x, 0 < env.likelihood d.1 x d.2 := fun d hd x =>
    eps_pos.trans_le (hl.trans (hL d hd x))
  have hπp : IsProbabilityMeasure π := by
    rw [← hπ ⟨0, Nat.pos_of_ne_zero hn⟩]
    exact Measure.isProbabilityMeasure_map (hX _).aemeasurable
  have hp := pathValue_pos env.likelihood step ds hL0
  have hi1 : Integrable (fun θ => pathValue env.likelihood step (fun _ => 1) ds (loc θ)) π :=
    Integrable.of_bound hm1.aestronglyMeasurable 1 (Filter.Eventually.of_forall fun θ =>
      pathValue_abs env.likelihood step (fun _ => 1) (by simp) ds hL0 hL1 _)
  have hif : Integrable (fun θ => pathValue env.likelihood step f ds (loc θ)) π :=
    Integrable.of_bound hmf.aestronglyMeasurable C (Filter.Eventually.of_forall fun θ =>
      pathValue_abs env.likelihood step f hf ds hL0 hL1 _)
  have hden : 0 < ∫ θ, pathValue env.likelihood step (fun _ => 1) ds (loc θ) ∂π := by
    refine (integral_pos_iff_support_of_nonneg (fun θ => (hp _).le) hi1).2 ?_
    have : (Function.support fun θ => pathValue env.likelihood step (fun _ => 1) ds (loc θ)) = Set.univ :=
      Set.eq_univ_of_forall fun θ => (hp _).ne'
    rw [this, measure_univ]
    exact one_pos
  have hM : |exact| ≤ C := by
    rw [abs_div, abs_of_pos hden, div_le_iff₀ hden, ← integral_const_mul]
    refine (abs_integral_le_integral_abs).trans (integral_mono hif.abs (hi1.const_mul _) fun θ => ?_)
    exact pathValue_le _ step f hf ds hL0 _
  have hmg : Measurable fun θ => pathValue env.likelihood step (fun x => f x - exact) ds (loc θ) := by
    simp only [pathValue_sub]
    exact hmf.sub (hm1.const_mul _)
  have hfe : ∀ y, |f y - exact| ≤ 2 * C := fun y => (abs_sub _ _).trans (by linarith [hf y])
  have hzero : ∫ θ, pathValue env.likelihood step (fun x => f x - exact) ds (loc θ) ∂π = 0 := by
    simp only [pathValue_sub]
    rw [integral_sub hif (hi1.const_mul _), integral_const_mul]
    show _ - (_ / _) * _ = _
    rw [div_mul_cancel₀ _ hden.ne', sub_self]
  obtain ⟨q1, q2⟩ := mean_second P hn
    (fun i ω => pathValue env.likelihood step (fun x => f x - exact) ds (loc (X i ω)))
    (fun i => hmg.comp (hX i)) (fun i ω => pathValue_abs env.likelihood step _ hfe ds hL0 hL1 _) 0
    (fun i => by
      rw [← hzero, ← hπ i, integral_map (hX i).aemeasurable hmg.aestronglyMeasurable])
    (fun i j hij => (hind i j hij).comp hmg hmg)
  refine ⟨fun ω => ((∑ i : Fin n, 1 / (n : ℝ) *
      pathValue env.likelihood step (fun x => f x - exact) ds (loc (X i ω))) ^ 2 +
      ds.length * (2 * C) ^ 2 / n) / l ^ (2 * ds.length), fun ω => ?_, ?_, ?_⟩
  · exact (error_second h check f exact hfe ds hl hL hL1 m hm (fun _ => 1 / (n : ℝ)) (fun _ => by positivity)
      (by simp [hn0]) (fun i => loc (X i ω)) (s ω) (hsw ω) (hsl ω) (hsn ω) (hsv ω)).2
  · exact (q1.add (integrable_const _)).div_const _
  · rw [integral_div, integral_add q1 (integrable_const _), integral_const]
    simp only [probReal_univ, one_smul]
    calc _ ≤ (0 ^ 2 + (2 * C) ^ 2 / n + ds.length * (2 * C) ^ 2 / n) / l ^ (2 * ds.length) :=
          div_le_div_of_nonneg_right (add_le_add q2 le_rfl) (by positivity)
      _ = _ := by
        field_simp
        ring

end run

/-- Case for C111: two phases, four data, resampling as soon as the weights differ. -/
example (ε : ℝ) (hε : 0 < ε) :
    (stockLaw 4 2).real {v | ε ≤ |(feed copyCfg copyEnv true
        [(true, 1), (false, 2), (true, 1), (true, 3)] (copyStart v)).1.normRecord.prod -
      ∑ i : Fin 2, 1 / 2 * pathValue copyEnv.likelihood (fun e x => x.map (e * ·)) (fun _ => 1)
        [(true, 1), (false, 2), (true, 1), (true, 3)] [(2 * i.val - 1 : ℝ) * (Real.pi / 2)]|} ≤
      4 / (2 * ε ^ 2) := by
  have := C111_evidence copy_boot true [(true, 1), (false, 2), (true, 1), (true, 3)] (fun d _ x => by
      have hε : (eps : ℝ) ≤ 1 / 40 := by unfold eps; norm_num
      exact le_trans (by linarith) (phase_like d.1 x ()).1)
      (fun d _ x => (phase_like d.1 x ()).2.trans (by norm_num)) 4 le_rfl (fun _ : Fin 2 => 1 / 2)
      (fun _ => by norm_num) (by norm_num) (fun i : Fin 2 => [(2 * i.val - 1 : ℝ) * (Real.pi / 2)])
      copyStart (fun _ => rfl) (fun _ => rfl) (fun _ => rfl) (fun _ => rfl) ε hε
  simpa using this

end QInfer
