import Verif.Props.ContLearn
import Verif.Props.Bootstrap

/-!
# C143 with resampling

As in `Verif.Props.ContLearn`, but the updater resamples by copies whenever its effective sample size falls
below the threshold.
-/

namespace QInfer

open Spec Filter Topology MeasureTheory ProbabilityTheory Function

section

variable {Ω Ω' S O E : Type*} [MeasurableSpace Ω] [MeasurableSpace Ω'] [MeasurableSpace S]
  [MeasurableSpace O] [MeasurableSpace E] [Fintype O] [Fintype E]

omit [MeasurableSpace O] [MeasurableSpace E] [Fintype O] [Fintype E] in
theorem pathValue_rest (like : O → List ℝ → E → ℝ) (f : List ℝ → ℝ) (ds : List (O × E)) (y : List ℝ) :
    pathValue like (fun _ x => x) f ds y = probData like ds y * f y := by
  induction ds with
  | nil => simp [pathValue, probData]
  | cons d ds ih =>
    rw [pathValue, ih]
    simp only [probData, List.map_cons, List.prod_cons]
    ring

variable [TopologicalSpace S] {like : O → List ℝ → E → ℝ} {par : S → List ℝ} [OpensMeasurableSpace S]
  {π : Measure S} [IsProbabilityMeasure π] [CompactSpace S] [MeasurableSingletonClass O]
  [MeasurableSingletonClass E] {P : Measure Ω} [IsProbabilityMeasure P] {μ : Measure (O × E)}
  {D : ℕ → Ω → O × E} {q : E → ℝ} {θ : S}

/-- **C143, with resampling.**  Let the updater resample by copies (`LiuWestResampler` with `a = 1`)
whenever its effective sample size falls below the threshold.  With probability one, for every accuracy
`ε` and enough data, an updater with enough particles drawn from the prior estimates the mean of `f` with a
mean squared distance of at most `ε` from the true value: on average over the draws of the resampler it is at
most `G`, and `G` averages over the particles to at most `ε`. -/
theorem C143_resampled (hm : Smooth like par) (hD : IidData P μ D) (hμ : DrawnFrom like (par θ) q μ)
    (hsupp : ∀ V ∈ 𝓝 θ, π V ≠ 0) (f : List ℝ → ℝ) (hf : Continuous fun x => f (par x))
    (hval : ∀ x, PredictSame like q (par x) (par θ) → f (par x) = f (par θ)) {C : ℝ} (hC : ∀ y, |f y| ≤ C)
    {l : ℝ} (hl : eps ≤ l) (hL : ∀ o y e, l ≤ like o y e) (hL1 : ∀ o y e, like o y e ≤ 1)
    {P' : Measure Ω'} [IsProbabilityMeasure P'] {X : ℕ → Ω' → S} (hX : ∀ i, Measurable (X i))
    (hlaw : ∀ i, P'.map (X i) = π) (hind : ∀ i j, i ≠ j → IndepFun (X i) (X j) P')
    {cfg : SmcConfig ℝ} {env : Env ℝ O E (List (List ℝ))} {p : LwSetup} (h : Boot cfg env p fun _ x => x)
    (henv : env.likelihood = like) (check : Bool)
    (s : ∀ m n : ℕ, Ω' → (Fin m → Fin n → Unit01) → Smc ℝ O (List (List ℝ)))
    (hsw : ∀ m n v u, (s m n v u).weights = List.ofFn fun _ : Fin n => 1 / (n : ℝ))
    (hsl : ∀ m n v u, (s m n v u).locs = List.ofFn fun i : Fin n => par (X i v))
    (hsn : ∀ m n v u, (s m n v u).normRecord = []) (hsv : ∀ m n v u, (s m n v u).seed = stock u) :
    ∀ᵐ v ∂P, ∀ ε > 0, ∀ᶠ t in atTop, ∀ᶠ n in atTop, ∃ G : Ω' → ℝ,
      (∀ v', Integrable (fun u => (cloudMean f (feed cfg env check (firstData D t v) (s t n v' u)).1 -
          f (par θ)) ^ 2) (stockLaw t n) ∧
        ∫ u, (cloudMean f (feed cfg env check (firstData D t v) (s t n v' u)).1 - f (par θ)) ^ 2
          ∂(stockLaw t n) ≤ G v') ∧
      Integrable G P' ∧ ∫ v', G v' ∂P' ≤ ε := by
  filter_upwards [C143_mean (π := π) hm hD hμ hsupp f hf hval] with v hv ε hε
  have hC0 : 0 ≤ C := (abs_nonneg _).trans (hC [])
  have hl0 : 0 < l := eps_pos.trans_le hl
  have hsq : Tendsto (fun t => (trueMean π (fun x _ => par x) like (firstData D t v) f - f (par θ)) ^ 2)
      atTop (𝓝 0) := by
    simpa using (hv.sub_const (f (par θ))).pow 2
  filter_upwards [hsq.eventually_lt_const (show 0 < ε / 4 by positivity)] with t ht
  have hlen : (firstData D t v).length = t := by simp [firstData]
  have hlim : Tendsto (fun n : ℕ => 4 * ((t : ℝ) + 1) * C ^ 2 / (n * l ^ (2 * t))) atTop (𝓝 0) :=
    tendsto_const_nhds.div_atTop ((tendsto_natCast_atTop_atTop (R := ℝ)).atTop_mul_const (by positivity))
  filter_upwards [hlim.eventually_lt_const (show 0 < ε / 4 by positivity), eventually_ne_atTop 0] with n hn hn0
  have hmeas : ∀ g : List ℝ → ℝ, (Continuous fun x => g (par x)) →
      Measurable fun x => pathValue env.likelihood (fun _ x => x) g (firstData D t v) (par x) := fun g hg => by
    simp only [pathValue_rest, henv]
    exact ((hm.prob_cont _).mul hg).measurable
  have hLd : ∀ d ∈ firstData D t v, ∀ x, l ≤ env.likelihood d.1 x d.2 := fun d _ x => by
    rw [henv]; exact hL _ _ _
  have hL1d : ∀ d ∈ firstData D t v, ∀ x, env.likelihood d.1 x d.2 ≤ 1 := fun d _ x => by
    rw [henv]; exact hL1 _ _ _
  obtain ⟨G, hG, hGi, hGb⟩ := C111_converges P' π par (fun i : Fin n => X i) (fun i => hX i)
    (fun i => hlaw i) (fun i j hij => hind i j fun he => hij (Fin.ext he)) hn0 h check f hC
    (firstData D t v) hl hLd hL1d t hlen.le (s t n) (hsw t n) (hsl t n) (hsn t n) (hsv t n) (hmeas f hf)
    (hmeas (fun _ => 1) continuous_const)
  have hexact : (∫ x, pathValue env.likelihood (fun _ x => x) f (firstData D t v) (par x) ∂π) /
      ∫ x, pathValue env.likelihood (fun _ x => x) (fun _ => 1) (firstData D t v) (par x) ∂π =
      trueMean π (fun x _ => par x) like (firstData D t v) f := by
    rw [trueMean_eq]
    simp only [pathValue_rest, henv, mul_one]
  rw [hexact] at hG
  rw [hlen] at hGb
  obtain ⟨b, hb⟩ : ∃ b, b = trueMean π (fun x _ => par x) like (firstData D t v) f := ⟨_, rfl⟩
  rw [← hb] at hG ht
  have hn' : (n : ℝ) ≠ 0 := Nat.cast_ne_zero.2 hn0
  have hint : ∀ (M : ℝ) (v' : Ω'), Integrable (fun u =>
      (cloudMean f (feed cfg env check (firstData D t v) (s t n v' u)).1 - M) ^ 2) (stockLaw t n) :=
    fun M v' => (error_second h check f (C := C + |M|) M
      (fun y => (abs_sub _ _).trans (add_le_add (hC y) le_rfl)) (firstData D t v) hl hLd hL1d t hlen.le
      (fun _ : Fin n => 1 / (n : ℝ)) (fun _ => by positivity) (by simp [hn']) (fun i => par (X i v'))
      (s t n v') (hsw t n v') (hsl t n v') (hsn t n v') (hsv t n v')).1
  refine ⟨fun v' => 2 * G v' + 2 * (b - f (par θ)) ^ 2, fun v' => ⟨hint _ v', ?_⟩,
    (hGi.const_mul 2).add (integrable_const _), ?_⟩
  · calc ∫ u, (cloudMean f (feed cfg env check (firstData D t v) (s t n v' u)).1 - f (par θ)) ^ 2
          ∂(stockLaw t n)
        ≤ ∫ u, (2 * (cloudMean f (feed cfg env check (firstData D t v) (s t n v' u)).1 - b) ^ 2 +
            2 * (b - f (par θ)) ^ 2) ∂(stockLaw t n) := by
          refine integral_mono (hint _ v') (((hint b v').const_mul 2).add (integrable_const _)) fun u => ?_
          dsimp only
          nlinarith [sq_nonneg (cloudMean f (feed cfg env check (firstData D t v) (s t n v' u)).1 - b -
            (b - f (par θ)))]
      _ = 2 * ∫ u, (cloudMean f (feed cfg env check (firstData D t v) (s t n v' u)).1 - b) ^ 2
            ∂(stockLaw t n) + 2 * (b - f (par θ)) ^ 2 := by
          rw [integral_add ((hint b v').const_mul 2) (integrable_const _), integral_const_mul, integral_const]
          simp
      _ ≤ _ := by linarith [hG v']
  · rw [integral_add (hGi.const_mul 2) (integrable_const _), integral_const_mul, integral_const]
    simp only [probReal_univ, one_smul]
    linarith

end

/-! ### A case -/

/-- The phase that rests, resampled by copies. -/
noncomputable def arcEnv : Env ℝ Bool Unit (List (List ℝ)) where
  likelihood := arcLike
  timestep r l _ := (l, r)
  canon l := l
  clearCacheRaises := false
  prior r n := (List.replicate n [0], r)
  resampler := copySetup.resampler
  kl _ _ _ _ := 0

theorem arc_boot : Boot copyCfg arcEnv copySetup fun _ x => x where
  a := rfl
  h := rfl
  maxiter := by decide
  kernel m := by simp [copySetup]
  resampler := rfl
  step r l e := by simp [arcEnv]
  canon := rfl
  thresh := by
    show 10 * (eps : ℝ) < 1
    unfold eps; norm_num
  policy := rfl

/-- Particles with equal weights and a stock of variates. -/
noncomputable def arcStart (m n : ℕ) (v : ℕ → unitInterval) (u : Fin m → Fin n → Unit01) :
    Smc ℝ Bool (List (List ℝ)) where
  weights := List.ofFn fun _ : Fin n => 1 / (n : ℝ)
  locs := List.ofFn fun i : Fin n => arcPar (v i)
  resampleCount := 0
  minNEss := ⊤
  justResampled := false
  dataRecord := []
  normRecord := []
  divergences := none
  seed := stock u
  warnings := []

/-- Case for C143: phases on an arc, resampled as soon as the weights differ; the probability that the
model gives to the outcome `true` is learnt. -/
example : ∀ᵐ v ∂(Measure.infinitePi fun _ : ℕ => restLaw), ∀ ε > 0, ∀ᶠ t in atTop, ∀ᶠ n in atTop,
    ∃ G : (ℕ → unitInterval) → ℝ,
      (∀ v', ∫ u, (cloudMean (fun y => arcLike true y ()) (feed copyCfg arcEnv true
          (firstData (fun t (v : ℕ → Bool × Unit) => v t) t v) (arcStart t n v' u)).1 - 3 / 4) ^ 2
          ∂(stockLaw t n) ≤ G v') ∧
      Integrable G (Measure.infinitePi fun _ : ℕ => (volume : Measure unitInterval)) ∧
      ∫ v', G v' ∂(Measure.infinitePi fun _ : ℕ => (volume : Measure unitInterval)) ≤ ε := by
  have hval : arcLike true (arcPar 1) () = 3 / 4 := by
    simp only [arcLike, restEnv, arcPar, List.getD_cons_zero, if_true]
    rw [show Real.sin (((1 : unitInterval) : ℝ) * (Real.pi / 2)) = 1 by
      rw [show ((1 : unitInterval) : ℝ) = 1 from rfl, one_mul (Real.pi / 2), Real.sin_pi_div_two]]
    norm_num
  have hb : ∀ o y e, arcLike o y e ≤ 1 := fun o y e => (phase_like o y e).2.trans (by norm_num)
  have h := C143_resampled (π := (volume : Measure unitInterval)) (θ := 1) arc_smooth rest_data arc_drawn
    (arc_support 1) (fun y => arcLike true y ()) (arc_smooth.cont true ())
    (fun x hx => by rw [arc_alike x hx]) (C := 1)
    (fun y => by
      rw [abs_of_nonneg (le_trans (by norm_num) (arc_bounds true y ()))]; exact hb true y ())
    (l := 1 / 4) (by unfold eps; norm_num) arc_bounds hb (fun i => (arc_sampled []).meas i)
    (fun i => (arc_sampled []).law i) (fun i j hij => (arc_sampled []).indep hij) arc_boot rfl true arcStart
    (fun _ _ _ _ => rfl) (fun _ _ _ _ => rfl) (fun _ _ _ _ => rfl) (fun _ _ _ _ => rfl)
  filter_upwards [h] with v hv ε hε
  filter_upwards [hv ε hε] with t ht
  filter_upwards [ht] with n hn
  obtain ⟨G, h1, h2, h3⟩ := hn
  rw [hval] at h1
  exact ⟨G, fun v' => (h1 v').2, h2, h3⟩

end QInfer
