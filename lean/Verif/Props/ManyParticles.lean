import Verif.Lemmas.Path
import Verif.Props.SimpleEst
import Verif.Props.SmcHistory
import Mathlib.Probability.StrongLaw
import Mathlib.Probability.Moments.Variance
import Mathlib.Probability.Independence.InfinitePi
import Mathlib.MeasureTheory.Function.SpecialFunctions.Basic

/-!
# C97, C98: drifting parameters, and the limit of many particles

Between resamplings the updater computes, for particles that move along paths, the exact posterior of
the paths (C97).  If the paths are drawn independently from the prior, then with more and more particles
all estimates converge to those of the exact Bayesian posterior, and the product of the recorded
normalizations is an unbiased estimate of the probability of the data (C98).
-/

namespace QInfer

open Spec Filter Topology MeasureTheory ProbabilityTheory Function

section paths

variable {K : Type*} {O E ω : Type*} [Field K] [LinearOrder K] [IsStrictOrderedRing K]

/-- Every run moves its particles along some paths. -/
theorem exists_moves (env : Env K O E ω) (hlen : ∀ r l e, (env.timestep r l e).1.length = l.length)
    (ds : List (O × E)) (r : ω) (n : Nat) (x : Fin n → List K) :
    ∃ p : Fin n → Nat → List K, (∀ i, p i 0 = x i) ∧ Moves env ds r p := by
  induction ds generalizing r x with
  | nil => exact ⟨fun i _ => x i, fun _ => rfl, trivial⟩
  | cons d ds ih =>
    have hl : (env.timestep r (List.ofFn x) d.2).1.length = n := by rw [hlen]; simp
    obtain ⟨q, hq0, hq⟩ := ih (env.timestep r (List.ofFn x) d.2).2
      fun i => (env.timestep r (List.ofFn x) d.2).1.get (i.cast hl.symm)
    refine ⟨fun i t => match t with | 0 => x i | t + 1 => q i t, fun _ => rfl, ?_, hq⟩
    show (env.timestep r (List.ofFn x) d.2).1 = List.ofFn fun i => q i 0
    simp only [hq0]
    apply List.ext_getElem
    · simp [hl]
    · intro i h1 h2
      simp

/-- **C97.**  Let the particles of an updater move along the paths `p` while the data `ds` come in
(they always move along some paths), and let no resampling take place, because it is not asked for or
its threshold is zero.  The run is accepted exactly if no datum takes the probability of the data so far
down by a factor below machine precision.  Then the weight of a particle is its share of the
total likelihood along the paths, the locations are the ends of the paths, and the recorded
normalizations multiply to the probability of the data. -/
theorem C97_path_posterior {n : Nat} (cfg : SmcConfig K) (env : Env K O E ω) (hg : GoodEnv env)
    (check : Bool) (hc : check = false ∨ cfg.resampleThresh ≤ 0)
    (hp : cfg.policy = "error") (ht : eps ≤ cfg.zeroThresh) (ht1 : cfg.zeroThresh < 1)
    (ds : List (O × E)) (w : Fin n → K) (p : Fin n → Nat → List K)
    (hw : ∀ i, 0 ≤ w i) (hs1 : ∑ i, w i = 1) (s : Smc K O ω) (hsw : s.weights = List.ofFn w)
    (hsl : s.locs = List.ofFn fun i => p i 0) (hm : Moves env ds s.seed p) :
    ((feed cfg env check ds s).2 = .ok () ↔ ∀ t < ds.length,
      eps * (∑ i, w i * pathLike env.likelihood (ds.take t) (p i)) ≤
        ∑ i, w i * pathLike env.likelihood (ds.take (t + 1)) (p i)) ∧
    ((feed cfg env check ds s).2 = .ok () →
      (feed cfg env check ds s).1.weights = List.ofFn (fun i => w i * pathLike env.likelihood ds (p i) /
          ∑ j, w j * pathLike env.likelihood ds (p j)) ∧
      (feed cfg env check ds s).1.locs = List.ofFn (fun i => p i ds.length) ∧
      ∃ ns : List K, (feed cfg env check ds s).1.normRecord = s.normRecord ++ ns ∧
        ns.length = ds.length ∧ ns.prod = ∑ i, w i * pathLike env.likelihood ds (p i)) := by
  obtain ⟨h1, h2⟩ := feed_paths cfg env hg check hc hp ht ht1 ds w p hw hs1 s hsw hsl hm
  refine ⟨h1, fun hok => ?_⟩
  obtain ⟨a, b, -, ns, c, d, -, e⟩ := h2 hok
  exact ⟨a, b, ns, c, d, e⟩

/-- **C97, motion.**  Every run has such paths. -/
theorem C97_every_run_has_paths (env : Env K O E ω) (hg : GoodEnv env) (ds : List (O × E))
    (s : Smc K O ω) :
    ∃ p : Fin s.locs.length → Nat → List K,
      s.locs = List.ofFn (fun i => p i 0) ∧ Moves env ds s.seed p := by
  obtain ⟨p, hp0, hp⟩ := exists_moves env hg.timestep_len ds s.seed s.locs.length fun i => s.locs.get i
  exact ⟨p, by simp only [hp0]; exact (List.ofFn_get s.locs).symm, hp⟩

end paths

/-! ### Many particles -/

section limit

variable {Ω S O E R : Type*} [MeasurableSpace Ω] [MeasurableSpace S]

/-- Updaters with `n` particles each, for every `n`: the particles are drawn independently from the
prior `π` on paths, `loc x t` being the parameters at time `t` on the path `x`; they start with equal
weights and move along their paths. -/
structure Spec.Sampled (P : Measure Ω) (π : Measure S) (X : ℕ → Ω → S) (loc : S → ℕ → List ℝ)
    (like : O → List ℝ → E → ℝ) (ds : List (O × E)) (env : ℕ → Ω → Env ℝ O E R)
    (s : ℕ → Ω → Smc ℝ O R) : Prop where
  meas : ∀ i, Measurable (X i)
  law : ∀ i, P.map (X i) = π
  indep : Pairwise ((· ⟂ᵢ[P] ·) on X)
  good : ∀ n v, GoodEnv (env n v)
  likelihood : ∀ n v, (env n v).likelihood = like
  weights : ∀ n v, (s n v).weights = List.replicate n (1 / (n : ℝ))
  locs : ∀ n v, (s n v).locs = List.ofFn fun i : Fin n => loc (X i v) 0
  moves : ∀ n v, Moves (env n v) ds (s n v).seed fun i : Fin n => loc (X i v)

variable {P : Measure Ω} [IsProbabilityMeasure P] {π : Measure S} {X : ℕ → Ω → S}

theorem particle_average (hmeas : ∀ i, Measurable (X i)) (hlaw : ∀ i, P.map (X i) = π)
    (hindep : Pairwise ((· ⟂ᵢ[P] ·) on X)) (g : S → ℝ) (hg : Measurable g) (hgi : Integrable g π) :
    ∀ᵐ v ∂P, Tendsto (fun n : ℕ => ∑ i : Fin n, 1 / (n : ℝ) * g (X i v)) atTop (𝓝 (∫ x, g x ∂π)) := by
  have h0 : Integrable (g ∘ X 0) P := by
    rw [← hlaw 0] at hgi
    exact (integrable_map_measure hg.aestronglyMeasurable (hmeas 0).aemeasurable).1 hgi
  have h := strong_law_ae_real (fun i => g ∘ X i) h0
    (fun i j hij => (hindep hij).comp hg hg)
    (fun i => (IdentDistrib.mk (hmeas i).aemeasurable (hmeas 0).aemeasurable
      (by rw [hlaw, hlaw])).comp hg)
  have he : ∫ v, (g ∘ X 0) v ∂P = ∫ x, g x ∂π := by
    rw [← hlaw 0, integral_map (hmeas 0).aemeasurable hg.aestronglyMeasurable]
    rfl
  rw [he] at h
  filter_upwards [h] with v hv
  refine hv.congr fun n => ?_
  rw [Finset.sum_range, Finset.sum_div]
  exact Finset.sum_congr rfl fun i _ => by simp [div_eq_inv_mul]

variable {loc : S → ℕ → List ℝ} {like : O → List ℝ → E → ℝ} {ds : List (O × E)}
  {env : ℕ → Ω → Env ℝ O E R} {s : ℕ → Ω → Smc ℝ O R}

theorem Spec.Sampled.feed (h : Sampled P π X loc like ds env s) (cfg : SmcConfig ℝ) (check : Bool)
    (hc : check = false ∨ cfg.resampleThresh ≤ 0)
    (hp : cfg.policy = "error") (ht : eps ≤ cfg.zeroThresh) (ht1 : cfg.zeroThresh < 1)
    (n : ℕ) (hn : n ≠ 0) (v : Ω) :
    ((feed cfg (env n v) check ds (s n v)).2 = .ok () ↔ ∀ t < ds.length,
      eps * (∑ i : Fin n, 1 / (n : ℝ) * pathLike like (ds.take t) (loc (X i v))) ≤
        ∑ i : Fin n, 1 / (n : ℝ) * pathLike like (ds.take (t + 1)) (loc (X i v))) ∧
    ((feed cfg (env n v) check ds (s n v)).2 = .ok () →
      (feed cfg (env n v) check ds (s n v)).1.weights = List.ofFn (fun i : Fin n =>
        1 / (n : ℝ) * pathLike like ds (loc (X i v)) /
          ∑ j : Fin n, 1 / (n : ℝ) * pathLike like ds (loc (X j v))) ∧
      (feed cfg (env n v) check ds (s n v)).1.locs =
        List.ofFn (fun i : Fin n => loc (X i v) ds.length) ∧
      0 < ∑ j : Fin n, 1 / (n : ℝ) * pathLike like ds (loc (X j v)) ∧
      ∃ ns : List ℝ, (feed cfg (env n v) check ds (s n v)).1.normRecord = (s n v).normRecord ++ ns ∧
        ns.length = ds.length ∧ (∀ x ∈ ns, eps ≤ x) ∧
        ns.prod = ∑ i : Fin n, 1 / (n : ℝ) * pathLike like ds (loc (X i v))) := by
  have hn' : (n : ℝ) ≠ 0 := Nat.cast_ne_zero.2 hn
  have := feed_paths cfg (env n v) (h.good n v) check hc hp ht ht1 ds (fun _ : Fin n => 1 / (n : ℝ))
    (fun i => loc (X i v)) (fun i => by positivity) (by simp [hn']) (s n v)
    (by rw [h.weights, List.ofFn_const]) (h.locs n v) (h.moves n v)
  rw [h.likelihood] at this
  exact this

/-- The estimate of the mean of `f` over the particles of an updater. -/
noncomputable def Spec.cloudMean (f : List ℝ → ℝ) (u : Smc ℝ O R) : ℝ :=
  ((u.weights.zip u.locs).map fun p => p.1 * f p.2).sum

/-- Posterior mean of `f` at the end of the data. -/
noncomputable def Spec.trueMean (π : Measure S) (loc : S → ℕ → List ℝ) (like : O → List ℝ → E → ℝ)
    (ds : List (O × E)) (f : List ℝ → ℝ) : ℝ :=
  (∫ x, pathLike like ds (loc x) * f (loc x ds.length) ∂π) / ∫ x, pathLike like ds (loc x) ∂π

/-- **C98.**  As the number of particles grows the runs are eventually accepted, and the
estimate of the mean of any function `f` of the parameters converges to its mean under the exact
posterior, with probability one; so does the product of the recorded normalizations to the
probability of the data. -/
theorem C98_consistent (h : Sampled P π X loc like ds env s) (cfg : SmcConfig ℝ) (check : Bool)
    (hc : check = false ∨ cfg.resampleThresh ≤ 0)
    (hp : cfg.policy = "error") (ht : eps ≤ cfg.zeroThresh) (ht1 : cfg.zeroThresh < 1)
    (hmeas : ∀ t ≤ ds.length, Measurable fun x => pathLike like (ds.take t) (loc x))
    (hint : ∀ t ≤ ds.length, Integrable (fun x => pathLike like (ds.take t) (loc x)) π)
    (hpos : ∀ t < ds.length, eps * (∫ x, pathLike like (ds.take t) (loc x) ∂π) <
      ∫ x, pathLike like (ds.take (t + 1)) (loc x) ∂π)
    (f : List ℝ → ℝ) (hf : Measurable fun x => f (loc x ds.length))
    (hfi : Integrable (fun x => pathLike like ds (loc x) * f (loc x ds.length)) π) :
    ∀ᵐ v ∂P, (∀ᶠ n in atTop, (feed cfg (env n v) check ds (s n v)).2 = .ok ()) ∧
      Tendsto (fun n => cloudMean f (feed cfg (env n v) check ds (s n v)).1) atTop
        (𝓝 (trueMean π loc like ds f)) ∧
      ((∀ n, (s n v).normRecord = []) →
        Tendsto (fun n => (feed cfg (env n v) check ds (s n v)).1.normRecord.prod) atTop
          (𝓝 (∫ x, pathLike like ds (loc x) ∂π))) := by
  have htake : ds.take ds.length = ds := List.take_length
  have hπ : IsProbabilityMeasure π := by
    rw [← h.law 0]; exact Measure.isProbabilityMeasure_map (h.meas 0).aemeasurable
  have hZpos : ∀ t ≤ ds.length, 0 < ∫ x, pathLike like (ds.take t) (loc x) ∂π := by
    intro t ht
    induction t with
    | zero => simp [pathLike]
    | succ t ih =>
      exact lt_of_le_of_lt (mul_nonneg eps_pos.le (ih (by omega)).le) (hpos t (by omega))
  have hav : ∀ᵐ v ∂P, ∀ t : Fin (ds.length + 1),
      Tendsto (fun n : ℕ => ∑ i : Fin n, 1 / (n : ℝ) * pathLike like (ds.take t) (loc (X i v))) atTop
        (𝓝 (∫ x, pathLike like (ds.take t) (loc x) ∂π)) := by
    rw [ae_all_iff]
    intro t
    exact particle_average h.meas h.law h.indep (fun x => pathLike like (ds.take t) (loc x))
      (hmeas t (by omega)) (hint t (by omega))
  have hmL : Measurable fun x => pathLike like ds (loc x) := by
    have := hmeas ds.length le_rfl; rwa [htake] at this
  filter_upwards [hav, particle_average h.meas h.law h.indep _ (hmL.mul hf) hfi] with v hv hvf
  have hok : ∀ᶠ n in atTop, (QInfer.feed cfg (env n v) check ds (s n v)).2 = .ok () := by
    have : ∀ᶠ n : ℕ in atTop, ∀ t : Fin ds.length,
        eps * (∑ i : Fin n, 1 / (n : ℝ) * pathLike like (ds.take t) (loc (X i v))) <
        ∑ i : Fin n, 1 / (n : ℝ) * pathLike like (ds.take (t + 1)) (loc (X i v)) := by
      rw [eventually_all]
      intro t
      have h1 := (hv ⟨t, by omega⟩).const_mul (eps : ℝ)
      have h2 := hv ⟨t + 1, by omega⟩
      exact h1.eventually_lt h2 (hpos t t.2)
    filter_upwards [this, eventually_ne_atTop 0] with n hn hn0
    exact ((h.feed cfg check hc hp ht ht1 n hn0 v).1).2 fun t ht => (hn ⟨t, ht⟩).le
  have hvL := hv ⟨ds.length, by omega⟩
  simp only [htake] at hvL
  have hZ := hZpos ds.length le_rfl
  rw [htake] at hZ
  refine ⟨hok, ?_, fun hnil => ?_⟩
  · refine (hvf.div hvL hZ.ne').congr' ?_
    filter_upwards [hok, eventually_ne_atTop 0] with n hn hn0
    obtain ⟨a, b, -, -⟩ := (h.feed cfg check hc hp ht ht1 n hn0 v).2 hn
    rw [cloudMean, a, b, zip_ofFn, List.map_ofFn, List.sum_ofFn, Pi.div_apply, Finset.sum_div]
    refine Finset.sum_congr rfl fun i _ => ?_
    simp only [comp_apply, Pi.mul_apply]
    ring
  · refine hvL.congr' ?_
    filter_upwards [hok, eventually_ne_atTop 0] with n hn hn0
    obtain ⟨-, -, -, ns, c, -, -, d⟩ := (h.feed cfg check hc hp ht ht1 n hn0 v).2 hn
    rw [c, hnil, List.nil_append, d]

theorem cloudMean_est_mean (d : Nat) (u : Smc ℝ O R) (k : Nat) (hk : k < d) :
    (smcMean d u.weights u.locs).getD k 0 = cloudMean (fun x => x.getD k 0) u :=
  smcMean_getD d _ _ k hk

/-- **C98, estimates.**  `est_mean` and `est_covariance_mtx` converge to the mean and covariance of the
exact posterior, with probability one. -/
theorem C98_estimates (h : Sampled P π X loc like ds env s) (cfg : SmcConfig ℝ) (check : Bool)
    (hc : check = false ∨ cfg.resampleThresh ≤ 0)
    (hp : cfg.policy = "error") (ht : eps ≤ cfg.zeroThresh) (ht1 : cfg.zeroThresh < 1)
    (hmeas : ∀ t ≤ ds.length, Measurable fun x => pathLike like (ds.take t) (loc x))
    (hint : ∀ t ≤ ds.length, Integrable (fun x => pathLike like (ds.take t) (loc x)) π)
    (hpos : ∀ t < ds.length, eps * (∫ x, pathLike like (ds.take t) (loc x) ∂π) <
      ∫ x, pathLike like (ds.take (t + 1)) (loc x) ∂π)
    (d : Nat) (hm : ∀ k < d, Measurable fun x => (loc x ds.length).getD k 0)
    (hi1 : ∀ k < d, Integrable (fun x => pathLike like ds (loc x) * (loc x ds.length).getD k 0) π)
    (hi2 : ∀ k < d, ∀ l < d, Integrable (fun x => pathLike like ds (loc x) *
      ((loc x ds.length).getD k 0 * (loc x ds.length).getD l 0)) π) :
    ∀ᵐ v ∂P, ∀ k < d,
      Tendsto (fun n => (smcMean d (feed cfg (env n v) check ds (s n v)).1.weights
          (feed cfg (env n v) check ds (s n v)).1.locs).getD k 0) atTop
        (𝓝 (trueMean π loc like ds fun x => x.getD k 0)) ∧
      ∀ l < d, Tendsto (fun n => ((smcCov d (feed cfg (env n v) check ds (s n v)).1.weights
          (feed cfg (env n v) check ds (s n v)).1.locs).getD k []).getD l 0) atTop
        (𝓝 (trueMean π loc like ds (fun x => x.getD k 0 * x.getD l 0) -
          trueMean π loc like ds (fun x => x.getD k 0) * trueMean π loc like ds fun x => x.getD l 0)) := by
  have h1 : ∀ᵐ v ∂P, ∀ k : Fin d,
      Tendsto (fun n => cloudMean (fun x => x.getD k 0) (QInfer.feed cfg (env n v) check ds (s n v)).1)
        atTop (𝓝 (trueMean π loc like ds fun x => x.getD k 0)) := by
    rw [ae_all_iff]
    intro k
    filter_upwards [C98_consistent h cfg check hc hp ht ht1 hmeas hint hpos (fun x => x.getD k 0)
      (hm k k.2) (hi1 k k.2)] with v hv using hv.2.1
  have h2 : ∀ᵐ v ∂P, ∀ k l : Fin d,
      Tendsto (fun n => cloudMean (fun x => x.getD k 0 * x.getD l 0)
        (QInfer.feed cfg (env n v) check ds (s n v)).1)
        atTop (𝓝 (trueMean π loc like ds fun x => x.getD k 0 * x.getD l 0)) := by
    rw [ae_all_iff]
    intro k
    rw [ae_all_iff]
    intro l
    filter_upwards [C98_consistent h cfg check hc hp ht ht1 hmeas hint hpos
      (fun x => x.getD k 0 * x.getD l 0) ((hm k k.2).mul (hm l l.2)) (hi2 k k.2 l l.2)] with v hv
      using hv.2.1
  filter_upwards [h1, h2] with v h1 h2 k hk
  refine ⟨(h1 ⟨k, hk⟩).congr fun n => (cloudMean_est_mean d _ k hk).symm, fun l hl => ?_⟩
  refine ((h2 ⟨k, hk⟩ ⟨l, hl⟩).sub ((h1 ⟨k, hk⟩).mul (h1 ⟨l, hl⟩))).congr fun n => ?_
  exact (smcCov_getD d _ _ k l hk hl).symm

/-- **C98, evidence.**  `log_total_likelihood` converges to the logarithm of the probability of the
data, with probability one. -/
theorem C98_log_total_likelihood (h : Sampled P π X loc like ds env s) (cfg : SmcConfig ℝ) (check : Bool)
    (hc : check = false ∨ cfg.resampleThresh ≤ 0)
    (hp : cfg.policy = "error") (ht : eps ≤ cfg.zeroThresh) (ht1 : cfg.zeroThresh < 1)
    (hmeas : ∀ t ≤ ds.length, Measurable fun x => pathLike like (ds.take t) (loc x))
    (hint : ∀ t ≤ ds.length, Integrable (fun x => pathLike like (ds.take t) (loc x)) π)
    (hpos : ∀ t < ds.length, eps * (∫ x, pathLike like (ds.take t) (loc x) ∂π) <
      ∫ x, pathLike like (ds.take (t + 1)) (loc x) ∂π)
    (hnil : ∀ n v, (s n v).normRecord = []) :
    ∀ᵐ v ∂P, Tendsto (fun n => logTotalLikelihood (feed cfg (env n v) check ds (s n v)).1) atTop
      (𝓝 (Real.log (∫ x, pathLike like ds (loc x) ∂π))) := by
  have htake : ds.take ds.length = ds := List.take_length
  have hπ : IsProbabilityMeasure π := by
    rw [← h.law 0]; exact Measure.isProbabilityMeasure_map (h.meas 0).aemeasurable
  have hZpos : ∀ t ≤ ds.length, 0 < ∫ x, pathLike like (ds.take t) (loc x) ∂π := by
    intro t ht
    induction t with
    | zero => simp [pathLike]
    | succ t ih =>
      exact lt_of_le_of_lt (mul_nonneg eps_pos.le (ih (by omega)).le) (hpos t (by omega))
  have hZ := hZpos ds.length le_rfl
  have hi := hint ds.length le_rfl
  rw [htake] at hZ hi
  filter_upwards [C98_consistent h cfg check hc hp ht ht1 hmeas hint hpos (fun _ => 1)
    measurable_const (by simpa using hi)] with v hv
  have hlog := ((Real.continuousAt_log hZ.ne').tendsto).comp (hv.2.2 fun n => hnil n v)
  refine hlog.congr' ?_
  filter_upwards [hv.1, eventually_ne_atTop 0] with n hn hn0
  obtain ⟨-, -, -, ns, c, -, e, -⟩ := (h.feed cfg check hc hp ht ht1 n hn0 v).2 hn
  rw [comp_apply, logTotalLikelihood, c, hnil, List.nil_append,
    Real.log_list_prod fun x hx => (lt_of_lt_of_le eps_pos (e x hx)).ne']

/-- **C98, every number of particles.**  If no likelihood is below machine precision, every run is
accepted, and for every number `n ≥ 1` of particles the product of the recorded normalizations has the
probability of the data as its mean and a variance that falls as `1/n`; so large errors are improbable. -/
theorem C98_unbiased (h : Sampled P π X loc like ds env s) (cfg : SmcConfig ℝ) (check : Bool)
    (hc : check = false ∨ cfg.resampleThresh ≤ 0)
    (hp : cfg.policy = "error") (ht : eps ≤ cfg.zeroThresh) (ht1 : cfg.zeroThresh < 1)
    (hL : ∀ o x e, eps ≤ like o x e)
    (hmeas : Measurable fun x => pathLike like ds (loc x))
    (hint : MemLp (fun x => pathLike like ds (loc x)) 2 π)
    (hnil : ∀ n v, (s n v).normRecord = []) (n : ℕ) (hn : n ≠ 0) :
    (∀ v, (feed cfg (env n v) check ds (s n v)).2 = .ok ()) ∧
    ∫ v, (feed cfg (env n v) check ds (s n v)).1.normRecord.prod ∂P =
      ∫ x, pathLike like ds (loc x) ∂π ∧
    Var[fun v => (feed cfg (env n v) check ds (s n v)).1.normRecord.prod; P] =
      Var[fun x => pathLike like ds (loc x); π] / n ∧
    ∀ δ > 0, P {v | δ ≤ |(feed cfg (env n v) check ds (s n v)).1.normRecord.prod -
        ∫ x, pathLike like ds (loc x) ∂π|} ≤
      ENNReal.ofReal (Var[fun x => pathLike like ds (loc x); π] / (n * δ ^ 2)) := by
  have hπ : IsProbabilityMeasure π := by
    rw [← h.law 0]; exact Measure.isProbabilityMeasure_map (h.meas 0).aemeasurable
  have hn' : (n : ℝ) ≠ 0 := Nat.cast_ne_zero.2 hn
  have hok : ∀ v, (QInfer.feed cfg (env n v) check ds (s n v)).2 = .ok () := by
    intro v
    refine ((h.feed cfg check hc hp ht ht1 n hn v).1).2 fun t ht => ?_
    rw [Finset.mul_sum]
    refine Finset.sum_le_sum fun i _ => ?_
    rw [List.take_succ_eq_append_getElem ht, pathLike_append]
    have h0 : 0 ≤ pathLike like (ds.take t) (loc (X i v)) :=
      pathLike_nonneg _ (fun o x e => eps_pos.le.trans (hL o x e)) _ _
    have h1 := hL ds[t].1 (loc (X i v) ((ds.take t).length + 0)) ds[t].2
    have h2 : (0 : ℝ) ≤ 1 / n := by positivity
    simp only [pathLike, mul_one]
    calc eps * (1 / (n : ℝ) * pathLike like (ds.take t) (loc (X i v)))
        = 1 / (n : ℝ) * pathLike like (ds.take t) (loc (X i v)) * eps := by ring
      _ ≤ 1 / (n : ℝ) * pathLike like (ds.take t) (loc (X i v)) * _ :=
          mul_le_mul_of_nonneg_left h1 (mul_nonneg h2 h0)
      _ = _ := by ring
  have hprod : ∀ v, (QInfer.feed cfg (env n v) check ds (s n v)).1.normRecord.prod =
      (1 / (n : ℝ)) * (∑ i ∈ Finset.range n, (fun v => pathLike like ds (loc (X i v)))) v := by
    intro v
    obtain ⟨-, -, -, ns, c, -, -, e⟩ := (h.feed cfg check hc hp ht ht1 n hn v).2 (hok v)
    rw [c, hnil, List.nil_append, e, Finset.sum_apply, Finset.sum_range, Finset.mul_sum]
  have hmem : ∀ i, MemLp (fun v => pathLike like ds (loc (X i v))) 2 P := by
    intro i
    have h2 := hint
    rw [← h.law i] at h2
    exact (memLp_map_measure_iff hmeas.aestronglyMeasurable (h.meas i).aemeasurable).1 h2
  have hmean : ∀ i, ∫ v, pathLike like ds (loc (X i v)) ∂P = ∫ x, pathLike like ds (loc x) ∂π := by
    intro i
    rw [← h.law i, integral_map (h.meas i).aemeasurable hmeas.aestronglyMeasurable]
  have hvar : ∀ i, Var[fun v => pathLike like ds (loc (X i v)); P] =
      Var[fun x => pathLike like ds (loc x); π] := by
    intro i
    rw [← h.law i, variance_map hmeas.aemeasurable (h.meas i).aemeasurable]
    rfl
  have hsumlp : MemLp (∑ i ∈ Finset.range n, (fun v => pathLike like ds (loc (X i v)))) 2 P :=
    memLp_finsetSum' _ fun i _ => hmem i
  have hE : ∫ v, (QInfer.feed cfg (env n v) check ds (s n v)).1.normRecord.prod ∂P =
      ∫ x, pathLike like ds (loc x) ∂π := by
    simp_rw [hprod]
    rw [integral_const_mul]
    simp_rw [Finset.sum_apply]
    rw [integral_finsetSum _ fun i _ => (hmem i).integrable (by norm_num)]
    simp_rw [hmean]
    rw [Finset.sum_const, Finset.card_range, nsmul_eq_mul]
    field_simp
  have hV : Var[fun v => (QInfer.feed cfg (env n v) check ds (s n v)).1.normRecord.prod; P] =
      Var[fun x => pathLike like ds (loc x); π] / n := by
    simp_rw [hprod]
    rw [variance_const_mul, IndepFun.variance_sum (fun i _ => hmem i)
      (fun i _ j _ hij => (h.indep hij).comp hmeas hmeas)]
    simp_rw [hvar]
    rw [Finset.sum_const, Finset.card_range, nsmul_eq_mul]
    field_simp
  refine ⟨hok, hE, hV, fun δ hδ => ?_⟩
  have hlp : MemLp (fun v => (QInfer.feed cfg (env n v) check ds (s n v)).1.normRecord.prod) 2 P := by
    simp_rw [hprod]
    exact hsumlp.const_mul _
  have := meas_ge_le_variance_div_sq hlp hδ
  rw [hE, hV, div_div] at this
  exact this

end limit

/-! ### A case: a phase that grows at an unknown rate -/

/-- Two parameters, a phase and its rate; the phase grows by the rate after every experiment.  The
particles of a run with draws `v` start at these draws. -/
noncomputable def phaseEnv (v : ℕ → ℝ × ℝ) : Env ℝ Bool Unit Unit where
  likelihood o x _ := 1 / 2 + (if o then 1 else -1) * Real.sin (x.getD 0 0) / 4
  timestep r l _ := (l.map fun x => [x.getD 0 0 + x.getD 1 0, x.getD 1 0], r)
  canon l := l
  clearCacheRaises := false
  prior r n := (List.ofFn fun i : Fin n => [(v i).1, (v i).2], r)
  resampler r w l := (.ok (w, l), r)
  kl _ _ _ _ := 0

/-- The parameters at time `t`. -/
noncomputable def phaseLoc (x : ℝ × ℝ) (t : ℕ) : List ℝ := [x.1 + t * x.2, x.2]

/-- An updater that does not resample. -/
noncomputable def phaseCfg : SmcConfig ℝ where
  resampleThresh := 0
  policy := "error"
  zeroThresh := 10 * eps
  canonicalize := false

theorem phaseEnv_good (v : ℕ → ℝ × ℝ) : GoodEnv (phaseEnv v) where
  like_nonneg o x e := by
    have h1 := Real.neg_one_le_sin (x.getD 0 0)
    have h2 := Real.sin_le_one (x.getD 0 0)
    simp only [phaseEnv]
    generalize Real.sin (x.getD 0 0) = y at *
    cases o <;> norm_num <;> linarith
  prior_len r n := by simp [phaseEnv]
  canon_len l := rfl
  timestep_len r l e := by simp [phaseEnv]
  resampler_ok r w l w' l' hw hl h := by
    simp only [phaseEnv, Except.ok.injEq, Prod.mk.injEq] at h
    obtain ⟨rfl, rfl⟩ := h
    exact ⟨hw, hl⟩

theorem phaseEnv_moves (v : ℕ → ℝ × ℝ) (n k : ℕ) (ds : List (Bool × Unit)) (r : Unit) :
    Moves (phaseEnv v) ds r fun (i : Fin n) t => phaseLoc (v i) (k + t) := by
  induction ds generalizing k r with
  | nil => trivial
  | cons d ds ih =>
    refine ⟨?_, ?_⟩
    · simp only [phaseEnv, List.map_ofFn]
      congr 1
      funext i
      simp only [comp_apply, phaseLoc, List.getD_cons_zero, List.getD_cons_succ, List.cons.injEq,
        and_true]
      push_cast
      ring
    · have := ih (k + 1) ((phaseEnv v).timestep r (List.ofFn fun i : Fin n => phaseLoc (v i) (k + 0)) d.2).2
      simpa only [Nat.add_assoc, Nat.add_comm 1] using this

/-- Case for C97 and C98: updaters for this model with independent draws from any prior `π`, fed
with any data. -/
theorem phase_sampled (π : Measure (ℝ × ℝ)) [IsProbabilityMeasure π] (ds : List (Bool × Unit)) :
    Sampled (Measure.infinitePi fun _ : ℕ => π) π (fun i v => v i) phaseLoc
      (phaseEnv fun _ => 0).likelihood ds (fun _ v => phaseEnv v)
      (fun n v => (construct phaseCfg (phaseEnv v) n false ()).1) where
  meas i := measurable_pi_apply i
  law i := Measure.infinitePi_map_eval _ i
  indep i j hij := (iIndepFun_infinitePi (P := fun _ : ℕ => π) (X := fun _ x => x)
    (fun _ => measurable_id)).indepFun hij
  good n v := phaseEnv_good v
  likelihood n v := rfl
  weights n v := rfl
  locs n v := by simp [construct, reset, phaseEnv, phaseCfg, phaseLoc]
  moves n v := by
    have := phaseEnv_moves v n 0 ds (construct phaseCfg (phaseEnv v) n false ()).1.seed
    simpa using this

theorem phase_like (o : Bool) (x : List ℝ) (e : Unit) :
    1 / 4 ≤ (phaseEnv fun _ => 0).likelihood o x e ∧ (phaseEnv fun _ => 0).likelihood o x e ≤ 3 / 4 := by
  have h1 := Real.neg_one_le_sin (x.getD 0 0)
  have h2 := Real.sin_le_one (x.getD 0 0)
  simp only [phaseEnv]
  generalize Real.sin (x.getD 0 0) = y at *
  cases o <;> norm_num <;> constructor <;> linarith

theorem phase_meas (ds : List (Bool × Unit)) (k : ℕ) :
    Measurable fun x => pathLike (phaseEnv fun _ => 0).likelihood ds fun t => phaseLoc x (k + t) := by
  induction ds generalizing k with
  | nil => exact measurable_const
  | cons d ds ih =>
    simp only [pathLike]
    refine Measurable.mul ?_ ?_
    · simp only [phaseEnv, phaseLoc, List.getD_cons_zero]
      fun_prop
    · have := ih (k + 1)
      simpa only [Nat.add_assoc, Nat.add_comm 1] using this

theorem phase_bound (ds : List (Bool × Unit)) (p : ℕ → List ℝ) :
    ‖pathLike (phaseEnv fun _ => 0).likelihood ds p‖ ≤ 1 := by
  induction ds generalizing p with
  | nil => simp [pathLike]
  | cons d ds ih =>
    have h1 := phase_like d.1 (p 0) d.2
    rw [pathLike, norm_mul]
    refine mul_le_one₀ ?_ (norm_nonneg _) (ih _)
    rw [Real.norm_eq_abs, abs_of_nonneg (by linarith [h1.1])]
    linarith [h1.2]

/-- Case for C97: three particles with a growing phase; after every accepted run their weights are
their shares of the likelihood along the way. -/
example (v : ℕ → ℝ × ℝ) (ds : List (Bool × Unit))
    (h : (feed phaseCfg (phaseEnv v) true ds (construct phaseCfg (phaseEnv v) 3 false ()).1).2 = .ok ()) :
    (feed phaseCfg (phaseEnv v) true ds (construct phaseCfg (phaseEnv v) 3 false ()).1).1.weights =
      List.ofFn fun i : Fin 3 => 1 / 3 * pathLike (phaseEnv v).likelihood ds (phaseLoc (v i)) /
        ∑ j : Fin 3, 1 / 3 * pathLike (phaseEnv v).likelihood ds (phaseLoc (v j)) := by
  have hε : (eps : ℝ) ≤ 1 / 40 := by unfold eps; norm_num
  have hm := phaseEnv_moves v 3 0 ds (construct phaseCfg (phaseEnv v) 3 false ()).1.seed
  simp only [Nat.zero_add] at hm
  refine ((C97_path_posterior phaseCfg (phaseEnv v) (phaseEnv_good v) true (Or.inr le_rfl) rfl
    (by show (eps : ℝ) ≤ 10 * eps; linarith [eps_pos (K := ℝ)])
    (by show 10 * (eps : ℝ) < 1; linarith) ds (fun _ : Fin 3 => 1 / 3) (fun i => phaseLoc (v i))
    (fun _ => by norm_num) (by norm_num) _ ?_ ?_ hm).2 h).1
  · simp [construct, reset, phaseEnv, phaseCfg, List.replicate]
  · simp [construct, reset, phaseEnv, phaseCfg, phaseLoc]

/-- Case for C98: with `n` particles for the growing phase the recorded normalizations estimate
the probability of the data without bias, whatever the data and the prior. -/
example (π : Measure (ℝ × ℝ)) [IsProbabilityMeasure π] (ds : List (Bool × Unit)) (n : ℕ) (hn : n ≠ 0) :
    ∫ v, (feed phaseCfg (phaseEnv v) true ds (construct phaseCfg (phaseEnv v) n false ()).1).1.normRecord.prod
        ∂Measure.infinitePi (fun _ : ℕ => π) =
      ∫ x, pathLike (phaseEnv fun _ => 0).likelihood ds (phaseLoc x) ∂π := by
  have hm : Measurable fun x => pathLike (phaseEnv fun _ => 0).likelihood ds (phaseLoc x) := by
    simpa using phase_meas ds 0
  have hε : (eps : ℝ) ≤ 1 / 40 := by unfold eps; norm_num
  exact (C98_unbiased (phase_sampled π ds) phaseCfg true (Or.inr le_rfl) rfl
    (by show (eps : ℝ) ≤ 10 * eps; linarith [eps_pos (K := ℝ)])
    (by show 10 * (eps : ℝ) < 1; linarith)
    (fun o x e => le_trans (by linarith) (phase_like o x e).1) hm
    (MemLp.of_bound hm.aestronglyMeasurable 1 (ae_of_all _ fun x => phase_bound ds _))
    (fun n v => rfl) n hn).2.1

end QInfer
