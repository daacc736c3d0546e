import Verif.Model.Handover
import Verif.Props.Unbiased
import Verif.Props.Mixtures
import Verif.Props.Batched
import Verif.Lemmas.Adapt

/-!
# C131: a posterior serves as the next prior

An updater can be handed over as the prior of another one.  Its samples are independent draws from its
weighted particles, and as the number of particles of the second updater grows its estimates converge to
those from all data together.
-/

set_option linter.unusedSectionVars false

namespace QInfer

open Spec MeasureTheory ProbabilityTheory Filter Topology Function
open scoped ENNReal

variable {O E : Type} {Ω : Type} [MeasurableSpace Ω]

/-- A stream of independent variates, uniformly distributed in `[0, 1)`. -/
structure Spec.Variates (P : Measure Ω) (X : ℕ → Ω → Unit01) : Prop where
  meas : ∀ i, Measurable (X i)
  law : ∀ i, P.map (X i) = uniform01
  indep : iIndepFun X P

/-- The law of a weighted cloud. -/
noncomputable def Spec.cloudLaw (w : List ℝ) (locs : List (List ℝ)) : Measure (List ℝ) :=
  ∑ i : Fin w.length, ENNReal.ofReal (w.get i) • Measure.dirac (locs.getD i [])

/-! ## Helper lemmas -/

/-- The row chosen by a variate. -/
noncomputable def cloudRow (w : List ℝ) (locs : List (List ℝ)) (u : Unit01) : List ℝ :=
  locs.getD (sampleIdx w (u : ℝ)) []

theorem cloudPrior_rows (w : List ℝ) (locs : List (List ℝ)) (hlen : locs.length = w.length) (hne : w ≠ [])
    (us : ℕ → ℝ) (n : ℕ) :
    particleSample w locs (List.ofFn fun i : Fin n => us i) =
      .ok (List.ofFn fun i : Fin n => locs.getD (sampleIdx w (us i)) []) ∧
    (cloudPrior w locs us n).1 = List.ofFn fun i : Fin n => locs.getD (sampleIdx w (us i)) [] := by
  obtain ⟨xs, h1, h2⟩ := (C17_draws_are_particles w locs hlen (List.ofFn fun i : Fin n => us i)).1 hne
  have hxs : xs = List.ofFn fun i : Fin n => locs.getD (sampleIdx w (us i)) [] := by
    apply List.ext_getElem
    · rw [← h2.length_eq]; simp
    · intro i hi1 hi2
      have hi : i < n := by simpa using hi2
      have := (List.forall₂_iff_get.1 h2).2 i (by simpa using hi) hi1
      simp only [List.get_eq_getElem, List.getElem_ofFn] at this ⊢
      rw [List.getD_eq_getElem?_getD, this.1]; rfl
  rw [← hxs]
  exact ⟨h1, by simp only [cloudPrior, h1]; rfl⟩

theorem cloudRow_parent (w : List ℝ) (locs : List (List ℝ)) (hn : 0 < w.length) (u : Unit01) :
    cloudRow w locs u = locs.getD (parent w.get hn u) [] := by
  simp [cloudRow, parent]

theorem cloudRow_average (w : List ℝ) (h : IsProb w) (locs : List (List ℝ)) (g : List ℝ → ℝ) :
    Measurable (fun u => g (cloudRow w locs u)) ∧ Integrable (fun u => g (cloudRow w locs u)) uniform01 ∧
    ∫ u, g (cloudRow w locs u) ∂uniform01 = ∑ i : Fin w.length, w.get i * g (locs.getD i []) := by
  have hs : ∑ i, w.get i = 1 := by rw [← List.sum_ofFn, List.ofFn_get]; exact h.2
  have hn := pos_of_sum hs
  have he : (fun u => g (cloudRow w locs u)) = fun u : Unit01 => g (locs.getD (parent w.get hn u) []) :=
    funext fun u => by rw [cloudRow_parent w locs hn]
  have hm : Measurable fun u : Unit01 => parent w.get hn u :=
    (measurable_parent _ hn).comp measurable_subtype_coe
  have hm' : Measurable (fun u => g (cloudRow w locs u)) := by
    rw [he]; exact (measurable_of_finite fun i : Fin w.length => g (locs.getD i [])).comp hm
  refine ⟨hm', ?_, ?_⟩
  · refine Integrable.of_bound hm'.aestronglyMeasurable (∑ i : Fin w.length, |g (locs.getD i [])|) ?_
    refine Eventually.of_forall fun u => ?_
    rw [show g (cloudRow w locs u) = _ from congrFun he u, Real.norm_eq_abs]
    exact Finset.single_le_sum (f := fun i : Fin w.length => |g (locs.getD i [])|) (fun i _ => abs_nonneg _)
      (Finset.mem_univ _)
  · rw [he]
    exact parent_average w.get (fun i => h.1 _ (List.get_mem w i)) hs fun i => g (locs.getD i [])

theorem cloudRow_law (w : List ℝ) (h : IsProb w) (locs : List (List ℝ)) :
    Measurable (cloudRow w locs) ∧ uniform01.map (cloudRow w locs) = cloudLaw w locs := by
  have hs : ∑ i, w.get i = 1 := by rw [← List.sum_ofFn, List.ofFn_get]; exact h.2
  have hn := pos_of_sum hs
  have hm : Measurable (cloudRow w locs) := by
    have he : cloudRow w locs = fun u : Unit01 => locs.getD (parent w.get hn u) [] :=
      funext fun u => cloudRow_parent w locs hn u
    rw [he]
    exact (measurable_of_finite fun i : Fin w.length => locs.getD i []).comp
      ((measurable_parent _ hn).comp measurable_subtype_coe)
  refine ⟨hm, ?_⟩
  have : IsProbabilityMeasure (uniform01.map (cloudRow w locs)) :=
    Measure.isProbabilityMeasure_map hm.aemeasurable
  ext A hA
  have h1 := (cloudRow_average w h locs (A.indicator fun _ => 1)).2.2
  have h2 : ∫ u, A.indicator (fun _ => (1 : ℝ)) (cloudRow w locs u) ∂uniform01 =
      (uniform01.map (cloudRow w locs)).real A := by
    rw [← integral_map hm.aemeasurable (measurable_const.indicator hA).aestronglyMeasurable,
      integral_indicator hA]
    simp
  have h3 : (cloudLaw w locs) A = ENNReal.ofReal (∑ i : Fin w.length, w.get i * A.indicator (fun _ => 1) (locs.getD i [])) := by
    rw [cloudLaw, Measure.finsetSum_apply, ENNReal.ofReal_sum_of_nonneg]
    · refine Finset.sum_congr rfl fun i _ => ?_
      rw [Measure.smul_apply, Measure.dirac_apply' _ hA, smul_eq_mul,
        ENNReal.ofReal_mul (h.1 _ (List.get_mem w i))]
      congr 1
      by_cases hi : locs.getD i [] ∈ A
      · rw [Set.indicator_of_mem hi, Set.indicator_of_mem hi]; simp
      · rw [Set.indicator_of_notMem hi, Set.indicator_of_notMem hi]; simp
    · intro i _
      exact mul_nonneg (h.1 _ (List.get_mem w i)) (Set.indicator_nonneg (fun _ _ => zero_le_one) _)
  rw [h3, ← h1, h2, ofReal_measureReal]

theorem pathLike_still (like : O → List ℝ → E → ℝ) (ds : List (O × E)) (x : List ℝ) :
    pathLike like ds (fun _ => x) = dataLike like ds x := by
  induction ds with
  | nil => rfl
  | cons d ds ih => rw [pathLike, ih]; simp [dataLike]

theorem cloudEvidence_fin (like : O → List ℝ → E → ℝ) (w : List ℝ) (locs : List (List ℝ))
    (hlen : locs.length = w.length) (ds : List (O × E)) :
    ∑ i : Fin w.length, w.get i * dataLike like ds (locs.getD i []) = dataEvidence like w locs ds := by
  rw [dataEvidence_range _ _ _ hlen, Finset.sum_range]
  exact Finset.sum_congr rfl fun i _ => by simp

/-! ## C131 -/

/-- **C131, sampling.**  `sample(n)` of an updater returns `n` independent rows, each of which is a particle
with probability equal to its weight. -/
theorem C131_draws {P : Measure Ω} [IsProbabilityMeasure P] {X : ℕ → Ω → Unit01} (hX : Variates P X)
    (w : List ℝ) (h : IsProb w) (locs : List (List ℝ)) (hlen : locs.length = w.length) :
    ∃ out : Ω → ℕ → List (List ℝ),
      (∀ v n, particleSample w locs (List.ofFn fun i : Fin n => (X i v : ℝ)) = .ok (out v n)) ∧
      DrawsIid P out (cloudLaw w locs) := by
  have hne : w ≠ [] := by rintro rfl; simpa using h.2
  refine ⟨fun v n => List.ofFn fun i : Fin n => cloudRow w locs (X i v),
    fun v n => (cloudPrior_rows w locs hlen hne (fun i => (X i v : ℝ)) n).1, fun n hn => ?_⟩
  obtain ⟨hm, hlaw⟩ := cloudRow_law w h locs
  have hget : ∀ v (i : Fin n), (List.ofFn fun i : Fin n => cloudRow w locs (X i v)).getD i [] =
      cloudRow w locs (X i v) := fun v i => by simp [List.getD_eq_getElem?_getD]
  refine ⟨fun v => by simp, fun i hi => ?_, fun f hf => ?_⟩
  · have : (fun v => (List.ofFn fun i : Fin n => cloudRow w locs (X i v)).getD i []) =
        fun v => cloudRow w locs (X i v) := funext fun v => hget v ⟨i, hi⟩
    rw [this]
    exact hm.comp (hX.meas i)
  · simp only [hget]
    have hind : iIndepFun (fun (i : Fin n) v => f i (cloudRow w locs (X i v))) P :=
      (hX.indep.precomp (g := fun i : Fin n => (i : ℕ)) Fin.val_injective).comp
        (fun i u => f i (cloudRow w locs u)) fun i => (hf i).comp hm
    rw [lintegral_prod_eq_prod_lintegral_of_indepFun Finset.univ _ hind fun i =>
      (hf i).comp (hm.comp (hX.meas i))]
    refine Finset.prod_congr rfl fun i _ => ?_
    rw [← hlaw, lintegral_map (hf i) hm, ← hX.law i]
    exact (lintegral_map ((hf i).comp hm) (hX.meas i)).symm

/-- **C131, later samples.**  A second call does not see the variates of the first: `n` rows and then `m`
more are the `n + m` independent rows of a single call, so two updaters built on the same prior are
independent. -/
theorem C131_later_draws (w : List ℝ) (hne : w ≠ []) (locs : List (List ℝ)) (hlen : locs.length = w.length)
    (us : ℕ → ℝ) (n m : ℕ) :
    let first := cloudPrior w locs us n
    let later := cloudPrior w locs first.2 m
    particleSample w locs (List.ofFn fun i : Fin (n + m) => us i) = .ok (first.1 ++ later.1) ∧
    first.1.length = n ∧ later.2 = fun i => us (n + m + i) := by
  intro first later
  have h1 : first.1 = _ := (cloudPrior_rows w locs hlen hne us n).2
  have h2 : later.1 = _ := (cloudPrior_rows w locs hlen hne first.2 m).2
  refine ⟨?_, by rw [h1, List.length_ofFn], funext fun i => ?_⟩
  · rw [(cloudPrior_rows w locs hlen hne us (n + m)).1, h1, h2, ← List.ofFn_fin_append]
    congr 2
    funext i
    refine Fin.addCases (fun j => ?_) (fun j => ?_) i
    · simp
    · simp [first, cloudPrior]
  · show us (n + (m + i)) = _
    rw [add_assoc]

section handover

variable (cfg₂ : SmcConfig ℝ) (env : Env ℝ O E (ℕ → ℝ)) (u : Smc ℝ O (ℕ → ℝ))

/-- The second updater, constructed with `n` particles and the first updater as its prior. -/
noncomputable def Spec.second (X : ℕ → Ω → Unit01) (n : ℕ) (v : Ω) : Smc ℝ O (ℕ → ℝ) :=
  (construct cfg₂ (withPrior env u) n false fun i => (X i v : ℝ)).1

theorem second_sampled (hg : GoodEnv env) (hst : Static env) {P : Measure Ω} [IsProbabilityMeasure P]
    {X : ℕ → Ω → Unit01} (hX : Variates P X) (hu : IsProb u.weights)
    (hlen : u.locs.length = u.weights.length)
    (hcanon : ∀ l, (∀ x ∈ l, x ∈ u.locs) → env.canon l = l) (ds : List (O × E)) :
    Sampled P uniform01 X (fun y _ => cloudRow u.weights u.locs y) env.likelihood ds
      (fun _ _ => withPrior env u) (second cfg₂ env u X) ∧
    ∀ n v, (second cfg₂ env u X n v).normRecord = [] := by
  have hne : u.weights ≠ [] := by
    intro h0
    have := hu.2
    rw [h0] at this
    simp at this
  have hrow : ∀ n v, (second cfg₂ env u X n v).locs =
      List.ofFn fun i : Fin n => cloudRow u.weights u.locs (X i v) := by
    intro n v
    have h1 := (cloudPrior_rows u.weights u.locs hlen hne (fun i => (X i v : ℝ)) n).2
    have h2 : env.canon (cloudPrior u.weights u.locs (fun i => (X i v : ℝ)) n).1 =
        (cloudPrior u.weights u.locs (fun i => (X i v : ℝ)) n).1 := by
      refine hcanon _ ?_
      rw [h1]
      intro x hx
      obtain ⟨i, rfl⟩ := (List.mem_ofFn' _ _).1 hx
      have hlt : sampleIdx u.weights (X i v : ℝ) < u.locs.length := by
        have := List.length_pos_iff.2 hne
        unfold sampleIdx; omega
      dsimp only
      rw [List.getD_eq_getElem _ _ hlt]
      exact List.getElem_mem _
    have h3 : (second cfg₂ env u X n v).locs = if cfg₂.canonicalize then
        env.canon (cloudPrior u.weights u.locs (fun i => (X i v : ℝ)) n).1
        else (cloudPrior u.weights u.locs (fun i => (X i v : ℝ)) n).1 := rfl
    rw [h3, h2, ite_self, h1]
    rfl
  have hg2 : GoodEnv (withPrior env u) := {
    like_nonneg := hg.like_nonneg
    prior_len := fun r n => by
      show (cloudPrior u.weights u.locs r n).1.length = n
      rw [(cloudPrior_rows u.weights u.locs hlen hne r n).2, List.length_ofFn]
    canon_len := hg.canon_len
    timestep_len := hg.timestep_len
    resampler_ok := hg.resampler_ok }
  have hmoves : ∀ (ds : List (O × E)) (r : ℕ → ℝ) (n : ℕ) (x : Fin n → List ℝ),
      Moves (withPrior env u) ds r fun i _ => x i := by
    intro ds
    induction ds with
    | nil => intro r n x; trivial
    | cons d ds ih => intro r n x; exact ⟨hst _ _ _, ih _ _ _⟩
  exact ⟨{
    meas := hX.meas
    law := hX.law
    indep := fun i j hij => hX.indep.indepFun hij
    good := fun _ _ => hg2
    likelihood := fun _ _ => rfl
    weights := fun n v => rfl
    locs := hrow
    moves := fun n v => hmoves _ _ _ _ }, fun n v => rfl⟩

/-- **C131, limit.**  Give an updater with weights `w` at particles `x` as prior to a second updater
with `n` particles and feed data `ds` to that one.  As `n` grows the data are eventually accepted, the means
over the second cloud converge to those over the *first* cloud reweighted by the data, and the product of
the recorded normalizations converges to the probability of the data under the first cloud, with
probability one. -/
theorem C131_limit (hg : GoodEnv env) (hst : Static env) {P : Measure Ω} [IsProbabilityMeasure P]
    {X : ℕ → Ω → Unit01} (hX : Variates P X) (hu : IsProb u.weights)
    (hlen : u.locs.length = u.weights.length)
    (hcanon : ∀ l, (∀ x ∈ l, x ∈ u.locs) → env.canon l = l)
    (check : Bool) (hc : check = false ∨ cfg₂.resampleThresh ≤ 0)
    (hp : cfg₂.policy = "error") (ht : eps ≤ cfg₂.zeroThresh) (ht1 : cfg₂.zeroThresh < 1)
    (ds : List (O × E))
    (hpos : ∀ t < ds.length, eps * dataEvidence env.likelihood u.weights u.locs (ds.take t) <
      dataEvidence env.likelihood u.weights u.locs (ds.take (t + 1))) (f : List ℝ → ℝ) :
    ∀ᵐ v ∂P,
      (∀ᶠ n in atTop, (feed cfg₂ (withPrior env u) check ds (second cfg₂ env u X n v)).2 = .ok ()) ∧
      Tendsto (fun n => cloudMean f (feed cfg₂ (withPrior env u) check ds (second cfg₂ env u X n v)).1) atTop
        (𝓝 (((dataPosterior env.likelihood u.weights u.locs ds).zip u.locs).map fun p => p.1 * f p.2).sum) ∧
      Tendsto (fun n => (feed cfg₂ (withPrior env u) check ds (second cfg₂ env u X n v)).1.normRecord.prod)
        atTop (𝓝 (dataEvidence env.likelihood u.weights u.locs ds)) := by
  obtain ⟨hS, hnil⟩ := second_sampled cfg₂ env u hg hst hX hu hlen hcanon ds
  have hev : ∀ ds, ∫ y, pathLike env.likelihood ds (fun _ => cloudRow u.weights u.locs y) ∂uniform01 =
      dataEvidence env.likelihood u.weights u.locs ds := fun ds => by
    simp only [pathLike_still]
    rw [(cloudRow_average u.weights hu u.locs (dataLike env.likelihood ds)).2.2, cloudEvidence_fin _ _ _ hlen]
  have hmean : trueMean uniform01 (fun y _ => cloudRow u.weights u.locs y) env.likelihood ds f =
      (((dataPosterior env.likelihood u.weights u.locs ds).zip u.locs).map fun p => p.1 * f p.2).sum := by
    unfold trueMean
    rw [hev]
    simp only [pathLike_still]
    rw [(cloudRow_average u.weights hu u.locs fun x => dataLike env.likelihood ds x * f x).2.2, Finset.sum_div]
    have hz : ((dataPosterior env.likelihood u.weights u.locs ds).zip u.locs).map (fun p => p.1 * f p.2) =
        List.ofFn fun i : Fin u.weights.length => u.weights.get i *
          (dataLike env.likelihood ds (u.locs.getD i []) * f (u.locs.getD i [])) /
            dataEvidence env.likelihood u.weights u.locs ds := by
      apply List.ext_getElem
      · simp [dataPosterior, hlen]
      · intro i h1 h2
        have hi : i < u.weights.length := by simpa using h2
        have hi' : i < u.locs.length := by omega
        simp [dataPosterior, List.getD_eq_getElem _ _ hi', hi']
        ring
    rw [hz, List.sum_ofFn]
  have := C98_consistent hS cfg₂ check hc hp ht ht1
    (fun t _ => by simp only [pathLike_still]; exact (cloudRow_average u.weights hu u.locs _).1)
    (fun t _ => by simp only [pathLike_still]; exact (cloudRow_average u.weights hu u.locs _).2.1)
    (fun t htl => by rw [hev, hev]; exact hpos t htl) f (cloudRow_average u.weights hu u.locs f).1
    (by
      simp only [pathLike_still]
      exact (cloudRow_average u.weights hu u.locs fun x => dataLike env.likelihood ds x * f x).2.1)
  filter_upwards [this] with v hv
  rw [hmean, hev] at hv
  exact ⟨hv.1, hv.2.1, hv.2.2 fun n => hnil n v⟩

/-- Conditioning on one part of the data after the other. -/
theorem dataEvidence_chain (like : O → List ℝ → E → ℝ) (w : List ℝ) (locs : List (List ℝ))
    (hlen : locs.length = w.length) (ds ds' : List (O × E)) :
    dataEvidence like (dataPosterior like w locs ds) locs ds' =
      dataEvidence like w locs (ds ++ ds') / dataEvidence like w locs ds := by
  have hl : locs.length = (dataPosterior like w locs ds).length := by simp [dataPosterior, hlen]
  rw [dataEvidence_range _ _ _ hl, dataEvidence_range _ _ _ hlen (ds ++ ds'), Finset.sum_div, ← hl, hlen]
  refine Finset.sum_congr rfl fun i _ => ?_
  rw [dataPosterior_getD _ _ _ hlen, dataLike_append]
  ring

theorem dataPosterior_chain (like : O → List ℝ → E → ℝ) (w : List ℝ) (locs : List (List ℝ))
    (hlen : locs.length = w.length) (ds ds' : List (O × E)) (h : dataEvidence like w locs ds ≠ 0) :
    dataPosterior like (dataPosterior like w locs ds) locs ds' = dataPosterior like w locs (ds ++ ds') := by
  have hl : locs.length = (dataPosterior like w locs ds).length := by simp [dataPosterior, hlen]
  have hL : ∀ (v : List ℝ) ds, locs.length = v.length → (dataPosterior like v locs ds).length = v.length :=
    fun v ds hv => by simp [dataPosterior, hv]
  apply List.ext_getElem
  · rw [hL _ _ hl, hL _ _ hlen, hL _ _ hlen]
  · intro i h1 h2
    rw [← List.getD_eq_getElem _ 0 h1, ← List.getD_eq_getElem _ 0 h2, dataPosterior_getD _ _ _ hl,
      dataPosterior_getD _ _ _ hlen, dataPosterior_getD _ _ _ hlen, dataEvidence_chain _ _ _ hlen, dataLike_append]
    rw [div_div_eq_mul_div, div_mul_eq_mul_div, div_mul_cancel₀ _ h]
    ring

/-- **C131, data in two parts.**  Feed the first part of the data to an updater, hand it over as the prior
of a second updater with `n` particles, and feed the rest to that one.  As `n` grows the means over the
second cloud converge to those of the posterior of the first updater given *all* the data, and the second
record to the probability of the rest given the first part. -/
theorem C131_two_parts (cfg₁ : SmcConfig ℝ) (hg : GoodEnv env) (hst : Static env) {P : Measure Ω}
    [IsProbabilityMeasure P] {X : ℕ → Ω → Unit01} (hX : Variates P X)
    (s : Smc ℝ O (ℕ → ℝ)) (hs : IsProb s.weights) (hlen : s.locs.length = s.weights.length)
    (hcanon : ∀ l, (∀ x ∈ l, x ∈ s.locs) → env.canon l = l)
    (check : Bool) (hc : check = false ∨ cfg₂.resampleThresh ≤ 0)
    (hp₁ : cfg₁.policy = "error") (ht₁ : eps ≤ cfg₁.zeroThresh) (ht1₁ : cfg₁.zeroThresh < 1)
    (hp : cfg₂.policy = "error") (ht : eps ≤ cfg₂.zeroThresh) (ht1 : cfg₂.zeroThresh < 1)
    (ds ds' : List (O × E)) (hok : (feed cfg₁ env false ds s).2 = .ok ()) (hu : u = (feed cfg₁ env false ds s).1)
    (hpos : ∀ t < ds'.length, eps * dataEvidence env.likelihood s.weights s.locs (ds ++ ds'.take t) <
      dataEvidence env.likelihood s.weights s.locs (ds ++ ds'.take (t + 1))) (f : List ℝ → ℝ) :
    ∀ᵐ v ∂P,
      (∀ᶠ n in atTop, (feed cfg₂ (withPrior env u) check ds' (second cfg₂ env u X n v)).2 = .ok ()) ∧
      Tendsto (fun n => cloudMean f (feed cfg₂ (withPrior env u) check ds' (second cfg₂ env u X n v)).1) atTop
        (𝓝 (((dataPosterior env.likelihood s.weights s.locs (ds ++ ds')).zip s.locs).map
          fun p => p.1 * f p.2).sum) ∧
      Tendsto (fun n => (feed cfg₂ (withPrior env u) check ds' (second cfg₂ env u X n v)).1.normRecord.prod)
        atTop (𝓝 (dataEvidence env.likelihood s.weights s.locs (ds ++ ds') /
          dataEvidence env.likelihood s.weights s.locs ds)) := by
  obtain ⟨hw, hl, -, ns, -, -, hge, hpr⟩ := feed_closed cfg₁ env hg hst hp₁ ht₁ ht1₁ ds s hlen hs hok
  rw [← hu] at hw hl
  have hZ : 0 < dataEvidence env.likelihood s.weights s.locs ds := by
    rw [← hpr]; exact List.prod_pos fun x hx => lt_of_lt_of_le eps_pos (hge x hx)
  have hu1 : IsProb u.weights := by
    rw [hw]
    constructor
    · intro x hx
      obtain ⟨p, hp, rfl⟩ := List.mem_map.1 hx
      refine div_nonneg (mul_nonneg (hs.1 _ (List.of_mem_zip hp).1) (List.prod_nonneg ?_)) hZ.le
      intro y hy
      obtain ⟨d, -, rfl⟩ := List.mem_map.1 hy
      exact hg.like_nonneg _ _ _
    · rw [show dataPosterior env.likelihood s.weights s.locs ds =
        ((s.weights.zip s.locs).map fun p => p.1 * dataLike env.likelihood ds p.2).map
          (· / dataEvidence env.likelihood s.weights s.locs ds) by simp [dataPosterior], sum_map_div]
      exact div_self hZ.ne'
  have hlu : u.locs.length = u.weights.length := by
    rw [hw, hl]; simp [dataPosterior, hlen]
  have h := C131_limit cfg₂ env u hg hst hX hu1 hlu (by rw [hl]; exact hcanon) check hc hp ht ht1 ds'
    (by
      intro t htl
      rw [hw, hl, dataEvidence_chain _ _ _ hlen, dataEvidence_chain _ _ _ hlen, ← mul_div_assoc]
      exact div_lt_div_of_pos_right (hpos t htl) hZ) f
  rw [hw, hl, dataPosterior_chain _ _ _ hlen _ _ hZ.ne', dataEvidence_chain _ _ _ hlen] at h
  exact h

/-- **C131, any number of particles.**  For every number of particles of the second updater the product of its
recorded normalizations is on average exactly the probability of the data under the first cloud, with a
variance that falls as `1/n`; its particles are particles of the first. -/
theorem C131_unbiased (hg : GoodEnv env) (hst : Static env) {P : Measure Ω} [IsProbabilityMeasure P]
    {X : ℕ → Ω → Unit01} (hX : Variates P X) (hu : IsProb u.weights)
    (hlen : u.locs.length = u.weights.length)
    (hcanon : ∀ l, (∀ x ∈ l, x ∈ u.locs) → env.canon l = l)
    (check : Bool) (hc : check = false ∨ cfg₂.resampleThresh ≤ 0)
    (hp : cfg₂.policy = "error") (ht : eps ≤ cfg₂.zeroThresh) (ht1 : cfg₂.zeroThresh < 1)
    (hL : ∀ o x e, eps ≤ env.likelihood o x e) (ds : List (O × E)) (n : ℕ) (hn : n ≠ 0) :
    (∀ v, (feed cfg₂ (withPrior env u) check ds (second cfg₂ env u X n v)).2 = .ok () ∧
      ∀ x ∈ (second cfg₂ env u X n v).locs, x ∈ u.locs) ∧
    ∫ v, (feed cfg₂ (withPrior env u) check ds (second cfg₂ env u X n v)).1.normRecord.prod ∂P =
      dataEvidence env.likelihood u.weights u.locs ds ∧
    Var[fun v => (feed cfg₂ (withPrior env u) check ds (second cfg₂ env u X n v)).1.normRecord.prod; P] =
      (∑ i : Fin u.weights.length, u.weights.get i * (dataLike env.likelihood ds (u.locs.getD i []) -
        dataEvidence env.likelihood u.weights u.locs ds) ^ 2) / n := by
  obtain ⟨hS, hnil⟩ := second_sampled cfg₂ env u hg hst hX hu hlen hcanon ds
  have hav := cloudRow_average u.weights hu u.locs
  have hev : ∫ y, dataLike env.likelihood ds (cloudRow u.weights u.locs y) ∂uniform01 =
      dataEvidence env.likelihood u.weights u.locs ds := by
    rw [(hav (dataLike env.likelihood ds)).2.2, cloudEvidence_fin _ _ _ hlen]
  obtain ⟨h1, h2, h3, -⟩ := C98_unbiased hS cfg₂ check hc hp ht ht1 hL
    (by simp only [pathLike_still]; exact (hav _).1)
    (by
      simp only [pathLike_still]
      exact (memLp_two_iff_integrable_sq (hav _).1.aestronglyMeasurable).2
        (hav fun x => dataLike env.likelihood ds x ^ 2).2.1) hnil n hn
  simp only [pathLike_still] at h2 h3
  rw [hev] at h2
  refine ⟨fun v => ⟨h1 v, ?_⟩, h2, ?_⟩
  · rw [hS.locs]
    intro x hx
    obtain ⟨i, rfl⟩ := (List.mem_ofFn' _ _).1 hx
    have hne : 0 < u.weights.length := by
      rw [List.length_pos_iff]
      intro h0
      have := hu.2
      rw [h0] at this
      simp at this
    have hlt : sampleIdx u.weights (X i v : ℝ) < u.locs.length := by
      unfold sampleIdx; omega
    simp only [cloudRow]
    rw [List.getD_eq_getElem _ _ hlt]
    exact List.getElem_mem _
  · rw [h3, variance_eq_integral (hav _).1.aemeasurable, hev,
      (hav fun x => (dataLike env.likelihood ds x - dataEvidence env.likelihood u.weights u.locs ds) ^ 2).2.2]

end handover

/-! ## The hypotheses can be met -/

/-- A stream of independent variates exists. -/
theorem variates_exist : Variates (Measure.infinitePi fun _ : ℕ => uniform01) fun i v => v i where
  meas := fun i => measurable_pi_apply i
  law := fun i => (measurePreserving_eval_infinitePi (fun _ : ℕ => uniform01) i).map_eq
  indep := iIndepFun_infinitePi (P := fun _ : ℕ => uniform01) (X := fun _ x => x) fun _ => measurable_id

/-- Case: two particles of weights `1/4` and `3/4`, and three draws. -/
example : (cloudPrior (K := ℚ) [1 / 4, 3 / 4] [[0], [1]] (fun i => if i = 1 then 1 / 8 else 1 / 2) 3).1 =
    [[1], [0], [1]] := by
  decide +kernel

/-- Case: a coin of bias 1/4 or 3/4, one datum before and one after the handover. -/
example : ∃ (env : Env ℝ Bool Unit (ℕ → ℝ)) (s : Smc ℝ Bool (ℕ → ℝ)), GoodEnv env ∧ Static env ∧
    IsProb s.weights ∧ s.locs.length = s.weights.length ∧ (∀ l, env.canon l = l) ∧
    (∀ o x e, eps ≤ env.likelihood o x e) ∧
    dataEvidence env.likelihood s.weights s.locs ([(true, ())] ++ [(true, ())]) = 5 / 16 ∧
    dataEvidence env.likelihood s.weights s.locs [(true, ())] = 1 / 2 := by
  refine ⟨
    { likelihood := fun o x _ => max (1 / 8) (if o then x.headD 0 else 1 - x.headD 0), timestep := fun r l _ => (l, r),
      canon := id, clearCacheRaises := false, prior := fun r n => (List.replicate n [0], r),
      resampler := fun r w l => (.ok (w, l), r), kl := fun _ _ _ _ => 0 },
    { weights := [1 / 2, 1 / 2], locs := [[1 / 4], [3 / 4]], resampleCount := 0, minNEss := ⊤,
      justResampled := false, dataRecord := [], normRecord := [], divergences := none, seed := fun _ => 0,
      warnings := [] }, ⟨fun _ _ _ => by positivity, by simp, by simp, by simp, ?_⟩, fun _ _ _ => rfl, ?_, rfl,
    fun _ => rfl, ?_, ?_, ?_⟩
  · intro r w l w' l' h hl he
    simp only [Except.ok.injEq, Prod.mk.injEq] at he
    obtain ⟨rfl, rfl⟩ := he
    exact ⟨h, hl⟩
  · exact ⟨by simp, by norm_num⟩
  · intro o x e
    exact le_trans (by norm_num [eps]) (le_max_left _ _)
  · norm_num [dataEvidence, dataLike]
  · norm_num [dataEvidence, dataLike]

end QInfer
