import Verif.Props.ManyParticles
import Mathlib.Probability.CentralLimitTheorem
import Mathlib.MeasureTheory.Integral.Indicator

/-!
# C118: how far estimates are off

With many particles drawn from the prior, the difference between an estimate and its value under the
exact posterior is normally distributed, and the effective sample size `n_ess` tells its scale.
-/

namespace QInfer

open Spec Filter Topology MeasureTheory ProbabilityTheory Function

variable {Ω S O E R : Type*} [MeasurableSpace Ω] [MeasurableSpace S]
  {P : Measure Ω} [IsProbabilityMeasure P] {π : Measure S} {X : ℕ → Ω → S}

/-! ### Averages and ratios -/

/-- The average over the first `n` particles. -/
noncomputable def avg (X : ℕ → Ω → S) (g : S → ℝ) (n : ℕ) (v : Ω) : ℝ :=
  ∑ i : Fin n, 1 / (n : ℝ) * g (X i v)

theorem measurable_avg (hmeas : ∀ i, Measurable (X i)) {g : S → ℝ} (hg : Measurable g) (n : ℕ) :
    Measurable (avg X g n) := by
  unfold avg
  exact Finset.measurable_sum _ fun i _ => (hg.comp (hmeas i)).const_mul _

/-- The scaled sum is `√n` times the average. -/
theorem avg_sqrt (g : S → ℝ) (n : ℕ) (hn : n ≠ 0) {v : Ω} :
    (√(n : ℝ))⁻¹ * (∑ k ∈ Finset.range n, g (X k v)) = √n * avg X g n v := by
  have hnpos : (0 : ℝ) < n := by exact_mod_cast Nat.pos_of_ne_zero hn
  have hsq : √(n : ℝ) * √n = n := Real.mul_self_sqrt hnpos.le
  have hs : 0 < √(n : ℝ) := Real.sqrt_pos.2 hnpos
  rw [avg, ← Finset.mul_sum, ← Finset.sum_range fun k => g (X k v)]
  rw [← mul_assoc]
  congr 1
  rw [inv_eq_one_div, mul_one_div, div_eq_div_iff hs.ne' hnpos.ne', hsq, one_mul]

/-- Slutsky's theorem for the average of a centred quantity times a continuous function of another
average. -/
theorem ratio_clt (hmeas : ∀ i, Measurable (X i)) (hlaw : ∀ i, P.map (X i) = π)
    (hindep : iIndepFun X P) {g q : S → ℝ} (hg : Measurable g) (hg2 : MemLp g 2 π)
    (hg0 : ∫ x, g x ∂π = 0) (hq : Measurable q) (hqi : Integrable q π) {φ : ℝ → ℝ}
    (hφ : Continuous φ) :
    TendstoInDistribution
      (fun (n : ℕ) v => (√n)⁻¹ * (∑ k ∈ Finset.range n, g (X k v)) * φ (avg X q n v)) atTop
      (fun y : ℝ => y * φ (∫ x, q x ∂π)) (fun _ => P) (gaussianReal 0 Var[g; π].toNNReal) := by
  have hmean : ∫ v, (g ∘ X 0) v ∂P = 0 := by
    rw [← hg0, ← hlaw 0, integral_map (hmeas 0).aemeasurable hg.aestronglyMeasurable]
    rfl
  have hvar : Var[g ∘ X 0; P] = Var[g; π] := by
    rw [← hlaw 0, variance_map hg.aemeasurable (hmeas 0).aemeasurable]
  have hlp : MemLp (g ∘ X 0) 2 P := by
    rw [← hlaw 0] at hg2
    exact (memLp_map_measure_iff hg.aestronglyMeasurable (hmeas 0).aemeasurable).1 hg2
  have hclt := tendstoInDistribution_inv_sqrt_mul_sum_sub (P := P)
    (P' := gaussianReal 0 Var[g; π].toNNReal) (X := fun i => g ∘ X i) (Y := id)
    ⟨aemeasurable_id, by rw [hvar, Measure.map_id]⟩ hlp (hindep.comp (fun _ => g) fun _ => hg)
    (fun i => (IdentDistrib.mk (hmeas i).aemeasurable (hmeas 0).aemeasurable
      (by rw [hlaw, hlaw])).comp hg)
  have hclt' : TendstoInDistribution (fun (n : ℕ) v => (√n)⁻¹ * ∑ k ∈ Finset.range n, g (X k v)) atTop
      (id : ℝ → ℝ) (fun _ => P) (gaussianReal 0 Var[g; π].toNNReal) := by
    have : (fun (n : ℕ) v => (√n)⁻¹ * ((∑ k ∈ Finset.range n, (g ∘ X k) v) -
        n * ∫ v, (g ∘ X 0) v ∂P)) = fun (n : ℕ) v => (√n)⁻¹ * ∑ k ∈ Finset.range n, g (X k v) := by
      funext n v
      rw [hmean, mul_zero, sub_zero]
      rfl
    rw [this] at hclt
    exact hclt
  have havg := particle_average hmeas hlaw (fun i j hij => hindep.indepFun hij) q hq hqi
  have hmeasure : TendstoInMeasure P (fun n v => avg X q n v) atTop fun _ => ∫ x, q x ∂π :=
    tendstoInMeasure_of_tendsto_ae (fun n => (measurable_avg hmeas hq n).aestronglyMeasurable) havg
  exact hclt'.continuous_comp_prodMk_of_tendstoInMeasure_const
    (g := fun p : ℝ × ℝ => p.1 * φ p.2) (by fun_prop) hmeasure
    fun n => (measurable_avg hmeas hq n).aemeasurable

/-- The same for the probability of a set. -/
theorem ratio_clt_set (hmeas : ∀ i, Measurable (X i)) (hlaw : ∀ i, P.map (X i) = π)
    (hindep : iIndepFun X P) {g q : S → ℝ} (hg : Measurable g) (hg2 : MemLp g 2 π)
    (hg0 : ∫ x, g x ∂π = 0) (hq : Measurable q) (hqi : Integrable q π) {φ : ℝ → ℝ}
    (hφ : Continuous φ) (A : Set ℝ) (hA : MeasurableSet A)
    (hfr : gaussianReal 0 (φ (∫ x, q x ∂π) ^ 2 * Var[g; π]).toNNReal (frontier A) = 0) :
    Tendsto (fun n : ℕ => P {v | (√n)⁻¹ * (∑ k ∈ Finset.range n, g (X k v)) * φ (avg X q n v) ∈ A})
      atTop (𝓝 (gaussianReal 0 (φ (∫ x, q x ∂π) ^ 2 * Var[g; π]).toNNReal A)) := by
  have h := ratio_clt hmeas hlaw hindep hg hg2 hg0 hq hqi hφ
  have hlim : (gaussianReal 0 Var[g; π].toNNReal).map (fun y : ℝ => y * φ (∫ x, q x ∂π)) =
      gaussianReal 0 (φ (∫ x, q x ∂π) ^ 2 * Var[g; π]).toNNReal := by
    rw [gaussianReal_map_mul_const, mul_zero]
    congr 1
    apply NNReal.eq
    rw [NNReal.coe_mul, Real.coe_toNNReal _ (variance_nonneg _ _), Real.coe_toNNReal _
      (mul_nonneg (sq_nonneg _) (variance_nonneg _ _))]
    rfl
  have := ProbabilityMeasure.tendsto_measure_of_null_frontier_of_tendsto' h.tendsto (E := A)
    (by simp only [ProbabilityMeasure.coe_mk, hlim]; exact hfr)
  simp only [ProbabilityMeasure.coe_mk, hlim] at this
  refine this.congr fun n => ?_
  rw [Measure.map_apply_of_aemeasurable (h.forall_aemeasurable n) hA]
  rfl

/-- Sets that differ only on events of vanishing probability. -/
theorem tendsto_of_good {A B bad : ℕ → Set Ω} {p : ENNReal} (hB : Tendsto (fun n => P (B n)) atTop (𝓝 p))
    (hbad : Tendsto (fun n => P (bad n)) atTop (𝓝 0))
    (hAB : ∀ᶠ n in atTop, ∀ v, v ∉ bad n → (v ∈ A n ↔ v ∈ B n)) :
    Tendsto (fun n => P (A n)) atTop (𝓝 p) := by
  have hp : p ≠ ⊤ := by
    have : p ≤ 1 := le_of_tendsto' hB fun n => prob_le_one
    exact ne_top_of_le_ne_top ENNReal.one_ne_top this
  have h1 : Tendsto (fun n => P (B n) - P (bad n)) atTop (𝓝 p) := by
    simpa using ENNReal.Tendsto.sub hB hbad (Or.inl hp)
  have h2 : Tendsto (fun n => P (B n) + P (bad n)) atTop (𝓝 p) := by
    simpa using hB.add hbad
  refine tendsto_of_tendsto_of_tendsto_of_le_of_le' h1 h2 ?_ ?_
  · filter_upwards [hAB] with n hn
    refine tsub_le_iff_right.2 ((measure_mono ?_).trans (measure_union_le _ _))
    intro v hv
    by_cases hb : v ∈ bad n
    · exact Or.inr hb
    · exact Or.inl ((hn v hb).2 hv)
  · filter_upwards [hAB] with n hn
    refine (measure_mono ?_).trans (measure_union_le _ _)
    intro v hv
    by_cases hb : v ∈ bad n
    · exact Or.inr hb
    · exact Or.inl ((hn v hb).1 hv)

/-! ### Estimates -/

/-- The effective sample size of an updater. -/
noncomputable def Spec.essOf (u : Smc ℝ O R) : ℝ := (nEss u.weights).untopD 0

/-- Variance of the normal law of the error: the mean square, under the prior, of the deviation of `f`
times the relative likelihood. -/
noncomputable def Spec.errorVar (π : Measure S) (loc : S → ℕ → List ℝ) (like : O → List ℝ → E → ℝ)
    (ds : List (O × E)) (f : List ℝ → ℝ) : ℝ :=
  ∫ x, (pathLike like ds (loc x) / (∫ y, pathLike like ds (loc y) ∂π)) ^ 2 *
    (f (loc x ds.length) - trueMean π loc like ds f) ^ 2 ∂π

variable {loc : S → ℕ → List ℝ} {like : O → List ℝ → E → ℝ} {ds : List (O × E)}
  {env : ℕ → Ω → Env ℝ O E R} {s : ℕ → Ω → Smc ℝ O R}

/-- What is assumed about prior, likelihood and data. -/
structure Spec.FiniteVar (π : Measure S) (loc : S → ℕ → List ℝ) (like : O → List ℝ → E → ℝ)
    (ds : List (O × E)) (f : List ℝ → ℝ) : Prop where
  meas : ∀ t ≤ ds.length, Measurable fun x => pathLike like (ds.take t) (loc x)
  int : ∀ t ≤ ds.length, Integrable (fun x => pathLike like (ds.take t) (loc x)) π
  pos : ∀ t < ds.length, eps * (∫ x, pathLike like (ds.take t) (loc x) ∂π) <
    ∫ x, pathLike like (ds.take (t + 1)) (loc x) ∂π
  sq : MemLp (fun x => pathLike like ds (loc x)) 2 π
  fmeas : Measurable fun x => f (loc x ds.length)
  fsq : MemLp (fun x => pathLike like ds (loc x) * f (loc x ds.length)) 2 π

section
variable (h : Sampled P π X loc like ds env s) {f : List ℝ → ℝ} (hv : FiniteVar π loc like ds f)
include h hv

omit h in
theorem Spec.FiniteVar.total [IsProbabilityMeasure π] : 0 < ∫ x, pathLike like ds (loc x) ∂π := by
  have : ∀ t ≤ ds.length, 0 < ∫ x, pathLike like (ds.take t) (loc x) ∂π := by
    intro t ht
    induction t with
    | zero => simp [pathLike]
    | succ t ih =>
      exact lt_of_le_of_lt (mul_nonneg eps_pos.le (ih (by omega)).le) (hv.pos t (by omega))
  have h1 := this ds.length le_rfl
  rwa [List.take_length] at h1

omit h in
theorem Spec.FiniteVar.lmeas : Measurable fun x => pathLike like ds (loc x) := by
  have := hv.meas ds.length le_rfl
  rwa [List.take_length] at this

/-- The centred quantity whose average is the error. -/
noncomputable def dev (π : Measure S) (loc : S → ℕ → List ℝ) (like : O → List ℝ → E → ℝ)
    (ds : List (O × E)) (f : List ℝ → ℝ) (x : S) : ℝ :=
  pathLike like ds (loc x) * (f (loc x ds.length) - trueMean π loc like ds f)

omit h in
theorem dev_eq (x : S) : dev π loc like ds f x = pathLike like ds (loc x) * f (loc x ds.length) -
    pathLike like ds (loc x) * trueMean π loc like ds f := by
  unfold dev; ring

omit h in
theorem dev_facts [IsProbabilityMeasure π] : Measurable (dev π loc like ds f) ∧
    MemLp (dev π loc like ds f) 2 π ∧ ∫ x, dev π loc like ds f x ∂π = 0 := by
  have hm : MemLp (dev π loc like ds f) 2 π := by
    have := hv.fsq.sub (hv.sq.mul_const (trueMean π loc like ds f))
    refine this.congr_norm ((hv.lmeas.mul (hv.fmeas.sub_const _)).aestronglyMeasurable)
      (ae_of_all _ fun x => ?_)
    simp only [Pi.sub_apply, dev_eq hv]
  refine ⟨hv.lmeas.mul (hv.fmeas.sub_const _), hm, ?_⟩
  have hZ := FiniteVar.total hv
  simp_rw [dev_eq hv]
  rw [integral_sub (hv.fsq.integrable (by norm_num)) ((hv.sq.integrable (by norm_num)).mul_const _),
    integral_mul_const, trueMean]
  field_simp
  ring

omit h in
theorem dev_var [IsProbabilityMeasure π] : (∫ x, pathLike like ds (loc x) ∂π)⁻¹ ^ 2 *
    Var[dev π loc like ds f; π] = errorVar π loc like ds f := by
  obtain ⟨h1, -, h3⟩ := dev_facts hv
  rw [variance_eq_integral h1.aemeasurable, h3, errorVar, ← integral_const_mul]
  refine integral_congr_ae (ae_of_all _ fun x => ?_)
  simp only [dev, sub_zero]
  rw [div_eq_mul_inv]
  ring

/-- Everything that may go wrong with `n` particles. -/
def Spec.bad (X : ℕ → Ω → S) (π : Measure S) (loc : S → ℕ → List ℝ) (like : O → List ℝ → E → ℝ)
    (ds : List (O × E)) (n : ℕ) : Set Ω :=
  {v | ¬ ((∀ t : Fin ds.length, eps * avg X (fun x => pathLike like (ds.take t) (loc x)) n v ≤
      avg X (fun x => pathLike like (ds.take (t + 1)) (loc x)) n v) ∧
    (∫ x, pathLike like ds (loc x) ∂π) / 2 ≤ avg X (fun x => pathLike like ds (loc x)) n v ∧
    (∫ x, pathLike like ds (loc x) ^ 2 ∂π) / 2 ≤ avg X (fun x => pathLike like ds (loc x) ^ 2) n v)}

omit h in
theorem Spec.FiniteVar.sq_pos [IsProbabilityMeasure π] : 0 < ∫ x, pathLike like ds (loc x) ^ 2 ∂π := by
  have hZ := FiniteVar.total hv
  have hi := hv.sq.integrable_sq
  have h0 : 0 ≤ ∫ x, (pathLike like ds (loc x) - ∫ y, pathLike like ds (loc y) ∂π) ^ 2 ∂π :=
    integral_nonneg fun x => sq_nonneg _
  obtain ⟨Z, hZe⟩ : ∃ Z, Z = ∫ y, pathLike like ds (loc y) ∂π := ⟨_, rfl⟩
  rw [← hZe] at h0 hZ
  have he : ∀ x, (pathLike like ds (loc x) - Z) ^ 2 = pathLike like ds (loc x) ^ 2 -
      (2 * Z * pathLike like ds (loc x) - Z ^ 2) := fun x => by ring
  simp_rw [he] at h0
  have hL := hv.sq.integrable (q := 2) (by norm_num)
  have hi2 : Integrable (fun x => 2 * Z * pathLike like ds (loc x) - Z ^ 2) π :=
    (hL.const_mul _).sub (integrable_const _)
  rw [integral_sub hi hi2, integral_sub (hL.const_mul _) (integrable_const _), integral_const_mul, ← hZe] at h0
  simp at h0
  nlinarith

theorem bad_vanishes : Tendsto (fun n => P (bad X π loc like ds n)) atTop (𝓝 0) := by
  have hπ : IsProbabilityMeasure π := by
    rw [← h.law 0]; exact Measure.isProbabilityMeasure_map (h.meas 0).aemeasurable
  have hmb : ∀ n, MeasurableSet (bad X π loc like ds n) := by
    intro n
    have hall : MeasurableSet {v | ∀ t : Fin ds.length,
        eps * avg X (fun x => pathLike like (ds.take t) (loc x)) n v ≤
          avg X (fun x => pathLike like (ds.take (t + 1)) (loc x)) n v} := by
      have : {v | ∀ t : Fin ds.length, eps * avg X (fun x => pathLike like (ds.take t) (loc x)) n v ≤
          avg X (fun x => pathLike like (ds.take (t + 1)) (loc x)) n v} =
          ⋂ t : Fin ds.length, {v | eps * avg X (fun x => pathLike like (ds.take t) (loc x)) n v ≤
          avg X (fun x => pathLike like (ds.take (t + 1)) (loc x)) n v} := by
        ext v; simp
      rw [this]
      exact MeasurableSet.iInter fun t => measurableSet_le
        ((measurable_avg h.meas (hv.meas t (by omega)) n).const_mul _)
        (measurable_avg h.meas (hv.meas (t + 1) (by omega)) n)
    exact (hall.inter ((measurableSet_le measurable_const (measurable_avg h.meas hv.lmeas n)).inter
      (measurableSet_le measurable_const
        (measurable_avg h.meas (hv.lmeas.pow_const 2) n)))).compl
  have := tendsto_measure_of_ae_tendsto_indicator_of_isFiniteMeasure (μ := P) atTop
    (A := (∅ : Set Ω)) (As := bad X π loc like ds) MeasurableSet.empty hmb ?_
  · simpa using this
  have hav : ∀ᵐ v ∂P, ∀ t : Fin (ds.length + 1),
      Tendsto (fun n : ℕ => avg X (fun x => pathLike like (ds.take t) (loc x)) n v) atTop
        (𝓝 (∫ x, pathLike like (ds.take t) (loc x) ∂π)) := by
    rw [ae_all_iff]
    intro t
    exact particle_average h.meas h.law h.indep (fun x => pathLike like (ds.take t) (loc x))
      (hv.meas t (by omega)) (hv.int t (by omega))
  filter_upwards [hav, particle_average h.meas h.law h.indep _ hv.lmeas
      (hv.sq.integrable (by norm_num)), particle_average h.meas h.law h.indep _
      (hv.lmeas.pow_const 2) hv.sq.integrable_sq] with v h1 h2 h3
  have hZ := FiniteVar.total hv
  have hq := FiniteVar.sq_pos hv
  have e1 : ∀ᶠ n : ℕ in atTop, ∀ t : Fin ds.length,
      eps * avg X (fun x => pathLike like (ds.take t) (loc x)) n v <
        avg X (fun x => pathLike like (ds.take (t + 1)) (loc x)) n v := by
    rw [eventually_all]
    intro t
    exact ((h1 ⟨t, by omega⟩).const_mul (eps : ℝ)).eventually_lt (h1 ⟨t + 1, by omega⟩) (hv.pos t t.2)
  have e2 := h2.eventually_const_lt (half_lt_self hZ)
  have e3 := h3.eventually_const_lt (half_lt_self hq)
  filter_upwards [e1, e2, e3] with n a1 a2 a3
  simp only [bad, Set.mem_ofPred_eq, Set.mem_empty_iff_false, iff_false, not_not]
  exact ⟨fun t => (a1 t).le, a2.le, a3.le⟩

/-- What a run computes when nothing goes wrong. -/
theorem good_run (cfg : SmcConfig ℝ) (check : Bool) (hc : check = false ∨ cfg.resampleThresh ≤ 0)
    (hp : cfg.policy = "error") (ht : eps ≤ cfg.zeroThresh) (ht1 : cfg.zeroThresh < 1)
    (n : ℕ) (hn : n ≠ 0) (v : Ω) (hb : v ∉ bad X π loc like ds n) :
    (feed cfg (env n v) check ds (s n v)).2 = .ok () ∧
    cloudMean f (feed cfg (env n v) check ds (s n v)).1 - trueMean π loc like ds f =
      avg X (dev π loc like ds f) n v / avg X (fun x => pathLike like ds (loc x)) n v ∧
    essOf (feed cfg (env n v) check ds (s n v)).1 =
      n * avg X (fun x => pathLike like ds (loc x)) n v ^ 2 /
        avg X (fun x => pathLike like ds (loc x) ^ 2) n v := by
  have hπ : IsProbabilityMeasure π := by
    rw [← h.law 0]; exact Measure.isProbabilityMeasure_map (h.meas 0).aemeasurable
  have hn' : (n : ℝ) ≠ 0 := Nat.cast_ne_zero.2 hn
  simp only [bad, Set.mem_ofPred_eq, not_not] at hb
  obtain ⟨b1, b2, b3⟩ := hb
  have hD : 0 < avg X (fun x => pathLike like ds (loc x)) n v :=
    lt_of_lt_of_le (half_pos (FiniteVar.total hv)) b2
  have hQ : 0 < avg X (fun x => pathLike like ds (loc x) ^ 2) n v :=
    lt_of_lt_of_le (half_pos (FiniteVar.sq_pos hv)) b3
  have hok : (QInfer.feed cfg (env n v) check ds (s n v)).2 = .ok () :=
    ((h.feed cfg check hc hp ht ht1 n hn v).1).2 fun t ht => b1 ⟨t, ht⟩
  obtain ⟨a, b, -, -⟩ := (h.feed cfg check hc hp ht ht1 n hn v).2 hok
  refine ⟨hok, ?_, ?_⟩
  · rw [cloudMean, a, b, zip_ofFn, List.map_ofFn, List.sum_ofFn]
    have : avg X (dev π loc like ds f) n v =
        (∑ i : Fin n, 1 / (n : ℝ) * (pathLike like ds (loc (X i v)) * f (loc (X i v) ds.length))) -
          trueMean π loc like ds f * avg X (fun x => pathLike like ds (loc x)) n v := by
      unfold avg
      rw [Finset.mul_sum, ← Finset.sum_sub_distrib]
      exact Finset.sum_congr rfl fun i _ => by rw [dev_eq hv]; ring
    rw [this, sub_div, mul_div_assoc, div_self hD.ne', mul_one, Finset.sum_div]
    congr 1
    refine Finset.sum_congr rfl fun i _ => ?_
    simp only [comp_apply, avg]
    ring
  · have hs : ((QInfer.feed cfg (env n v) check ds (s n v)).1.weights.map fun x => x ^ 2).sum =
        avg X (fun x => pathLike like ds (loc x) ^ 2) n v /
          (n * avg X (fun x => pathLike like ds (loc x)) n v ^ 2) := by
      rw [a, List.map_ofFn, List.sum_ofFn]
      change ∑ i : Fin n, (1 / (n : ℝ) * pathLike like ds (loc (X i v)) /
        avg X (fun x => pathLike like ds (loc x)) n v) ^ 2 = _
      have e : ∀ i : Fin n, (1 / (n : ℝ) * pathLike like ds (loc (X i v)) /
          avg X (fun x => pathLike like ds (loc x)) n v) ^ 2 =
          (1 / (n : ℝ) * pathLike like ds (loc (X i v)) ^ 2) /
            (n * avg X (fun x => pathLike like ds (loc x)) n v ^ 2) := by
        intro i; field_simp
      simp_rw [e]
      rw [← Finset.sum_div]
      rfl
    have hpos : 0 < avg X (fun x => pathLike like ds (loc x) ^ 2) n v /
        (n * avg X (fun x => pathLike like ds (loc x)) n v ^ 2) := by positivity
    rw [essOf, nEss, hs, recip, if_neg hpos.ne', WithTop.untopD_coe, one_div, inv_div]

/-- **C118, the law of the error.**  The particles are drawn independently from the prior.  As their
number `n` grows, the run is accepted and `√n` times the error of the estimate of the mean of `f` lies in
any set `A` (with boundary of probability zero) with the probability of that set under the normal
distribution with mean zero and variance `Spec.errorVar`. -/
theorem C118_normal (hind : iIndepFun X P) (cfg : SmcConfig ℝ) (check : Bool)
    (hc : check = false ∨ cfg.resampleThresh ≤ 0)
    (hp : cfg.policy = "error") (ht : eps ≤ cfg.zeroThresh) (ht1 : cfg.zeroThresh < 1)
    (A : Set ℝ) (hA : MeasurableSet A)
    (hfr : gaussianReal 0 (errorVar π loc like ds f).toNNReal (frontier A) = 0) :
    Tendsto (fun n : ℕ => P {v | (feed cfg (env n v) check ds (s n v)).2 = .ok () ∧
      √n * (cloudMean f (feed cfg (env n v) check ds (s n v)).1 - trueMean π loc like ds f) ∈ A})
      atTop (𝓝 (gaussianReal 0 (errorVar π loc like ds f).toNNReal A)) := by
  have hπ : IsProbabilityMeasure π := by
    rw [← h.law 0]; exact Measure.isProbabilityMeasure_map (h.meas 0).aemeasurable
  obtain ⟨d1, d2, d3⟩ := dev_facts hv
  have hZ := FiniteVar.total hv
  obtain ⟨Z, hZe⟩ : ∃ Z, Z = ∫ y, pathLike like ds (loc y) ∂π := ⟨_, rfl⟩
  have hZ' : 0 < Z := hZe ▸ hZ
  have hmax : max Z (Z / 2) = Z := max_eq_left (by linarith)
  have hφ : Continuous fun y : ℝ => (max y (Z / 2))⁻¹ := by
    refine Continuous.inv₀ (by fun_prop) fun y => ?_
    have : 0 < Z / 2 := by linarith
    exact (lt_of_lt_of_le this (le_max_right _ _)).ne'
  have hvar : (max (∫ y, pathLike like ds (loc y) ∂π) (Z / 2))⁻¹ ^ 2 * Var[dev π loc like ds f; π] =
      errorVar π loc like ds f := by
    rw [← dev_var hv, ← hZe, hmax]
  have hlim := ratio_clt_set (P := P) h.meas h.law hind d1 d2 d3 hv.lmeas
    (hv.sq.integrable (by norm_num)) hφ A hA (by rw [hvar]; exact hfr)
  rw [hvar] at hlim
  refine tendsto_of_good hlim (bad_vanishes h hv) ?_
  filter_upwards [eventually_ne_atTop 0] with n hn v hb
  obtain ⟨g1, g2, -⟩ := good_run h hv cfg check hc hp ht ht1 n hn v hb
  simp only [bad, Set.mem_ofPred_eq, not_not] at hb
  simp only [Set.mem_ofPred_eq, g1, true_and, g2]
  rw [max_eq_left (by rw [hZe]; exact hb.2.1)]
  have : √(n : ℝ) * (avg X (dev π loc like ds f) n v / avg X (fun x => pathLike like ds (loc x)) n v) =
      (√(n : ℝ))⁻¹ * (∑ k ∈ Finset.range n, dev π loc like ds f (X k v)) *
        (avg X (fun x => pathLike like ds (loc x)) n v)⁻¹ := by
    rw [avg_sqrt _ n hn, div_eq_mul_inv]
    ring
  rw [this]

/-- **C118, effective sample size.**  The share `n_ess / n` of effective particles converges to the
square of the mean likelihood over the mean squared likelihood, with probability one. -/
theorem C118_ess (cfg : SmcConfig ℝ) (check : Bool) (hc : check = false ∨ cfg.resampleThresh ≤ 0)
    (hp : cfg.policy = "error") (ht : eps ≤ cfg.zeroThresh) (ht1 : cfg.zeroThresh < 1) :
    ∀ᵐ v ∂P, Tendsto (fun n : ℕ => essOf (feed cfg (env n v) check ds (s n v)).1 / n) atTop
      (𝓝 ((∫ x, pathLike like ds (loc x) ∂π) ^ 2 / ∫ x, pathLike like ds (loc x) ^ 2 ∂π)) := by
  have hπ : IsProbabilityMeasure π := by
    rw [← h.law 0]; exact Measure.isProbabilityMeasure_map (h.meas 0).aemeasurable
  have hav : ∀ᵐ v ∂P, ∀ t : Fin (ds.length + 1),
      Tendsto (fun n : ℕ => avg X (fun x => pathLike like (ds.take t) (loc x)) n v) atTop
        (𝓝 (∫ x, pathLike like (ds.take t) (loc x) ∂π)) := by
    rw [ae_all_iff]
    intro t
    exact particle_average h.meas h.law h.indep (fun x => pathLike like (ds.take t) (loc x))
      (hv.meas t (by omega)) (hv.int t (by omega))
  filter_upwards [hav, particle_average h.meas h.law h.indep _ hv.lmeas
      (hv.sq.integrable (by norm_num)), particle_average h.meas h.law h.indep _
      (hv.lmeas.pow_const 2) hv.sq.integrable_sq] with v h1 h2 h3
  have hZ := FiniteVar.total hv
  have hq := FiniteVar.sq_pos hv
  have e1 : ∀ᶠ n : ℕ in atTop, ∀ t : Fin ds.length,
      eps * avg X (fun x => pathLike like (ds.take t) (loc x)) n v <
        avg X (fun x => pathLike like (ds.take (t + 1)) (loc x)) n v := by
    rw [eventually_all]
    intro t
    exact ((h1 ⟨t, by omega⟩).const_mul (eps : ℝ)).eventually_lt (h1 ⟨t + 1, by omega⟩) (hv.pos t t.2)
  have e2 := h2.eventually_const_lt (half_lt_self hZ)
  have e3 := h3.eventually_const_lt (half_lt_self hq)
  refine ((h2.pow 2).div h3 hq.ne').congr' ?_
  filter_upwards [e1, e2, e3, eventually_ne_atTop 0] with n a1 a2 a3 hn
  have hb : v ∉ bad X π loc like ds n := by
    simp only [bad, Set.mem_ofPred_eq, not_not]
    exact ⟨fun t => (a1 t).le, a2.le, a3.le⟩
  obtain ⟨-, -, g3⟩ := good_run h hv cfg check hc hp ht ht1 n hn v hb
  have hn' : (n : ℝ) ≠ 0 := Nat.cast_ne_zero.2 hn
  rw [g3]
  change avg X (fun x => pathLike like ds (loc x)) n v ^ 2 /
    avg X (fun x => pathLike like ds (loc x) ^ 2) n v = _
  field_simp

/-- **C118, error bars from the effective sample size.**  If `f` deviates from its posterior mean by at
most `B`, then in the limit of many particles the error is at most `z` times `B / √n_ess` with at
least the probability that a standard normal variable lies within `z` of zero. -/
theorem C118_interval (hind : iIndepFun X P) (cfg : SmcConfig ℝ) (check : Bool)
    (hc : check = false ∨ cfg.resampleThresh ≤ 0)
    (hp : cfg.policy = "error") (ht : eps ≤ cfg.zeroThresh) (ht1 : cfg.zeroThresh < 1)
    (B : ℝ) (hB : 0 < B) (hfB : ∀ x, |f (loc x ds.length) - trueMean π loc like ds f| ≤ B)
    (z : ℝ) (hz : 0 < z) :
    ∃ p, gaussianReal 0 1 (Set.Icc (-z) z) ≤ p ∧
      Tendsto (fun n : ℕ => P {v | (feed cfg (env n v) check ds (s n v)).2 = .ok () ∧
        |cloudMean f (feed cfg (env n v) check ds (s n v)).1 - trueMean π loc like ds f| ≤
          z * (B / √(essOf (feed cfg (env n v) check ds (s n v)).1))}) atTop (𝓝 p) := by
  have hπ : IsProbabilityMeasure π := by
    rw [← h.law 0]; exact Measure.isProbabilityMeasure_map (h.meas 0).aemeasurable
  obtain ⟨d1, d2, d3⟩ := dev_facts hv
  have hq := FiniteVar.sq_pos hv
  obtain ⟨Q, hQe⟩ : ∃ Q, Q = ∫ y, pathLike like ds (loc y) ^ 2 ∂π := ⟨_, rfl⟩
  have hQ : 0 < Q := hQe ▸ hq
  have hmax : max Q (Q / 2) = Q := max_eq_left (by linarith)
  have hφ : Continuous fun y : ℝ => (√(max y (Q / 2)))⁻¹ := by
    refine Continuous.inv₀ (by fun_prop) fun y => ?_
    have : 0 < Q / 2 := by linarith
    exact (Real.sqrt_pos.2 (lt_of_lt_of_le this (le_max_right _ _))).ne'
  obtain ⟨V, hV⟩ : ∃ V, V = (√(max (∫ y, pathLike like ds (loc y) ^ 2 ∂π) (Q / 2)))⁻¹ ^ 2 *
      Var[dev π loc like ds f; π] := ⟨_, rfl⟩
  have hV0 : 0 ≤ V := by rw [hV]; exact mul_nonneg (sq_nonneg _) (variance_nonneg _ _)
  have hVB : V ≤ B ^ 2 := by
    have h1 : Var[dev π loc like ds f; π] ≤ B ^ 2 * Q := by
      rw [variance_eq_integral d1.aemeasurable, d3, hQe, ← integral_const_mul]
      refine integral_mono_of_nonneg (ae_of_all _ fun x => sq_nonneg _)
        (hv.sq.integrable_sq.const_mul _) (ae_of_all _ fun x => ?_)
      simp only [sub_zero, dev, mul_pow]
      rw [mul_comm]
      refine mul_le_mul_of_nonneg_right ?_ (sq_nonneg _)
      exact sq_le_sq' (abs_le.1 (hfB x)).1 (abs_le.1 (hfB x)).2
    rw [hV, ← hQe, hmax, inv_pow, Real.sq_sqrt hQ.le]
    rw [inv_mul_le_iff₀ hQ]
    linarith
  have hzB : 0 < z * B := mul_pos hz hB
  have hfr : gaussianReal 0 V.toNNReal (frontier (Set.Icc (-(z * B)) (z * B))) = 0 := by
    rw [frontier_Icc (by linarith)]
    by_cases h0 : V.toNNReal = 0
    · rw [h0, gaussianReal_zero_var, Measure.dirac_apply' _ (Set.Finite.measurableSet (Set.toFinite _))]
      simp [hzB.ne', hzB.ne]
    · have := nullSingletonClass_gaussianReal (μ := 0) h0
      exact (Set.toFinite _).measure_zero _
  have hlim := ratio_clt_set (P := P) h.meas h.law hind d1 d2 d3 (hv.lmeas.pow_const 2)
    hv.sq.integrable_sq hφ _ measurableSet_Icc (by rw [← hV]; exact hfr)
  rw [← hV] at hlim
  refine ⟨gaussianReal 0 V.toNNReal (Set.Icc (-(z * B)) (z * B)), ?_, ?_⟩
  · have hmap : (gaussianReal 0 1).map (fun y => √V * y) = gaussianReal 0 V.toNNReal := by
      rw [gaussianReal_map_const_mul, mul_zero, mul_one]
      congr 1
      apply NNReal.eq
      rw [Real.coe_toNNReal _ hV0]
      exact Real.sq_sqrt hV0
    rw [← hmap, Measure.map_apply (by fun_prop) measurableSet_Icc]
    refine measure_mono fun y hy => ?_
    have hs : √V ≤ B := by
      rw [← Real.sqrt_sq hB.le]; exact Real.sqrt_le_sqrt hVB
    have hy' : |y| ≤ z := abs_le.2 hy
    have : |√V * y| ≤ z * B := by
      rw [abs_mul, abs_of_nonneg (Real.sqrt_nonneg _), mul_comm]
      exact mul_le_mul hy' hs (Real.sqrt_nonneg _) hz.le
    exact abs_le.1 this
  · refine tendsto_of_good hlim (bad_vanishes h hv) ?_
    filter_upwards [eventually_ne_atTop 0] with n hn v hb
    obtain ⟨g1, g2, g3⟩ := good_run h hv cfg check hc hp ht ht1 n hn v hb
    simp only [bad, Set.mem_ofPred_eq, not_not] at hb
    simp only [g1, true_and, g2, g3]
    rw [max_eq_left (by rw [hQe]; exact hb.2.2)]
    have hD : 0 < avg X (fun x => pathLike like ds (loc x)) n v :=
      lt_of_lt_of_le (half_pos (FiniteVar.total hv)) hb.2.1
    have hQn : 0 < avg X (fun x => pathLike like ds (loc x) ^ 2) n v :=
      lt_of_lt_of_le (half_pos hq) hb.2.2
    obtain ⟨D, hDe⟩ : ∃ D, D = avg X (fun x => pathLike like ds (loc x)) n v := ⟨_, rfl⟩
    obtain ⟨q, hqe⟩ : ∃ q, q = avg X (fun x => pathLike like ds (loc x) ^ 2) n v := ⟨_, rfl⟩
    rw [← hDe] at hD ⊢
    rw [← hqe] at hQn ⊢
    have hnpos : (0 : ℝ) < n := by exact_mod_cast Nat.pos_of_ne_zero hn
    have hsn : 0 < √(n : ℝ) := Real.sqrt_pos.2 hnpos
    have hsq : √(n : ℝ) * √n = n := Real.mul_self_sqrt hnpos.le
    have hess : √((n : ℝ) * D ^ 2 / q) = √n * D * (√q)⁻¹ := by
      rw [Real.sqrt_div' _ hQn.le, Real.sqrt_mul hnpos.le, Real.sqrt_sq hD.le, div_eq_mul_inv]
    have hsq0 : 0 < √q := Real.sqrt_pos.2 hQn
    rw [hess]
    have key : (√(n : ℝ))⁻¹ * (∑ k ∈ Finset.range n, dev π loc like ds f (X k v)) * (√q)⁻¹ =
        avg X (dev π loc like ds f) n v / D * (√n * D * (√q)⁻¹) := by
      rw [avg_sqrt _ n hn]
      field_simp
    rw [key, Set.mem_Icc, ← abs_le, abs_mul]
    have hpos : 0 < √(n : ℝ) * D * (√q)⁻¹ := by positivity
    rw [abs_of_pos hpos, ← mul_div_assoc, le_div_iff₀ hpos]

end

/-! ### A case: the growing phase -/

theorem phase_pos (ds : List (Bool × Unit)) (p : ℕ → List ℝ) :
    0 < pathLike (phaseEnv fun _ => 0).likelihood ds p := by
  induction ds generalizing p with
  | nil => simp [pathLike]
  | cons d ds ih =>
    rw [pathLike]
    exact mul_pos (by have := (phase_like d.1 (p 0) d.2).1; linarith) (ih _)

theorem phase_step (ds : List (Bool × Unit)) (t : ℕ) (ht : t < ds.length) (p : ℕ → List ℝ) :
    1 / 4 * pathLike (phaseEnv fun _ => 0).likelihood (ds.take t) p ≤
      pathLike (phaseEnv fun _ => 0).likelihood (ds.take (t + 1)) p := by
  induction ds generalizing t p with
  | nil => simp at ht
  | cons d ds ih =>
    cases t with
    | zero =>
      have := (phase_like d.1 (p 0) d.2).1
      simp only [List.take_zero, List.take_succ_cons, pathLike]
      linarith
    | succ t =>
      simp only [List.take_succ_cons, pathLike]
      have h1 := ih t (by simpa using ht) fun k => p (k + 1)
      have h2 := (phase_like d.1 (p 0) d.2).1
      nlinarith

/-- The growing phase meets the assumptions for the estimate of the cosine of the phase. -/
theorem phase_finiteVar (π : Measure (ℝ × ℝ)) [IsProbabilityMeasure π] (ds : List (Bool × Unit)) :
    FiniteVar π phaseLoc (phaseEnv fun _ => 0).likelihood ds fun x => Real.cos (x.getD 0 0) := by
  have hm : ∀ ds : List (Bool × Unit), Measurable fun x =>
      pathLike (phaseEnv fun _ => 0).likelihood ds (phaseLoc x) := fun ds => by
    simpa using phase_meas ds 0
  have hi : ∀ ds : List (Bool × Unit), Integrable (fun x =>
      pathLike (phaseEnv fun _ => 0).likelihood ds (phaseLoc x)) π := fun ds =>
    Integrable.of_bound (hm ds).aestronglyMeasurable 1 (ae_of_all _ fun x => phase_bound ds _)
  have hf : Measurable fun x : ℝ × ℝ => Real.cos ((phaseLoc x ds.length).getD 0 0) := by
    simp only [phaseLoc, List.getD_cons_zero]
    fun_prop
  refine ⟨fun t _ => hm _, fun t _ => hi _, fun t ht => ?_, ?_, hf, ?_⟩
  · have h0 : 0 < ∫ x, pathLike (phaseEnv fun _ => 0).likelihood (ds.take t) (phaseLoc x) ∂π := by
      rw [integral_pos_iff_support_of_nonneg (fun x => (phase_pos _ _).le) (hi _)]
      rw [show support (fun x => pathLike (phaseEnv fun _ => 0).likelihood (ds.take t) (phaseLoc x)) =
        Set.univ from Set.eq_univ_of_forall fun x => (phase_pos _ _).ne']
      simp
    have h1 : 1 / 4 * (∫ x, pathLike (phaseEnv fun _ => 0).likelihood (ds.take t) (phaseLoc x) ∂π) ≤
        ∫ x, pathLike (phaseEnv fun _ => 0).likelihood (ds.take (t + 1)) (phaseLoc x) ∂π := by
      rw [← integral_const_mul]
      exact integral_mono ((hi _).const_mul _) (hi _) fun x => phase_step ds t ht _
    have he : (eps : ℝ) < 1 / 4 := by norm_num [eps]
    nlinarith
  · exact MemLp.of_bound (hm ds).aestronglyMeasurable 1 (ae_of_all _ fun x => phase_bound ds _)
  · refine MemLp.of_bound ((hm ds).mul hf).aestronglyMeasurable 1 (ae_of_all _ fun x => ?_)
    rw [norm_mul]
    exact mul_le_one₀ (phase_bound ds _) (norm_nonneg _) (Real.abs_cos_le_one _)

/-- Case for C118: with many particles the cosine of the phase is known to within two times
`2 / √n_ess` with at least the probability that a standard normal variable lies within two of zero. -/
example (π : Measure (ℝ × ℝ)) [IsProbabilityMeasure π] (ds : List (Bool × Unit)) :
    ∃ p, gaussianReal 0 1 (Set.Icc (-2) 2) ≤ p ∧
      Tendsto (fun n : ℕ => (Measure.infinitePi fun _ : ℕ => π) {v |
        (feed phaseCfg (phaseEnv v) true ds (construct phaseCfg (phaseEnv v) n false ()).1).2 = .ok () ∧
        |cloudMean (fun x => Real.cos (x.getD 0 0))
            (feed phaseCfg (phaseEnv v) true ds (construct phaseCfg (phaseEnv v) n false ()).1).1 -
          trueMean π phaseLoc (phaseEnv fun _ => 0).likelihood ds (fun x => Real.cos (x.getD 0 0))| ≤
          2 * (2 / √(essOf
            (feed phaseCfg (phaseEnv v) true ds (construct phaseCfg (phaseEnv v) n false ()).1).1))})
        atTop (𝓝 p) := by
  have he := eps_pos (K := ℝ)
  have he1 : (eps : ℝ) < 1 / 100 := by norm_num [eps]
  have hv := phase_finiteVar π ds
  refine C118_interval (phase_sampled π ds) hv
    (iIndepFun_infinitePi (X := fun _ x => x) fun _ => measurable_id) phaseCfg true (Or.inr le_rfl) rfl
    (by show (eps : ℝ) ≤ 10 * eps; linarith) (by show 10 * (eps : ℝ) < 1; linarith) 2 two_pos ?_ 2 two_pos
  intro x
  have h1 : |trueMean π phaseLoc (phaseEnv fun _ => 0).likelihood ds fun x => Real.cos (x.getD 0 0)| ≤ 1 := by
    have hZ := hv.total
    have hL := hv.sq.integrable (q := 2) (by norm_num)
    rw [trueMean, abs_div, abs_of_pos hZ, div_le_one hZ]
    refine (abs_integral_le_integral_abs).trans (integral_mono (hv.fsq.integrable (by norm_num)).abs hL
      fun x => ?_)
    simp only [abs_mul]
    rw [abs_of_pos (phase_pos _ _)]
    exact mul_le_of_le_one_right (phase_pos _ _).le (Real.abs_cos_le_one _)
  have h2 := Real.abs_cos_le_one ((phaseLoc x ds.length).getD 0 0)
  exact (abs_sub _ _).trans (by linarith)

end QInfer
