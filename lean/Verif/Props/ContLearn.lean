import Verif.Lemmas.ContRate
import Verif.Props.Concentrate
import Verif.Props.Identify
import Mathlib.MeasureTheory.Integral.DominatedConvergence
import Mathlib.MeasureTheory.Measure.Lebesgue.Basic
import Mathlib.MeasureTheory.Constructions.BorelSpace.Real
import Mathlib.MeasureTheory.Constructions.UnitInterval

/-!
# C143: parameters from a continuum are learnt

C106 is about a fixed cloud of particles that contains the truth.  Here the prior is any distribution on a
compact set of parameters that gives weight to every neighbourhood of the truth: the exact posterior
concentrates exponentially fast on the parameters that predict what the true ones do, and an updater with
enough particles drawn from the prior comes as close to the truth as one likes.
-/

namespace QInfer

open Spec Filter Topology MeasureTheory ProbabilityTheory Function

variable {Ω Ω' S O E R : Type*} [MeasurableSpace Ω] [MeasurableSpace Ω'] [MeasurableSpace S]
  [MeasurableSpace O] [MeasurableSpace E] [Fintype O] [Fintype E]

/-- The probabilities of all outcomes depend continuously on the parameters, which are `par x` for a point
`x` of some space. -/
structure Spec.Smooth [TopologicalSpace S] (like : O → List ℝ → E → ℝ) (par : S → List ℝ) : Prop where
  nonneg : ∀ o x e, 0 ≤ like o (par x) e
  sum : ∀ x e, ∑ o, like o (par x) e = 1
  cont : ∀ o e, Continuous fun x => like o (par x) e

/-- Two parameters predict the same in all experiments that are in use. -/
def Spec.PredictSame (like : O → List ℝ → E → ℝ) (q : E → ℝ) (y z : List ℝ) : Prop :=
  ∀ o e, 0 < q e → like o y e = like o z e

/-- Probability of the data for the parameters `y`. -/
def Spec.probData (like : O → List ℝ → E → ℝ) (ds : List (O × E)) (y : List ℝ) : ℝ :=
  (ds.map fun d => like d.1 y d.2).prod

/-- Probability of a set of parameters given the data, by Bayes' rule. -/
noncomputable def Spec.posteriorOf (π : Measure S) (par : S → List ℝ) (like : O → List ℝ → E → ℝ)
    (ds : List (O × E)) (A : Set S) : ℝ :=
  (∫ x in A, probData like ds (par x) ∂π) / ∫ x, probData like ds (par x) ∂π

section

variable [TopologicalSpace S] {like : O → List ℝ → E → ℝ} {par : S → List ℝ}

theorem Spec.Smooth.le_one (h : Smooth like par) (o : O) (x : S) (e : E) : like o (par x) e ≤ 1 := by
  rw [← h.sum x e]
  exact Finset.single_le_sum (f := fun o => like o (par x) e) (fun o _ => h.nonneg o x e)
    (Finset.mem_univ o)

theorem Spec.Smooth.prob_cont (h : Smooth like par) (ds : List (O × E)) :
    Continuous fun x => probData like ds (par x) := by
  induction ds with
  | nil => exact continuous_const
  | cons d ds ih =>
    simp only [probData, List.map_cons, List.prod_cons]
    exact (h.cont d.1 d.2).mul ih

theorem Spec.Smooth.prob_bounds (h : Smooth like par) (ds : List (O × E)) (x : S) :
    0 ≤ probData like ds (par x) ∧ probData like ds (par x) ≤ 1 := by
  induction ds with
  | nil => exact ⟨zero_le_one, le_rfl⟩
  | cons d ds ih =>
    simp only [probData, List.map_cons, List.prod_cons] at ih ⊢
    exact ⟨mul_nonneg (h.nonneg _ _ _) ih.1, mul_le_one₀ (h.le_one _ _ _) ih.1 ih.2⟩

variable [OpensMeasurableSpace S] {π : Measure S} [IsProbabilityMeasure π]

theorem Spec.Smooth.prob_int (h : Smooth like par) (ds : List (O × E)) :
    Integrable (fun x => probData like ds (par x)) π :=
  Integrable.of_bound (h.prob_cont ds).measurable.aestronglyMeasurable 1
    (ae_of_all _ fun x => by
      rw [Real.norm_eq_abs, abs_of_nonneg (h.prob_bounds ds x).1]; exact (h.prob_bounds ds x).2)

/-- Bounds for the posterior of a set from bounds on the likelihoods. -/
theorem posterior_le (h : Smooth like par) (ds : List (O × E)) (C V : Set S) (hV : MeasurableSet V)
    (hVpos : 0 < π.real V) (L A B : ℝ) (hL : 0 < L) (hA : 0 ≤ A) (hB : 0 < B)
    (hC : MeasurableSet C) (hup : ∀ x ∈ C, probData like ds (par x) ≤ A * L)
    (hlow : ∀ x ∈ V, B * L ≤ probData like ds (par x)) :
    0 < ∫ x, probData like ds (par x) ∂π ∧ posteriorOf π par like ds C ≤ A / (π.real V * B) := by
  have h1 : ∫ x in C, probData like ds (par x) ∂π ≤ A * L := by
    calc ∫ x in C, probData like ds (par x) ∂π ≤ ∫ _ in C, A * L ∂π :=
          setIntegral_mono_on (h.prob_int ds).integrableOn (integrable_const _).integrableOn hC hup
      _ = π.real C * (A * L) := by rw [setIntegral_const, smul_eq_mul]
      _ ≤ 1 * (A * L) := mul_le_mul_of_nonneg_right measureReal_le_one (mul_nonneg hA hL.le)
      _ = _ := one_mul _
  have h2 : π.real V * (B * L) ≤ ∫ x, probData like ds (par x) ∂π := by
    calc π.real V * (B * L) = ∫ _ in V, B * L ∂π := by rw [setIntegral_const, smul_eq_mul]
      _ ≤ ∫ x in V, probData like ds (par x) ∂π :=
          setIntegral_mono_on (integrable_const _).integrableOn (h.prob_int ds).integrableOn hV hlow
      _ ≤ _ := setIntegral_le_integral (h.prob_int ds) (ae_of_all _ fun x => (h.prob_bounds ds x).1)
  have h3 : 0 < π.real V * (B * L) := by positivity
  refine ⟨h3.trans_le h2, ?_⟩
  calc posteriorOf π par like ds C ≤ (A * L) / (π.real V * (B * L)) :=
        div_le_div₀ (mul_nonneg hA hL.le) h1 h3 h2
    _ = _ := by field_simp

variable [CompactSpace S] [MeasurableSingletonClass O] [MeasurableSingletonClass E]
  {P : Measure Ω} [IsProbabilityMeasure P] {μ : Measure (O × E)} {D : ℕ → Ω → O × E} {q : E → ℝ} {θ : S}

/-- If the likelihoods outside `U` fall exponentially behind, so does the posterior of that set. -/
theorem posterior_falls (hm : Smooth like par) (hsupp : ∀ V ∈ 𝓝 θ, π V ≠ 0) (U : Set S) (hU : IsOpen U)
    (h : ℝ) (hh : 0 < h) (D : ℕ → Ω → O × E) (v : Ω)
    (hz : ∀ i, 0 < like (D i v).1 (par θ) (D i v).2)
    (hfall : ∀ᶠ t : ℕ in atTop, ∀ x ∈ Uᶜ, ∏ i ∈ Finset.range t, like (D i v).1 (par x) (D i v).2 ≤
      Real.exp (-(h / 2 * t)) * ∏ i ∈ Finset.range t, like (D i v).1 (par θ) (D i v).2) :
    ∀ᶠ t : ℕ in atTop, 0 < ∫ x, probData like (firstData D t v) (par x) ∂π ∧
      posteriorOf π par like (firstData D t v) Uᶜ ≤ Real.exp (-(h / 4 * t)) := by
  obtain ⟨V, hVdef⟩ : ∃ V : Set S, V = {x | ∀ d : O × E, 0 < like d.1 (par θ) d.2 →
      Real.exp (-(h / 8)) * like d.1 (par θ) d.2 < like d.1 (par x) d.2} := ⟨_, rfl⟩
  have hVopen : IsOpen V := by
    have : V = ⋂ d : O × E, {x | 0 < like d.1 (par θ) d.2 →
        Real.exp (-(h / 8)) * like d.1 (par θ) d.2 < like d.1 (par x) d.2} := by
      ext x; simp [hVdef]
    rw [this]
    refine isOpen_iInter_of_finite fun d => ?_
    by_cases h0 : 0 < like d.1 (par θ) d.2
    · simp only [h0, true_imp_iff]
      exact isOpen_lt continuous_const (hm.cont d.1 d.2)
    · simp only [h0, false_imp_iff]
      exact isOpen_univ
  have hθV : θ ∈ V := by
    rw [hVdef]
    intro d h0
    have : Real.exp (-(h / 8)) < 1 := Real.exp_lt_one_iff.2 (by linarith)
    nlinarith
  have hVpos : 0 < π.real V :=
    ENNReal.toReal_pos (hsupp V (hVopen.mem_nhds hθV)) (measure_ne_top _ _)
  have hbig : ∀ᶠ t : ℕ in atTop, 1 / π.real V ≤ Real.exp (h / 8 * t) :=
    (Real.tendsto_exp_atTop.comp ((tendsto_natCast_atTop_atTop (R := ℝ)).const_mul_atTop
      (show 0 < h / 8 by positivity))).eventually_ge_atTop _
  filter_upwards [hfall, hbig] with t ht htb
  have hL : 0 < ∏ i ∈ Finset.range t, like (D i v).1 (par θ) (D i v).2 := Finset.prod_pos fun i _ => hz i
  have := posterior_le (π := π) hm (firstData D t v) Uᶜ V hVopen.measurableSet hVpos _
    (Real.exp (-(h / 2 * t))) (Real.exp (-(h / 8 * t))) hL (Real.exp_pos _).le (Real.exp_pos _)
    hU.measurableSet.compl
    (fun x hx => by rw [probData, prod_first]; exact ht x hx)
    (fun x hx => by
      rw [probData, prod_first,
        show Real.exp (-(h / 8 * t)) = ∏ _i ∈ Finset.range t, Real.exp (-(h / 8)) by
          rw [Finset.prod_const, Finset.card_range, ← Real.exp_nat_mul]; congr 1; ring,
        ← Finset.prod_mul_distrib]
      rw [hVdef] at hx
      exact Finset.prod_le_prod (fun i _ => mul_nonneg (Real.exp_pos _).le (hm.nonneg _ _ _))
        fun i _ => (hx (D i v) (hz i)).le)
  refine ⟨this.1, this.2.trans ?_⟩
  rw [div_le_iff₀ (by positivity)]
  rw [div_le_iff₀ hVpos] at htb
  calc Real.exp (-(h / 2 * t)) ≤ Real.exp (-(h / 2 * t)) * (Real.exp (h / 8 * t) * π.real V) :=
        le_mul_of_one_le_right (Real.exp_pos _).le htb
    _ = (Real.exp (-(h / 2 * t)) * Real.exp (h / 8 * t)) * π.real V := by ring
    _ = (Real.exp (-(h / 4 * t)) * Real.exp (-(h / 8 * t))) * π.real V := by
        rw [← Real.exp_add, ← Real.exp_add]; congr 2; ring
    _ = _ := by ring

/-- **C143.**  The data come from the parameters at `θ`.  With probability one the posterior probability
of the parameters outside an open set `U` falls exponentially, if `U` contains all those that predict the
same as the true ones. -/
theorem C143_posterior (hm : Smooth like par) (hD : IidData P μ D) (hμ : DrawnFrom like (par θ) q μ)
    (hsupp : ∀ V ∈ 𝓝 θ, π V ≠ 0) (U : Set S) (hU : IsOpen U)
    (hin : ∀ x, PredictSame like q (par x) (par θ) → x ∈ U) :
    ∃ c > 0, ∀ᵐ v ∂P, ∀ᶠ t : ℕ in atTop, 0 < ∫ x, probData like (firstData D t v) (par x) ∂π ∧
      posteriorOf π par like (firstData D t v) Uᶜ ≤ Real.exp (-(c * t)) := by
  classical
  have hμp : IsProbabilityMeasure μ := by
    rw [← hD.law 0]; exact Measure.isProbabilityMeasure_map (hD.meas 0).aemeasurable
  have hq1 : ∀ x, ∑ d : O × E, q d.2 * like d.1 (par x) d.2 = 1 := by
    intro x
    rw [Fintype.sum_prod_type, Finset.sum_comm]
    simp only [← Finset.mul_sum, hm.sum, mul_one, hμ.sum]
  obtain ⟨h, hh, δ, hδ, hδ1, hgap⟩ := gap_uniform (fun d : O × E => q d.2)
    (fun d => like d.1 (par θ) d.2) (fun x d => like d.1 (par x) d.2) Uᶜ hU.isClosed_compl.isCompact
    (fun d => hμ.nonneg d.2) (fun d => hm.nonneg _ _ _) (fun d => hm.le_one _ _ _)
    (fun x d => hm.nonneg _ _ _) (hq1 θ) hq1 (fun d => hm.cont d.1 d.2) (by
      intro x hx
      by_contra hno
      push Not at hno
      exact hx (hin x fun o e he => hno (o, e) he))
  have hfreq : ∀ᵐ v ∂P, ∀ d : O × E,
      Tendsto (fun t : ℕ => (∑ i ∈ Finset.range t, if D i v = d then (1 : ℝ) else 0) / t) atTop
        (𝓝 (q d.2 * like d.1 (par θ) d.2)) := by
    rw [ae_all_iff]
    rintro ⟨o, e⟩
    have hs : MeasurableSet ({(o, e)} : Set (O × E)) := measurableSet_singleton _
    have := hD.average (({(o, e)} : Set (O × E)).indicator fun _ => (1 : ℝ))
      (measurable_const.indicator hs) ((integrable_const 1).indicator hs)
    rw [integral_indicator_const _ hs, smul_eq_mul, mul_one, hμ.law] at this
    filter_upwards [this] with v hv
    refine hv.congr fun t => ?_
    simp only [Set.indicator_apply, Set.mem_singleton_iff]
  have hposs : ∀ᵐ d ∂μ, 0 < like d.1 (par θ) d.2 := by
    rw [ae_iff_of_countable]
    rintro ⟨o, e⟩ hne
    have h0 : μ.real {(o, e)} ≠ 0 := by rwa [Ne, measureReal_eq_zero_iff]
    rw [hμ.law] at h0
    exact lt_of_le_of_ne (hm.nonneg _ _ _) (Ne.symm (right_ne_zero_of_mul h0))
  refine ⟨h / 4, by positivity, ?_⟩
  filter_upwards [hfreq, hD.forall_ae _ hposs] with v hv hz
  have hfall := likelihood_falls (fun d : O × E => q d.2) (fun d => like d.1 (par θ) d.2)
    (fun x d => like d.1 (par x) d.2) (fun i => D i v) Uᶜ h δ hh hδ hδ1 (fun x d => hm.nonneg _ _ _)
    (fun x d => hm.le_one _ _ _) hgap hz hv
  exact posterior_falls hm hsupp U hU h hh D v hz hfall

theorem trueMean_eq (f : List ℝ → ℝ) (ds : List (O × E)) :
    trueMean π (fun x _ => par x) like ds f =
      (∫ x, probData like ds (par x) * f (par x) ∂π) / ∫ x, probData like ds (par x) ∂π := by
  simp only [trueMean, pathLike_static, probData]

/-- The posterior mean of a function is close to a value it has on a set of large probability. -/
theorem mean_near (hm : Smooth like par) (ds : List (O × E)) (F : S → ℝ) (hF : Continuous F) (c ε B : ℝ)
    (hε : 0 ≤ ε) (hB : ∀ x, |F x - c| ≤ B) (hZ : 0 < ∫ x, probData like ds (par x) ∂π) :
    |(∫ x, probData like ds (par x) * F x ∂π) / (∫ x, probData like ds (par x) ∂π) - c| ≤
      ε + B * posteriorOf π par like ds {x | |F x - c| < ε}ᶜ := by
  have hU : MeasurableSet {x | |F x - c| < ε} :=
    (isOpen_lt (hF.sub continuous_const).abs continuous_const).measurableSet
  have hi := hm.prob_int (π := π) ds
  have hg : Integrable (fun x => probData like ds (par x) * (F x - c)) π := by
    refine Integrable.of_bound ((hm.prob_cont ds).mul
      (hF.sub continuous_const)).measurable.aestronglyMeasurable B (ae_of_all _ fun x => ?_)
    rw [Real.norm_eq_abs, abs_mul, abs_of_nonneg (hm.prob_bounds ds x).1]
    calc probData like ds (par x) * |F x - c| ≤ 1 * B :=
          mul_le_mul (hm.prob_bounds ds x).2 (hB x) (abs_nonneg _) zero_le_one
      _ = B := one_mul B
  have hf : ∫ x, probData like ds (par x) * F x ∂π =
      ∫ x, probData like ds (par x) * (F x - c) ∂π + c * ∫ x, probData like ds (par x) ∂π := by
    rw [← integral_const_mul, ← integral_add hg (hi.const_mul c)]
    refine integral_congr_ae (ae_of_all _ fun x => ?_)
    dsimp only
    ring
  rw [hf, add_div, mul_div_assoc, div_self hZ.ne', mul_one, add_sub_cancel_right, abs_div,
    abs_of_pos hZ, posteriorOf, ← mul_div_assoc, div_le_iff₀ hZ, add_mul, div_mul_cancel₀ _ hZ.ne']
  calc |∫ x, probData like ds (par x) * (F x - c) ∂π|
      ≤ ∫ x, |probData like ds (par x) * (F x - c)| ∂π := abs_integral_le_integral_abs
    _ = (∫ x in {x | |F x - c| < ε}, |probData like ds (par x) * (F x - c)| ∂π) +
          ∫ x in {x | |F x - c| < ε}ᶜ, |probData like ds (par x) * (F x - c)| ∂π :=
        (integral_add_compl hU hg.abs).symm
    _ ≤ (∫ x in {x | |F x - c| < ε}, ε * probData like ds (par x) ∂π) +
          ∫ x in {x | |F x - c| < ε}ᶜ, B * probData like ds (par x) ∂π := by
        refine add_le_add ?_ ?_
        · refine setIntegral_mono_on hg.abs.integrableOn (hi.const_mul ε).integrableOn hU fun x hx => ?_
          rw [abs_mul, abs_of_nonneg (hm.prob_bounds ds x).1, mul_comm]
          exact mul_le_mul_of_nonneg_right (le_of_lt hx) (hm.prob_bounds ds x).1
        · refine setIntegral_mono_on hg.abs.integrableOn (hi.const_mul B).integrableOn hU.compl
            fun x hx => ?_
          rw [abs_mul, abs_of_nonneg (hm.prob_bounds ds x).1, mul_comm]
          exact mul_le_mul_of_nonneg_right (hB x) (hm.prob_bounds ds x).1
    _ ≤ ε * (∫ x, probData like ds (par x) ∂π) +
          B * ∫ x in {x | |F x - c| < ε}ᶜ, probData like ds (par x) ∂π := by
        rw [integral_const_mul, integral_const_mul]
        refine add_le_add_left (mul_le_mul_of_nonneg_left ?_ hε) _
        exact setIntegral_le_integral hi (ae_of_all _ fun x => (hm.prob_bounds ds x).1)

/-- If the posterior concentrates where a function has its true value, its mean tends to that value. -/
theorem mean_of_posterior (hm : Smooth like par) (f : List ℝ → ℝ) (hf : Continuous fun x => f (par x))
    (D : ℕ → Ω → O × E) (v : Ω)
    (hv : ∀ k : ℕ, ∃ c > 0, ∀ᶠ t : ℕ in atTop,
      0 < ∫ x, probData like (firstData D t v) (par x) ∂π ∧
      posteriorOf π par like (firstData D t v) {x | |f (par x) - f (par θ)| < 1 / ((k : ℝ) + 1)}ᶜ ≤
        Real.exp (-(c * t))) :
    Tendsto (fun t => trueMean π (fun x _ => par x) like (firstData D t v) f) atTop (𝓝 (f (par θ))) := by
  obtain ⟨B, hB⟩ := isCompact_univ.exists_bound_of_continuousOn (f := fun x => f (par x) - f (par θ))
    (hf.sub continuous_const).continuousOn
  rw [Metric.tendsto_atTop']
  intro ε hε
  obtain ⟨k, hk⟩ := exists_nat_one_div_lt (half_pos hε)
  obtain ⟨c, hc, h⟩ := hv k
  have hB0 : 0 ≤ B := (norm_nonneg _).trans (hB θ (Set.mem_univ _))
  have hlim : Tendsto (fun t : ℕ => B * Real.exp (-(c * t))) atTop (𝓝 0) := by
    have h1 : Tendsto (fun t : ℕ => -(c * (t : ℝ))) atTop atBot :=
      tendsto_neg_atTop_atBot.comp ((tendsto_natCast_atTop_atTop (R := ℝ)).const_mul_atTop hc)
    simpa using (Real.tendsto_exp_atBot.comp h1).const_mul B
  obtain ⟨T, hT⟩ := eventually_atTop.1 (h.and (hlim.eventually_lt_const (half_pos hε)))
  refine ⟨T, fun t ht => ?_⟩
  obtain ⟨⟨hZ, hpost⟩, hsmall⟩ := hT t (le_of_lt ht)
  rw [Real.dist_eq, trueMean_eq]
  have := mean_near hm (firstData D t v) (fun x => f (par x)) hf (f (par θ)) (1 / ((k : ℝ) + 1)) B
    (by positivity) (fun x => hB x (Set.mem_univ _)) hZ
  have h2 := mul_le_mul_of_nonneg_left hpost hB0
  linarith

/-- **C143, means.**  With probability one the posterior mean of every continuous function of the
parameters that has the same value wherever the predictions are the true ones, tends to its true value. -/
theorem C143_mean (hm : Smooth like par) (hD : IidData P μ D) (hμ : DrawnFrom like (par θ) q μ)
    (hsupp : ∀ V ∈ 𝓝 θ, π V ≠ 0) (f : List ℝ → ℝ) (hf : Continuous fun x => f (par x))
    (hval : ∀ x, PredictSame like q (par x) (par θ) → f (par x) = f (par θ)) :
    ∀ᵐ v ∂P, Tendsto (fun t => trueMean π (fun x _ => par x) like (firstData D t v) f) atTop
      (𝓝 (f (par θ))) := by
  have hall : ∀ᵐ v ∂P, ∀ k : ℕ, ∃ c > 0, ∀ᶠ t : ℕ in atTop,
      0 < ∫ x, probData like (firstData D t v) (par x) ∂π ∧
      posteriorOf π par like (firstData D t v) {x | |f (par x) - f (par θ)| < 1 / ((k : ℝ) + 1)}ᶜ ≤
        Real.exp (-(c * t)) := by
    rw [ae_all_iff]
    intro k
    obtain ⟨c, hc, h⟩ := C143_posterior (π := π) hm hD hμ hsupp
      {x | |f (par x) - f (par θ)| < 1 / ((k : ℝ) + 1)}
      (isOpen_lt (hf.sub continuous_const).abs continuous_const) (fun x hx => by
        show |f (par x) - f (par θ)| < _
        rw [hval x hx, sub_self, abs_zero]; positivity)
    filter_upwards [h] with v hv using ⟨c, hc, hv⟩
  filter_upwards [hall] with v hv
  exact mean_of_posterior hm f hf D v hv

theorem first_take {α : Type*} (D : ℕ → α → O × E) (v : α) (s t : ℕ) (h : s ≤ t) :
    (firstData D t v).take s = firstData D s v := by
  apply List.ext_getElem
  · simp [firstData, h]
  · intro i h1 h2
    simp [firstData]

/-- If the exact posterior means and second moments tend to the true values, so do those of an updater with
enough particles. -/
theorem updater_of_means (hm : Smooth like par) (d : ℕ) (hpar : ∀ k < d, Continuous fun x => (par x).getD k 0)
    {P' : Measure Ω'} [IsProbabilityMeasure P'] {X : ℕ → Ω' → S} {env : ℕ → Ω' → Env ℝ O E R}
    {s : ℕ → Ω' → Smc ℝ O R}
    (hS : ∀ ds, Sampled P' π X (fun x _ => par x) like ds env s) (cfg : SmcConfig ℝ) (check : Bool)
    (hc : check = false ∨ cfg.resampleThresh ≤ 0)
    (hp : cfg.policy = "error") (ht : eps ≤ cfg.zeroThresh) (ht1 : cfg.zeroThresh < 1)
    (D : ℕ → Ω → O × E) (v : Ω)
    (h1 : ∀ k : Fin d, Tendsto (fun t => trueMean π (fun x _ => par x) like (firstData D t v)
      fun y => y.getD k 0) atTop (𝓝 ((par θ).getD k 0)))
    (h2 : ∀ k l : Fin d, Tendsto (fun t => trueMean π (fun x _ => par x) like (firstData D t v)
      fun y => y.getD k 0 * y.getD l 0) atTop (𝓝 ((par θ).getD k 0 * (par θ).getD l 0)))
    (hpred : ∀ t, eps * (∫ x, probData like (firstData D t v) (par x) ∂π) <
        ∫ x, probData like (firstData D (t + 1) v) (par x) ∂π) (ε : ℝ) (hε : 0 < ε) :
    ∀ᶠ t in atTop, ∀ᵐ v' ∂P', ∀ᶠ n in atTop,
        (feed cfg (env n v') check (firstData D t v) (s n v')).2 = .ok () ∧
        ∀ k < d, |(smcMean d (feed cfg (env n v') check (firstData D t v) (s n v')).1.weights
            (feed cfg (env n v') check (firstData D t v) (s n v')).1.locs).getD k 0 -
              (par θ).getD k 0| < ε ∧
          ∀ l < d, |((smcCov d (feed cfg (env n v') check (firstData D t v) (s n v')).1.weights
            (feed cfg (env n v') check (firstData D t v) (s n v')).1.locs).getD k []).getD l 0| < ε := by
  have e1 : ∀ᶠ t in atTop, ∀ k : Fin d, |trueMean π (fun x _ => par x) like (firstData D t v)
      (fun y => y.getD k 0) - (par θ).getD k 0| < ε := by
    rw [eventually_all]
    intro k
    have : Tendsto (fun t => |trueMean π (fun x _ => par x) like (firstData D t v)
      (fun y => y.getD k 0) - (par θ).getD k 0|) atTop (𝓝 0) := by
      simpa using ((h1 k).sub_const ((par θ).getD k 0)).abs
    exact this.eventually_lt_const hε
  have e2 : ∀ᶠ t in atTop, ∀ k l : Fin d, |trueMean π (fun x _ => par x) like (firstData D t v)
      (fun y => y.getD k 0 * y.getD l 0) - trueMean π (fun x _ => par x) like (firstData D t v)
      (fun y => y.getD k 0) * trueMean π (fun x _ => par x) like (firstData D t v)
      (fun y => y.getD l 0)| < ε := by
    rw [eventually_all]
    intro k
    rw [eventually_all]
    intro l
    have : Tendsto (fun t => |trueMean π (fun x _ => par x) like (firstData D t v)
      (fun y => y.getD k 0 * y.getD l 0) - trueMean π (fun x _ => par x) like (firstData D t v)
      (fun y => y.getD k 0) * trueMean π (fun x _ => par x) like (firstData D t v)
      (fun y => y.getD l 0)|) atTop (𝓝 0) := by
      simpa using ((h2 k l).sub ((h1 k).mul (h1 l))).abs
    exact this.eventually_lt_const hε
  filter_upwards [e1, e2] with t e1 e2
  have hlen : (firstData D t v).length = t := by simp [firstData]
  have hbd : ∀ F : S → ℝ, Continuous F →
      Integrable (fun x => probData like (firstData D t v) (par x) * F x) π := by
    intro F hF
    obtain ⟨B, hB⟩ := isCompact_univ.exists_bound_of_continuousOn hF.continuousOn
    refine Integrable.of_bound ((hm.prob_cont _).mul hF).measurable.aestronglyMeasurable B
      (ae_of_all _ fun x => ?_)
    rw [norm_mul, Real.norm_eq_abs, abs_of_nonneg (hm.prob_bounds _ x).1]
    calc probData like (firstData D t v) (par x) * ‖F x‖ ≤ 1 * B :=
          mul_le_mul (hm.prob_bounds _ x).2 (hB x (Set.mem_univ _)) (norm_nonneg _) zero_le_one
      _ = B := one_mul B
  have hmeas : ∀ r ≤ (firstData D t v).length,
      Measurable fun x => pathLike like ((firstData D t v).take r) fun _ => par x := fun r hr => by
    simpa only [pathLike_static, probData] using (hm.prob_cont ((firstData D t v).take r)).measurable
  have hint : ∀ r ≤ (firstData D t v).length,
      Integrable (fun x => pathLike like ((firstData D t v).take r) fun _ => par x) π := fun r hr => by
    simpa only [pathLike_static, probData] using hm.prob_int (π := π) ((firstData D t v).take r)
  have hpos : ∀ r < (firstData D t v).length,
      eps * (∫ x, pathLike like ((firstData D t v).take r) (fun _ => par x) ∂π) <
      ∫ x, pathLike like ((firstData D t v).take (r + 1)) (fun _ => par x) ∂π := fun r hr => by
    rw [hlen] at hr
    rw [first_take D v r t hr.le, first_take D v (r + 1) t hr]
    simpa only [pathLike_static, probData] using hpred r
  have hest := C98_estimates (hS (firstData D t v)) cfg check hc hp ht ht1 hmeas hint hpos d
    (fun k hk => (hpar k hk).measurable)
    (fun k hk => by simpa only [pathLike_static, probData] using hbd _ (hpar k hk))
    (fun k hk l hl => by simpa only [pathLike_static, probData] using hbd (fun x => (par x).getD k 0 * (par x).getD l 0) ((hpar k hk).mul (hpar l hl)))
  have hacc := C98_consistent (hS (firstData D t v)) cfg check hc hp ht ht1 hmeas hint hpos (fun _ => 0)
    measurable_const (by simp)
  filter_upwards [hest, hacc] with v' hv hok
  have l1 : ∀ᶠ n in atTop, ∀ k : Fin d,
      |(smcMean d (feed cfg (env n v') check (firstData D t v) (s n v')).1.weights
            (feed cfg (env n v') check (firstData D t v) (s n v')).1.locs).getD k 0 -
              (par θ).getD k 0| < ε := by
    rw [eventually_all]
    intro k
    exact ((hv k k.2).1.sub_const _).abs.eventually_lt_const (e1 k)
  have l2 : ∀ᶠ n in atTop, ∀ k l : Fin d,
      |((smcCov d (feed cfg (env n v') check (firstData D t v) (s n v')).1.weights
            (feed cfg (env n v') check (firstData D t v) (s n v')).1.locs).getD k []).getD l 0| < ε := by
    rw [eventually_all]
    intro k
    rw [eventually_all]
    intro l
    exact ((hv k k.2).2 l l.2).abs.eventually_lt_const (e2 k l)
  filter_upwards [hok.1, l1, l2] with n hn l1 l2
  exact ⟨hn, fun k hk => ⟨l1 ⟨k, hk⟩, fun l hl => l2 ⟨k, hk⟩ ⟨l, hl⟩⟩⟩

/-- **C143, the updater.**  If only the true values of the first `d` parameters predict what they do, and
no datum is less probable than machine precision given the data before, then with probability one, for
every accuracy and enough data, an updater with enough particles drawn from the prior has accepted all
data, `est_mean` is that close to the true parameters, and `est_covariance_mtx` that close to zero. -/
theorem C143_updater (hm : Smooth like par) (hD : IidData P μ D) (hμ : DrawnFrom like (par θ) q μ)
    (hsupp : ∀ V ∈ 𝓝 θ, π V ≠ 0) (d : ℕ) (hpar : ∀ k < d, Continuous fun x => (par x).getD k 0)
    (hval : ∀ x, PredictSame like q (par x) (par θ) → ∀ k < d, (par x).getD k 0 = (par θ).getD k 0)
    {P' : Measure Ω'} [IsProbabilityMeasure P'] {X : ℕ → Ω' → S} {env : ℕ → Ω' → Env ℝ O E R}
    {s : ℕ → Ω' → Smc ℝ O R}
    (hS : ∀ ds, Sampled P' π X (fun x _ => par x) like ds env s) (cfg : SmcConfig ℝ) (check : Bool)
    (hc : check = false ∨ cfg.resampleThresh ≤ 0)
    (hp : cfg.policy = "error") (ht : eps ≤ cfg.zeroThresh) (ht1 : cfg.zeroThresh < 1) :
    ∀ᵐ v ∂P, (∀ t, eps * (∫ x, probData like (firstData D t v) (par x) ∂π) <
        ∫ x, probData like (firstData D (t + 1) v) (par x) ∂π) →
      ∀ ε > 0, ∀ᶠ t in atTop, ∀ᵐ v' ∂P', ∀ᶠ n in atTop,
        (feed cfg (env n v') check (firstData D t v) (s n v')).2 = .ok () ∧
        ∀ k < d, |(smcMean d (feed cfg (env n v') check (firstData D t v) (s n v')).1.weights
            (feed cfg (env n v') check (firstData D t v) (s n v')).1.locs).getD k 0 -
              (par θ).getD k 0| < ε ∧
          ∀ l < d, |((smcCov d (feed cfg (env n v') check (firstData D t v) (s n v')).1.weights
            (feed cfg (env n v') check (firstData D t v) (s n v')).1.locs).getD k []).getD l 0| < ε := by
  have h1 : ∀ᵐ v ∂P, ∀ k : Fin d, Tendsto (fun t => trueMean π (fun x _ => par x) like (firstData D t v)
      fun y => y.getD k 0) atTop (𝓝 ((par θ).getD k 0)) := by
    rw [ae_all_iff]
    exact fun k => C143_mean hm hD hμ hsupp _ (hpar k k.2) fun x hx => hval x hx k k.2
  have h2 : ∀ᵐ v ∂P, ∀ k l : Fin d, Tendsto (fun t => trueMean π (fun x _ => par x) like (firstData D t v)
      fun y => y.getD k 0 * y.getD l 0) atTop (𝓝 ((par θ).getD k 0 * (par θ).getD l 0)) := by
    rw [ae_all_iff]
    intro k
    rw [ae_all_iff]
    exact fun l => C143_mean hm hD hμ hsupp (fun y => y.getD k 0 * y.getD l 0)
      ((hpar k k.2).mul (hpar l l.2)) fun x hx => by rw [hval x hx k k.2, hval x hx l l.2]
  filter_upwards [h1, h2] with v h1 h2 hpred ε hε
  exact updater_of_means hm d hpar hS cfg check hc hp ht ht1 D v h1 h2 hpred ε hε

omit [CompactSpace S] [MeasurableSingletonClass O] [MeasurableSingletonClass E] in
/-- If every likelihood exceeds machine precision, so does the probability of every datum given those
before. -/
theorem predicted_of_bound (hm : Smooth like par) (hL : ∀ o x e, eps < like o (par x) e)
    {α : Type*} (D : ℕ → α → O × E) (v : α) (t : ℕ) :
    eps * (∫ x, probData like (firstData D t v) (par x) ∂π) <
      ∫ x, probData like (firstData D (t + 1) v) (par x) ∂π := by
  have hstep : ∀ x, probData like (firstData D (t + 1) v) (par x) =
      probData like (firstData D t v) (par x) * like (D t v).1 (par x) (D t v).2 := fun x => by
    simp only [probData, firstData, List.ofFn_succ', List.concat_eq_append, List.map_append,
      List.map_cons, List.map_nil, List.prod_append, List.prod_singleton, Fin.val_castSucc, Fin.val_last]
  have hpos : ∀ x, 0 < probData like (firstData D t v) (par x) := fun x =>
    List.prod_pos fun y hy => by
      obtain ⟨d, -, rfl⟩ := List.mem_map.1 hy
      exact eps_pos.trans (hL _ _ _)
  rw [← integral_const_mul, ← sub_pos, ← integral_sub (hm.prob_int _) ((hm.prob_int _).const_mul _)]
  have hlt : ∀ x, 0 < probData like (firstData D (t + 1) v) (par x) -
      eps * probData like (firstData D t v) (par x) := fun x => by
    rw [hstep, sub_pos, mul_comm]
    exact mul_lt_mul_of_pos_left (hL _ _ _) (hpos x)
  rw [integral_pos_iff_support_of_nonneg (fun x => (hlt x).le)
    ((hm.prob_int _).sub ((hm.prob_int _).const_mul _))]
  have : (support fun x => probData like (firstData D (t + 1) v) (par x) -
      eps * probData like (firstData D t v) (par x)) = Set.univ :=
    Set.eq_univ_of_forall fun x => (hlt x).ne'
  rw [this, measure_univ]
  exact one_pos

end

/-! ### Models of the library -/

section

variable [MeasurableSingletonClass E] {P : Measure Ω} [IsProbabilityMeasure P]

/-- Likelihood of a model with two outcomes and one parameter. -/
noncomputable def Spec.oneParam (pr0 : ℝ → E → ℝ) (o : Fin 2) (y : List ℝ) (e : E) : ℝ :=
  twoOutcome (pr0 (y.getD 0 0) e) (o.val : ℤ)

omit [MeasurableSpace E] [MeasurableSingletonClass E] [Fintype E] in
theorem oneParam_smooth (pr0 : ℝ → E → ℝ) (I : Set ℝ) (hc : ∀ e, ContinuousOn (fun x => pr0 x e) I)
    (h0 : ∀ x ∈ I, ∀ e, 0 ≤ pr0 x e) (h1 : ∀ x ∈ I, ∀ e, pr0 x e ≤ 1) :
    Smooth (oneParam pr0) fun x : I => [x.1] where
  nonneg o x e := by
    have := h0 x x.2 e; have := h1 x x.2 e
    fin_cases o <;> simp [oneParam, twoOutcome] <;> linarith
  sum x e := by simp [Fin.sum_univ_two, oneParam, twoOutcome]
  cont o e := by
    have : Continuous fun x : I => pr0 x.1 e := continuousOn_iff_continuous_domRestrict.1 (hc e)
    fin_cases o
    · simpa [oneParam, twoOutcome] using this
    · have h1 : Continuous fun x : I => 1 - pr0 x.1 e := continuous_const.sub this
      simpa [oneParam, twoOutcome] using h1

omit [MeasurableSpace E] [MeasurableSingletonClass E] [Fintype E] in
theorem oneParam_alike (pr0 : ℝ → E → ℝ) (q : E → ℝ) (x y : ℝ) (h : PredictSame (oneParam pr0) q [x] [y])
    (e : E) (he : 0 < q e) : pr0 x e = pr0 y e := by
  have := h 0 e he
  simpa [oneParam, twoOutcome] using this

/-- **C143, precession.**  Whatever durations are in use, if one of them is at most `π/W`, then a frequency
between 0 and `W` is learnt: the posterior probability of an error of `ε` falls exponentially. -/
theorem C143_precession (W : ℝ) (time : E → ℝ) (q : E → ℝ) (e₀ : E) (hq : 0 < q e₀) (ht : 0 < time e₀)
    (htW : time e₀ * W ≤ Real.pi) (ω : Set.Icc 0 W) {π : Measure (Set.Icc 0 W)} [IsProbabilityMeasure π]
    (hsupp : ∀ V ∈ 𝓝 ω, π V ≠ 0) {μ : Measure (Fin 2 × E)} {D : ℕ → Ω → Fin 2 × E} (hD : IidData P μ D)
    (hμ : DrawnFrom (oneParam fun w e => precessionPr0 w (time e)) [ω.1] q μ) (ε : ℝ) (hε : 0 < ε) :
    ∃ c > 0, ∀ᵐ v ∂P, ∀ᶠ t : ℕ in atTop,
      posteriorOf π (fun x => [x.1]) (oneParam fun w e => precessionPr0 w (time e)) (firstData D t v)
        {x | ε ≤ |x.1 - ω.1|} ≤ Real.exp (-(c * t)) := by
  have hm : Smooth (oneParam fun w e => precessionPr0 w (time e)) fun x : Set.Icc 0 W => [x.1] :=
    oneParam_smooth _ _
      (fun e => by
        have : Continuous fun w : ℝ => precessionPr0 w (time e) := by
          unfold precessionPr0 inversionPr0; fun_prop
        exact this.continuousOn)
      (fun x _ e => sq_nonneg _)
      (fun x _ e => Real.cos_sq_le_one _)
  obtain ⟨c, hc, h⟩ := C143_posterior (π := π) (θ := ω) hm hD hμ hsupp {x | |x.1 - ω.1| < ε}
    (isOpen_lt (continuous_subtype_val.sub continuous_const).abs continuous_const) (fun x hx => by
      have h1 := oneParam_alike (fun w e => precessionPr0 w (time e)) q x.1 ω.1 hx e₀ hq
      have h2 : x.1 = ω.1 := by
        by_contra hne
        exact (toldApart_iff _ _).1 (C139_short_times x.1 ω.1 W (time e₀) x.2 ω.2 ht htW hne) h1
      show |x.1 - ω.1| < ε
      rw [h2, sub_self, abs_zero]; exact hε)
  refine ⟨c, hc, ?_⟩
  have hset : {x : Set.Icc 0 W | |x.1 - ω.1| < ε}ᶜ = {x | ε ≤ |x.1 - ω.1|} := by
    ext x; simp
  rw [hset] at h
  filter_upwards [h] with v hv
  filter_upwards [hv] with t ht using ht.2

/-- **C143, coins.**  The bias of a coin is learnt, also if it may be 0 or 1. -/
theorem C143_coin (p : Set.Icc (0 : ℝ) 1) {π : Measure (Set.Icc (0 : ℝ) 1)} [IsProbabilityMeasure π]
    (hsupp : ∀ V ∈ 𝓝 p, π V ≠ 0) {μ : Measure (Fin 2 × Unit)} {D : ℕ → Ω → Fin 2 × Unit}
    (hD : IidData P μ D)
    (hμ : DrawnFrom (oneParam fun x _ => coinPr0 x) [p.1] (fun _ => 1) μ) (ε : ℝ) (hε : 0 < ε) :
    ∃ c > 0, ∀ᵐ v ∂P, ∀ᶠ t : ℕ in atTop,
      posteriorOf π (fun x => [x.1]) (oneParam fun x (_ : Unit) => coinPr0 x) (firstData D t v)
        {x | ε ≤ |x.1 - p.1|} ≤ Real.exp (-(c * t)) := by
  have hm : Smooth (oneParam fun x (_ : Unit) => coinPr0 x) fun x : Set.Icc (0 : ℝ) 1 => [x.1] :=
    oneParam_smooth _ _ (fun e => continuousOn_id) (fun x hx e => hx.1) (fun x hx e => hx.2)
  obtain ⟨c, hc, h⟩ := C143_posterior (π := π) (θ := p) hm hD hμ hsupp {x | |x.1 - p.1| < ε}
    (isOpen_lt (continuous_subtype_val.sub continuous_const).abs continuous_const) (fun x hx => by
      have h1 : x.1 = p.1 := oneParam_alike (fun x (_ : Unit) => coinPr0 x) _ x.1 p.1 hx () one_pos
      show |x.1 - p.1| < ε
      rw [h1, sub_self, abs_zero]; exact hε)
  refine ⟨c, hc, ?_⟩
  have hset : {x : Set.Icc (0 : ℝ) 1 | |x.1 - p.1| < ε}ᶜ = {x | ε ≤ |x.1 - p.1|} := by
    ext x; simp
  rw [hset] at h
  filter_upwards [h] with v hv
  filter_upwards [hv] with t ht using ht.2

end

/-! ### A case: a phase with a uniform prior -/

/-- Phases between 0 and `π/2`. -/
noncomputable def arcPar (x : unitInterval) : List ℝ := [x.1 * (Real.pi / 2)]

/-- Likelihood of a resting phase. -/
noncomputable abbrev arcLike : Bool → List ℝ → Unit → ℝ := (restEnv []).likelihood

theorem arc_bounds (o : Bool) (y : List ℝ) (e : Unit) : 1 / 4 ≤ arcLike o y e := (phase_like o y e).1

theorem arc_smooth : Smooth arcLike arcPar where
  nonneg o x e := le_trans (by norm_num) (arc_bounds o _ e)
  sum x e := by simp [arcLike, restEnv]; ring
  cont o e := by
    have : Continuous fun x : unitInterval => Real.sin (x.1 * (Real.pi / 2)) := by fun_prop
    simp only [arcLike, restEnv, arcPar, List.getD_cons_zero]
    fun_prop

theorem arc_sampled (ds : List (Bool × Unit)) :
    Sampled (Measure.infinitePi fun _ : ℕ => (volume : Measure unitInterval)) volume (fun i v => v i)
      (fun x _ => arcPar x) arcLike ds (fun n v => restEnv (List.ofFn fun i : Fin n => arcPar (v i)))
      (fun n v => (construct phaseCfg (restEnv (List.ofFn fun i : Fin n => arcPar (v i))) n false ()).1) where
  meas i := measurable_pi_apply i
  law i := Measure.infinitePi_map_eval _ i
  indep i j hij := (iIndepFun_infinitePi (P := fun _ : ℕ => (volume : Measure unitInterval))
    (X := fun _ x => x) (fun _ => measurable_id)).indepFun hij
  good n v :=
    { like_nonneg := (phaseEnv_good fun _ => 0).like_nonneg
      prior_len := fun r n => by simp [restEnv]
      canon_len := fun l => rfl
      timestep_len := fun r l e => rfl
      resampler_ok := fun r w l w' l' hw hl h => by
        simp only [restEnv, Except.ok.injEq, Prod.mk.injEq] at h
        obtain ⟨rfl, rfl⟩ := h
        exact ⟨hw, hl⟩ }
  likelihood n v := rfl
  weights n v := rfl
  locs n v := by
    simp [construct, reset, restEnv, phaseCfg]
  moves n v := moves_static _ (fun r l e => rfl) ds _ _

theorem arc_drawn : DrawnFrom arcLike (arcPar 1) (fun _ => 1) restLaw where
  nonneg _ := by norm_num
  sum := by simp
  law o e := by
    simp only [arcLike, restEnv, arcPar, List.getD_cons_zero]
    rw [show Real.sin (((1 : unitInterval) : ℝ) * (Real.pi / 2)) = 1 by
      rw [show ((1 : unitInterval) : ℝ) = 1 from rfl, one_mul (Real.pi / 2), Real.sin_pi_div_two]]
    cases o <;> simp [restLaw, measureReal_def] <;> norm_num

theorem arc_alike (x : unitInterval) (h : PredictSame arcLike (fun _ => 1) (arcPar x) (arcPar 1)) : x = 1 := by
  have h1 := h true () one_pos
  simp only [arcLike, restEnv, arcPar, List.getD_cons_zero] at h1
  have h2 : Real.sin (x.1 * (Real.pi / 2)) = Real.sin ((1 : unitInterval).1 * (Real.pi / 2)) := by
    simp only [if_true] at h1
    linarith
  have hπ := Real.pi_pos
  have hin : ∀ y : unitInterval, y.1 * (Real.pi / 2) ∈ Set.Icc (-(Real.pi / 2)) (Real.pi / 2) := fun y =>
    ⟨by nlinarith [y.2.1], by nlinarith [y.2.2]⟩
  have h3 := Real.injOn_sin (hin x) (hin 1) h2
  exact Subtype.ext (mul_right_cancel₀ (by positivity) h3)

theorem arc_support (x : unitInterval) (V : Set unitInterval) (hV : V ∈ 𝓝 x) : volume V ≠ 0 := by
  obtain ⟨ε, hε, hb⟩ := Metric.mem_nhds_iff.1 hV
  have hsub : Set.Ioo (max 0 (x.1 - ε)) (min 1 (x.1 + ε)) ⊆ Subtype.val '' V := by
    intro y hy
    have h0 : 0 < y := lt_of_le_of_lt (le_max_left _ _) hy.1
    have h1 : x.1 - ε < y := lt_of_le_of_lt (le_max_right _ _) hy.1
    have h2 : y < 1 := lt_of_lt_of_le hy.2 (min_le_left _ _)
    have h3 : y < x.1 + ε := lt_of_lt_of_le hy.2 (min_le_right _ _)
    refine ⟨⟨y, h0.le, h2.le⟩, hb ?_, rfl⟩
    rw [Metric.mem_ball, Subtype.dist_eq, Real.dist_eq, abs_lt]
    exact ⟨by linarith, by linarith⟩
  have hpos : 0 < volume (Set.Ioo (max 0 (x.1 - ε)) (min 1 (x.1 + ε))) := by
    rw [Real.volume_Ioo, ENNReal.ofReal_pos, sub_pos]
    have h0 := x.2.1
    have h1 := x.2.2
    exact max_lt (lt_min one_pos (by linarith)) (lt_min (by linarith) (by linarith))
  rw [unitInterval.volume_apply]
  exact (hpos.trans_le (measure_mono hsub)).ne'

/-- Case for C143: uniform prior on an arc of phases, truth at its end. -/
example : ∀ᵐ v ∂(Measure.infinitePi fun _ : ℕ => restLaw), ∀ ε > 0, ∀ᶠ t in atTop,
    ∀ᵐ v' ∂(Measure.infinitePi fun _ : ℕ => (volume : Measure unitInterval)), ∀ᶠ n in atTop,
      |(smcMean 1 (feed phaseCfg (restEnv (List.ofFn fun i : Fin n => arcPar (v' i))) false
            (firstData (fun t (v : ℕ → Bool × Unit) => v t) t v)
            (construct phaseCfg (restEnv (List.ofFn fun i : Fin n => arcPar (v' i))) n false ()).1).1.weights
          (feed phaseCfg (restEnv (List.ofFn fun i : Fin n => arcPar (v' i))) false
            (firstData (fun t (v : ℕ → Bool × Unit) => v t) t v)
            (construct phaseCfg (restEnv (List.ofFn fun i : Fin n => arcPar (v' i))) n false ()).1).1.locs).getD
              0 0 - Real.pi / 2| < ε := by
  have hR := rest_resting false
  have h := C143_updater (π := (volume : Measure unitInterval)) (θ := 1) arc_smooth rest_data arc_drawn
    (arc_support 1) 1
    (fun k hk => by
      have : k = 0 := by omega
      subst this
      simp only [arcPar, List.getD_cons_zero]
      fun_prop)
    (fun x hx k hk => by rw [arc_alike x hx]) arc_sampled phaseCfg false (Or.inl rfl) hR.policy
    hR.thresh.1 hR.thresh.2
  filter_upwards [h] with v hv ε hε
  have hε' : (eps : ℝ) < 1 / 4 := by unfold eps; norm_num
  filter_upwards [hv (fun t => predicted_of_bound arc_smooth
    (fun o x e => hε'.trans_le (arc_bounds o _ e)) _ v t) ε hε] with t ht
  filter_upwards [ht] with v' hv'
  filter_upwards [hv'] with n hn
  have := ((hn.2 0 one_pos).1)
  simpa [arcPar] using this

/-- Tosses of a coin that shows 0 with probability `a`. -/
noncomputable def tossLaw (a : ℝ) : Measure (Fin 2 × Unit) :=
  ENNReal.ofReal a • Measure.dirac (0, ()) + ENNReal.ofReal (1 - a) • Measure.dirac (1, ())

theorem toss_prob (a : ℝ) (h0 : 0 ≤ a) (h1 : a ≤ 1) : IsProbabilityMeasure (tossLaw a) where
  measure_univ := by
    simp only [tossLaw, Measure.add_apply, Measure.smul_apply, measure_univ, smul_eq_mul, mul_one]
    rw [← ENNReal.ofReal_add h0 (by linarith)]
    norm_num

theorem toss_data (a : ℝ) (h0 : 0 ≤ a) (h1 : a ≤ 1) : have := toss_prob a h0 h1
    IidData (Measure.infinitePi fun _ : ℕ => tossLaw a) (tossLaw a) fun t v => v t :=
  have := toss_prob a h0 h1
  { meas := fun t => measurable_pi_apply t
    law := fun t => Measure.infinitePi_map_eval _ t
    indep := fun i j hij => (iIndepFun_infinitePi (P := fun _ : ℕ => tossLaw a) (X := fun _ x => x)
      (fun _ => measurable_id)).indepFun hij }

theorem toss_drawn (pr0 : ℝ → Unit → ℝ) (x a : ℝ) (h0 : 0 ≤ a) (h1 : a ≤ 1) (h : pr0 x () = a) :
    DrawnFrom (oneParam pr0) [x] (fun _ => 1) (tossLaw a) where
  nonneg _ := by norm_num
  sum := by simp
  law o e := by
    have h2 : 0 ≤ 1 - a := by linarith
    fin_cases o <;> simp [tossLaw, measureReal_def, oneParam, twoOutcome, h, h0, h1]

/-- Case for C143: a coin that shows 0 three times out of four, with a uniform prior. -/
example (ε : ℝ) (hε : 0 < ε) : have := toss_prob (3 / 4) (by norm_num) (by norm_num)
    ∃ c > 0, ∀ᵐ v ∂(Measure.infinitePi fun _ : ℕ => tossLaw (3 / 4)), ∀ᶠ t : ℕ in atTop,
      posteriorOf (volume : Measure unitInterval) (fun x => [x.1]) (oneParam fun x (_ : Unit) => coinPr0 x)
        (firstData (fun t v => v t) t v) {x | ε ≤ |x.1 - 3 / 4|} ≤ Real.exp (-(c * t)) :=
  have := toss_prob (3 / 4) (by norm_num) (by norm_num)
  C143_coin (⟨3 / 4, by norm_num, by norm_num⟩ : unitInterval) (arc_support _)
    (toss_data (3 / 4) (by norm_num) (by norm_num))
    (toss_drawn (fun x _ => coinPr0 x) (3 / 4) (3 / 4) (by norm_num) (by norm_num) rfl) ε hε

/-- Case for C143: precession with frequency 1 observed after a quarter of the period, with a uniform
prior between 0 and 1. -/
example (ε : ℝ) (hε : 0 < ε) : have := toss_prob (1 / 2) (by norm_num) (by norm_num)
    ∃ c > 0, ∀ᵐ v ∂(Measure.infinitePi fun _ : ℕ => tossLaw (1 / 2)), ∀ᶠ t : ℕ in atTop,
      posteriorOf (volume : Measure unitInterval) (fun x => [x.1])
        (oneParam fun w (_ : Unit) => precessionPr0 w (Real.pi / 2))
        (firstData (fun t v => v t) t v) {x | ε ≤ |x.1 - 1|} ≤ Real.exp (-(c * t)) :=
  have := toss_prob (1 / 2) (by norm_num) (by norm_num)
  C143_precession 1 (fun _ : Unit => Real.pi / 2) (fun _ => 1) () one_pos (by positivity)
    (by linarith [Real.pi_pos]) (1 : unitInterval) (arc_support _)
    (toss_data (1 / 2) (by norm_num) (by norm_num))
    (toss_drawn (fun w _ => precessionPr0 w (Real.pi / 2)) 1 (1 / 2) (by norm_num) (by norm_num) (by
      show Real.cos (Real.pi / 2 * (1 - 0) / 2) ^ 2 = 1 / 2
      rw [show Real.pi / 2 * (1 - 0) / 2 = Real.pi / 4 by ring, Real.cos_pi_div_four, div_pow,
        Real.sq_sqrt (by norm_num)]
      norm_num)) ε hε

end QInfer
