import Verif.Lemmas.AdaptRate
import Mathlib.Probability.Martingale.Convergence

/-!
Products of functions of successive data from a finite set, whose factors have conditional mean at most one.
-/

namespace QInfer

open Filter Topology MeasureTheory ProbabilityTheory Function

variable {Ω S : Type*} [MeasurableSpace Ω] [MeasurableSpace S] [Fintype S] [MeasurableSingletonClass S]
  {P : Measure Ω} [IsProbabilityMeasure P] {X : ℕ → Ω → S}

omit [Fintype S] in
theorem cell_meas (hX : ∀ t, Measurable (X t)) (t : ℕ) (h : Fin t → S) :
    MeasurableSet {v | ∀ i : Fin t, X i v = h i} := by
  have : {v | ∀ i : Fin t, X i v = h i} = ⋂ i : Fin t, X i ⁻¹' {h i} := by ext v; simp
  rw [this]
  exact MeasurableSet.iInter fun i => hX i (measurableSet_singleton _)

omit [Fintype S] [MeasurableSingletonClass S] in
/-- What was known before each step. -/
def pastFiltration (hX : ∀ t, Measurable (X t)) : Filtration ℕ (inferInstance : MeasurableSpace Ω) where
  seq t := MeasurableSpace.comap (fun v (i : Fin t) => X i v) inferInstance
  mono' s t hst := by
    have : (fun v (i : Fin s) => X i v) =
        (fun (h : Fin t → S) (i : Fin s) => h (Fin.castLE hst i)) ∘ fun v (i : Fin t) => X i v := rfl
    change MeasurableSpace.comap (fun v (i : Fin s) => X i v) inferInstance ≤
      MeasurableSpace.comap (fun v (i : Fin t) => X i v) inferInstance
    rw [this, ← MeasurableSpace.comap_comp]
    exact MeasurableSpace.comap_mono (Measurable.comap_le (by fun_prop))
  le' t := Measurable.comap_le (measurable_pi_lambda _ fun i => hX i)

theorem products_int (hX : ∀ t, Measurable (X t)) (φ : ℕ → S → ℝ) (hφ : ∀ t d, 0 ≤ φ t d) (t : ℕ) :
    Integrable (fun v => ∏ r ∈ Finset.range t, φ r (X r v)) P := by
  refine bounded_int (Finset.measurable_prod _ fun r _ => (measurable_of_finite (φ r)).comp (hX r))
    (∏ r ∈ Finset.range t, ∑ d, φ r d) fun v => ?_
  rw [abs_of_nonneg (Finset.prod_nonneg fun r _ => hφ _ _)]
  exact Finset.prod_le_prod (fun r _ => hφ _ _) fun r _ =>
    Finset.single_le_sum (f := φ r) (fun d _ => hφ r d) (Finset.mem_univ _)

/-- The integral over a cell of the past. -/
theorem products_cell (hX : ∀ t, Measurable (X t)) (φ : ℕ → S → ℝ) (t : ℕ) (h : Fin t → S) :
    ∫ v in {v | ∀ i : Fin t, X i v = h i}, ∏ r ∈ Finset.range (t + 1), φ r (X r v) ∂P =
      (∏ i : Fin t, φ i (h i)) * ∑ d, φ t d * P.real {v | (∀ i : Fin t, X i v = h i) ∧ X t v = d} ∧
    ∫ v in {v | ∀ i : Fin t, X i v = h i}, ∏ r ∈ Finset.range t, φ r (X r v) ∂P =
      (∏ i : Fin t, φ i (h i)) * P.real {v | ∀ i : Fin t, X i v = h i} := by
  classical
  have hm := cell_meas hX t h
  have e0 : ∀ v ∈ {v | ∀ i : Fin t, X i v = h i}, ∏ r ∈ Finset.range t, φ r (X r v) = ∏ i : Fin t, φ i (h i) :=
    fun v hv => by
      rw [Finset.prod_range]
      exact Finset.prod_congr rfl fun i _ => by rw [hv i]
  have e1 : ∀ v ∈ {v | ∀ i : Fin t, X i v = h i}, ∏ r ∈ Finset.range (t + 1), φ r (X r v) =
      (∏ i : Fin t, φ i (h i)) * φ t (X t v) := fun v hv => by
    rw [← e0 v hv]
    exact Finset.prod_range_succ _ _
  rw [setIntegral_congr_fun hm e0, setIntegral_congr_fun hm e1, integral_const_mul, setIntegral_const,
    smul_eq_mul, mul_comm (P.real _)]
  refine ⟨?_, rfl⟩
  congr 1
  have e2 : ∀ v, φ t (X t v) = ∑ d, φ t d * {v | X t v = d}.indicator (fun _ => (1 : ℝ)) v := fun v => by
    rw [Finset.sum_eq_single (X t v)]
    · simp
    · intro d _ hd
      rw [Set.indicator_of_notMem (s := {v | X t v = d}) (fun hh : X t v = d => hd hh.symm), mul_zero]
    · simp
  have hs : ∀ d, MeasurableSet {v | X t v = d} := fun d => hX t (measurableSet_singleton d)
  simp only [e2]
  rw [integral_finsetSum _ fun d _ => (((integrable_const (1 : ℝ)).indicator (hs d)).integrableOn).const_mul _]
  refine Finset.sum_congr rfl fun d _ => ?_
  rw [integral_const_mul, integral_indicator_const _ (hs d), smul_eq_mul, mul_one,
    measureReal_restrict_apply (hs d), Set.inter_comm, ← Set.ofPred_and]

theorem products_split (hX : ∀ t, Measurable (X t)) (f : Ω → ℝ) (hf : Integrable f P) (t : ℕ) (A : Set (Fin t → S))
    [DecidablePred (· ∈ A)] : ∫ v in (fun v (i : Fin t) => X i v) ⁻¹' A, f v ∂P =
      ∑ h ∈ Finset.univ.filter (· ∈ A), ∫ v in {v | ∀ i : Fin t, X i v = h i}, f v ∂P := by
  have hu : (fun v (i : Fin t) => X i v) ⁻¹' A =
      ⋃ h ∈ (Finset.univ.filter fun h : Fin t → S => h ∈ A), {v | ∀ i : Fin t, X i v = h i} := by
    ext v
    simp only [Set.mem_preimage, Finset.mem_filter, Finset.mem_univ, true_and, Set.mem_iUnion,
      Set.mem_ofPred_eq, exists_prop]
    constructor
    · exact fun hv => ⟨_, hv, fun i => rfl⟩
    · rintro ⟨h, hA, hh⟩
      rwa [show (fun i : Fin t => X i v) = h from funext hh]
  rw [hu, integral_biUnion_finset _ (fun h _ => cell_meas hX t h) _ fun h _ => hf.integrableOn]
  intro h _ h' _ hne
  refine Set.disjoint_left.2 fun v hv hv' => hne (funext fun i => ?_)
  exact (hv i).symm.trans (hv' i)

/-- The mean of a product whose factors have conditional mean one, is one. -/
theorem products_mean (hX : ∀ t, Measurable (X t)) (φ : ℕ → S → ℝ) (hφ : ∀ t d, 0 ≤ φ t d)
    (h1 : ∀ t (h : Fin t → S), ∑ d, φ t d * P.real {v | (∀ i : Fin t, X i v = h i) ∧ X t v = d} =
      P.real {v | ∀ i : Fin t, X i v = h i}) (t : ℕ) :
    ∫ v, ∏ r ∈ Finset.range t, φ r (X r v) ∂P = 1 := by
  classical
  induction t with
  | zero => simp
  | succ t ih =>
    have ha := products_split hX _ (products_int (P := P) hX φ hφ (t + 1)) t Set.univ
    have hb := products_split hX _ (products_int (P := P) hX φ hφ t) t Set.univ
    rw [Set.preimage_univ, setIntegral_univ] at ha hb
    rw [ha, ← ih, hb]
    refine Finset.sum_congr rfl fun h _ => ?_
    rw [(products_cell hX φ t h).1, (products_cell hX φ t h).2, h1]

/-- A product whose factors have conditional mean at most one converges, and its mean is at most one. -/
theorem products_converge (hX : ∀ t, Measurable (X t)) (φ : ℕ → S → ℝ) (hφ : ∀ t d, 0 ≤ φ t d)
    (h1 : ∀ t (h : Fin t → S), ∑ d, φ t d * P.real {v | (∀ i : Fin t, X i v = h i) ∧ X t v = d} ≤
      P.real {v | ∀ i : Fin t, X i v = h i}) :
    (∀ t, ∫ v, ∏ r ∈ Finset.range t, φ r (X r v) ∂P ≤ 1) ∧
      ∀ᵐ v ∂P, ∃ c, Tendsto (fun t => ∏ r ∈ Finset.range t, φ r (X r v)) atTop (𝓝 c) := by
  classical
  obtain ⟨Z, hZ⟩ : ∃ Z : ℕ → Ω → ℝ, Z = fun t v => ∏ r ∈ Finset.range t, φ r (X r v) := ⟨_, rfl⟩
  have hZ0 : ∀ t v, 0 ≤ Z t v := fun t v => by rw [hZ]; exact Finset.prod_nonneg fun r _ => hφ _ _
  have hZi : ∀ t, Integrable (Z t) P := fun t => by rw [hZ]; exact products_int hX φ hφ t
  have hcell : ∀ t (h : Fin t → S), ∫ v in {v | ∀ i : Fin t, X i v = h i}, Z (t + 1) v ∂P ≤
      ∫ v in {v | ∀ i : Fin t, X i v = h i}, Z t v ∂P := by
    intro t h
    rw [hZ]
    simp only
    rw [(products_cell hX φ t h).1, (products_cell hX φ t h).2]
    exact mul_le_mul_of_nonneg_left (h1 t h) (Finset.prod_nonneg fun i _ => hφ _ _)
  have hsuper : Supermartingale Z (pastFiltration hX) P := by
    refine supermartingale_of_setIntegral_succ_le (fun t => ?_) hZi fun t s hs => ?_
    · have : Z t = (fun h : Fin t → S => ∏ i : Fin t, φ i (h i)) ∘ fun v (i : Fin t) => X i v := by
        funext v
        rw [hZ]
        exact Finset.prod_range _
      rw [this]
      refine Measurable.stronglyMeasurable ?_
      exact (measurable_of_finite _).comp (comap_measurable _)
    · obtain ⟨A, -, rfl⟩ := hs
      rw [products_split hX _ (hZi (t + 1)) t A, products_split hX _ (hZi t) t A]
      exact Finset.sum_le_sum fun h _ => hcell t h
  have hmean : ∀ t, ∫ v, Z t v ∂P ≤ 1 := by
    intro t
    induction t with
    | zero => simp [hZ]
    | succ t ih =>
      have := hsuper.setIntegral_le (Nat.le_succ t) (MeasurableSet.univ : MeasurableSet[pastFiltration hX t] _)
      rw [setIntegral_univ, setIntegral_univ] at this
      exact this.trans ih
  refine ⟨fun t => by have := hmean t; rwa [hZ] at this, ?_⟩
  have hconv := hsuper.neg.exists_ae_tendsto_of_bdd (R := 1) (fun t => by
    change eLpNorm (-(Z t)) 1 P ≤ _
    rw [eLpNorm_neg, eLpNorm_one_eq_lintegral_enorm]
    have : ∀ v, ‖Z t v‖ₑ = ENNReal.ofReal (Z t v) := fun v => Real.enorm_of_nonneg (hZ0 t v)
    simp only [this]
    rw [← ofReal_integral_eq_lintegral_ofReal (hZi t) (ae_of_all _ (hZ0 t))]
    simpa using ENNReal.ofReal_le_ofReal (hmean t))
  filter_upwards [hconv] with v ⟨c, hc⟩
  refine ⟨-c, ?_⟩
  rw [hZ] at hc
  simpa using hc.neg

end QInfer
