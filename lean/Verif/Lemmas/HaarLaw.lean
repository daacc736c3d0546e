import Verif.Lemmas.BlochLaw
import Mathlib.Probability.Independence.Basic
import Mathlib.Analysis.InnerProductSpace.Projection.Reflection

/-!
# The law of the Haar random states
-/

namespace QInfer

open MeasureTheory ProbabilityTheory Finset Matrix

/-- Some of the variates are again independent standard normal variates. -/
theorem normals_precomp {ι κ : Type} [Fintype ι] [Fintype κ] (e : κ → ι) (he : e.Injective) :
    (normals ι).map (fun v k => v (e k)) = normals κ := by
  have h1 : iIndepFun (fun i (v : ι → ℝ) => v i) (normals ι) :=
    iIndepFun_pi (X := fun _ x => x) fun i => aemeasurable_id
  have h2 := h1.precomp he
  rw [iIndepFun_iff_map_fun_eq_pi_map (fun k => (measurable_pi_apply _).aemeasurable)] at h2
  have h3 : ∀ k, (normals ι).map (fun v => v (e k)) = gaussianReal 0 1 := fun k => by
    have := (measurePreserving_eval (fun _ : ι => gaussianReal 0 1) (e k)).map_eq
    exact this
  refine Eq.trans h2 ?_
  rw [normals]
  congr 1
  funext k
  exact h3 k

/-- What holds almost surely when one of the variates is drawn anew holds almost surely. -/
theorem normals_update {ι : Type} [Fintype ι] [DecidableEq ι] (p : ι) :
    ((normals ι).prod (gaussianReal 0 1)).map (fun q => Function.update q.1 p q.2) = normals ι := by
  have hm : Measurable fun q : (ι → ℝ) × ℝ => Function.update q.1 p q.2 := by
    rw [measurable_pi_iff]
    intro i
    by_cases h : i = p
    · subst h; simpa using measurable_snd
    · simp only [Function.update_of_ne h]
      exact (measurable_pi_apply i).comp measurable_fst
  symm
  apply Measure.pi_eq
  intro s hs
  rw [Measure.map_apply hm (MeasurableSet.univ_pi hs)]
  have : (fun q : (ι → ℝ) × ℝ => Function.update q.1 p q.2) ⁻¹' (Set.univ.pi s) =
      (Set.univ.pi (Function.update s p Set.univ)) ×ˢ s p := by
    ext q
    simp only [Set.mem_preimage, Set.mem_pi, Set.mem_univ, true_imp_iff, Set.mem_prod]
    constructor
    · intro h
      refine ⟨fun i => ?_, by simpa using h p⟩
      by_cases hi : i = p
      · subst hi; simp
      · have := h i
        rw [Function.update_of_ne hi] at this ⊢
        exact this
    · rintro ⟨h1, h2⟩ i
      by_cases hi : i = p
      · subst hi; simpa using h2
      · have := h1 i
        rw [Function.update_of_ne hi] at this ⊢
        exact this
  rw [this, Measure.prod_prod, normals, Measure.pi_pi, ← Finset.prod_erase_mul _ _ (mem_univ p),
    ← Finset.prod_erase_mul _ _ (mem_univ p)]
  simp only [Function.update_self, measure_univ, mul_one]
  congr 1
  refine prod_congr rfl fun i hi => ?_
  rw [Function.update_of_ne (ne_of_mem_erase hi)]

theorem normals_ae_update {ι : Type} [Fintype ι] [DecidableEq ι] (p : ι) (P : (ι → ℝ) → Prop)
    (hP : MeasurableSet {v | P v}) (h : ∀ᵐ v ∂normals ι, ∀ᵐ x ∂gaussianReal 0 1, P (Function.update v p x)) :
    ∀ᵐ v ∂normals ι, P v := by
  have hm : Measurable fun q : (ι → ℝ) × ℝ => Function.update q.1 p q.2 := by
    rw [measurable_pi_iff]
    intro i
    by_cases h : i = p
    · subst h; simpa using measurable_snd
    · simp only [Function.update_of_ne h]
      exact (measurable_pi_apply i).comp measurable_fst
  rw [← normals_update p, ae_map_iff hm.aemeasurable hP]
  exact (Measure.ae_prod_iff_ae_ae (hm hP)).2 h

/-- Almost every variate differs from a given number. -/
theorem gauss_ne (c : ℝ) : ∀ᵐ x ∂gaussianReal 0 1, x ≠ c := by
  haveI : NullSingletonClass (gaussianReal 0 1) := nullSingletonClass_gaussianReal one_ne_zero
  rw [ae_iff]
  simp

theorem normals_coord_ne {ι : Type} [Fintype ι] (p : ι) (c : ℝ) : ∀ᵐ v ∂normals ι, v p ≠ c := by
  have := (measurePreserving_eval (fun _ : ι => gaussianReal 0 1) p).quasiMeasurePreserving.ae (gauss_ne c)
  exact this

/-- The complex matrix is almost surely invertible. -/
theorem randn_det : ∀ᵐ v ∂normals (Bool × Fin 2 × Fin 2), det (randnComplex v) ≠ 0 := by
  have hre : Measurable fun v : Bool × Fin 2 × Fin 2 → ℝ => (det (randnComplex v)).re := by
    simp [det_fin_two, randnComplex, Complex.mul_re, Complex.mul_im]
    fun_prop
  have : ∀ᵐ v ∂normals (Bool × Fin 2 × Fin 2), (det (randnComplex v)).re ≠ 0 := by
    refine normals_ae_update (false, 1, 1) _ (hre (measurableSet_singleton 0)).compl ?_
    filter_upwards [normals_coord_ne (false, 0, 0) 0] with v hv
    have e : ∀ x, (det (randnComplex (Function.update v (false, 1, 1) x))).re =
        v (false, 0, 0) * x + (-(v (true, 0, 0) * v (true, 1, 1)) - (v (false, 0, 1) * v (false, 1, 0) -
          v (true, 0, 1) * v (true, 1, 0))) := by
      intro x
      simp [det_fin_two, randnComplex, Complex.mul_re, Complex.mul_im, Function.update_apply]
      ring
    obtain ⟨C, hC⟩ : ∃ C, C = (-(v (true, 0, 0) * v (true, 1, 1)) - (v (false, 0, 1) * v (false, 1, 0) -
          v (true, 0, 1) * v (true, 1, 0))) := ⟨_, rfl⟩
    filter_upwards [gauss_ne (-C / v (false, 0, 0))] with x hx
    rw [e, ← hC]
    intro h0
    apply hx
    rw [eq_div_iff hv]
    linarith
  filter_upwards [this] with v hv h0
  rw [h0] at hv
  exact hv rfl

/-- The variates of the first column. -/
def firstColumn (v : Bool × Fin 2 × Fin 2 → ℝ) : Bool × Fin 2 × Fin 1 → ℝ := fun p => v (p.1, p.2.1, 0)

theorem firstColumn_law : (normals (Bool × Fin 2 × Fin 2)).map firstColumn = normals (Bool × Fin 2 × Fin 1) := by
  refine normals_precomp (fun p : Bool × Fin 2 × Fin 1 => (p.1, p.2.1, (0 : Fin 2))) ?_
  rintro ⟨a, b, c⟩ ⟨a', b', c'⟩ h
  simp only [Prod.mk.injEq] at h
  rw [h.1, h.2.1, Subsingleton.elim c c']

/-- What `np.linalg.qr` promises: a unitary matrix times an upper triangular one. -/
def Spec.IsQR (qr : Matrix (Fin 2) (Fin 2) ℂ → Matrix (Fin 2) (Fin 2) ℂ × Matrix (Fin 2) (Fin 2) ℂ) : Prop :=
  ∀ z, (qr z).1ᴴ * (qr z).1 = 1 ∧ (qr z).2 1 0 = 0 ∧ (qr z).1 * (qr z).2 = z

theorem haarDraw_eq {qr} (hqr : Spec.IsQR qr) (v : Bool × Fin 2 × Fin 2 → ℝ) (hv : det (randnComplex v) ≠ 0) :
    haarDraw qr v = .ok (some [bvec (firstColumn v) 0, bvec (firstColumn v) 1, bvec (firstColumn v) 2]) := by
  unfold haarDraw
  obtain ⟨hq, hr, hz⟩ := hqr (((Real.sqrt 2 : ℝ) : ℂ)⁻¹ • randnComplex v)
  generalize qr (((Real.sqrt 2 : ℝ) : ℂ)⁻¹ • randnComplex v) = f at *
  obtain ⟨q, r⟩ := f
  dsimp only at *
  have h2 : ((Real.sqrt 2 : ℝ) : ℂ)⁻¹ ≠ 0 := inv_ne_zero (by
    rw [Complex.ofReal_ne_zero]; exact (Real.sqrt_pos.2 two_pos).ne')
  have hdet : r 0 0 * r 1 1 ≠ 0 := by
    intro h0
    have h1 : det r = 0 := by rw [det_fin_two, hr, h0]; ring
    have h3 : det (((Real.sqrt 2 : ℝ) : ℂ)⁻¹ • randnComplex v) = 0 := by rw [← hz, det_mul, h1, mul_zero]
    rw [det_smul] at h3
    exact (mul_ne_zero (pow_ne_zero _ h2) hv) h3
  have hr0 : r 0 0 ≠ 0 := left_ne_zero_of_mul hdet
  have hr1 : r 1 1 ≠ 0 := right_ne_zero_of_mul hdet
  have hne : ¬∃ i, r i i = 0 := by
    rintro ⟨i, hi⟩
    fin_cases i
    · exact hr0 hi
    · exact hr1 hi
  rw [if_neg hne]
  have hs : haarSample (q, r) = .ok (haarBloch (phaseFix q r)) := by simp [haarSample]
  rw [hs]
  have hcol : ∀ i, q i 0 * r 0 0 = ((Real.sqrt 2 : ℝ) : ℂ)⁻¹ * randnComplex v i 0 := by
    intro i
    have := congrFun (congrFun hz i) 0
    rw [mul_apply, Fin.sum_univ_two, hr, mul_zero, add_zero] at this
    exact this
  have hunit : Complex.normSq (q 0 0) + Complex.normSq (q 1 0) = 1 := by
    have := congrFun (congrFun hq 0) 0
    simp only [mul_apply, Fin.sum_univ_two, conjTranspose_apply, one_apply_eq] at this
    have h1 := congrArg Complex.re this
    simp [Complex.mul_re] at h1
    rw [Complex.normSq_apply, Complex.normSq_apply]
    linarith
  have hfc : ∀ i, randnComplex (firstColumn v) i 0 = randnComplex v i 0 := fun i => rfl
  obtain ⟨S, hS⟩ : ∃ S, S = ∑ p, firstColumn v p ^ 2 := ⟨_, rfl⟩
  have hS' : S = Complex.normSq (randnComplex v 0 0) + Complex.normSq (randnComplex v 1 0) := by
    rw [hS, sumsq_normSq]
    simp [Fin.sum_univ_two, hfc]
  -- the state `psi` is the normalised column
  obtain ⟨a, ha⟩ : ∃ a, a = randnComplex v 0 0 := ⟨_, rfl⟩
  obtain ⟨b, hb⟩ : ∃ b, b = randnComplex v 1 0 := ⟨_, rfl⟩
  have hqa : q 0 0 = ((Real.sqrt 2 : ℝ) : ℂ)⁻¹ * a / r 0 0 := by rw [eq_div_iff hr0, hcol, ha]
  have hqb : q 1 0 = ((Real.sqrt 2 : ℝ) : ℂ)⁻¹ * b / r 0 0 := by rw [eq_div_iff hr0, hcol, hb]
  have hnr : ((Real.sqrt 2 : ℝ) : ℂ)⁻¹ / (‖r 0 0‖ : ℂ) = ((Real.sqrt S)⁻¹ : ℝ) := by
    have h4 : S = 2 * ‖r 0 0‖ ^ 2 := by
      rw [hqa, hqb] at hunit
      simp only [Complex.normSq_div, Complex.normSq_mul, Complex.normSq_inv, Complex.normSq_ofReal,
        Real.mul_self_sqrt zero_le_two] at hunit
      rw [Complex.normSq_eq_norm_sq (r 0 0)] at hunit
      have : ‖r 0 0‖ ^ 2 ≠ 0 := pow_ne_zero _ (norm_ne_zero_iff.2 hr0)
      field_simp at hunit
      rw [hS', ← ha, ← hb]
      linarith
    rw [h4, Real.sqrt_mul zero_le_two, Real.sqrt_sq (norm_nonneg _), mul_inv]
    push_cast
    rw [div_eq_mul_inv]
  have hSpos : 0 < S := by
    have : S = 2 * ‖r 0 0‖ ^ 2 := by
      rw [hqa, hqb] at hunit
      simp only [Complex.normSq_div, Complex.normSq_mul, Complex.normSq_inv, Complex.normSq_ofReal,
        Real.mul_self_sqrt zero_le_two] at hunit
      rw [Complex.normSq_eq_norm_sq (r 0 0)] at hunit
      have : ‖r 0 0‖ ^ 2 ≠ 0 := pow_ne_zero _ (norm_ne_zero_iff.2 hr0)
      field_simp at hunit
      rw [hS', ← ha, ← hb]
      linarith
    rw [this]
    have := norm_pos_iff.2 hr0
    positivity
  have hpsi : ∀ i, (phaseFix q r *ᵥ ![1, 0]) i = ((Real.sqrt S)⁻¹ : ℝ) * randnComplex v i 0 := by
    intro i
    have h5 : (phaseFix q r *ᵥ ![1, 0]) i = q i 0 * (r 0 0 / (‖r 0 0‖ : ℂ)) := by
      simp [phaseFix, mulVec, dotProduct, Fin.sum_univ_two, mul_apply, diagonal_apply]
    rw [h5, ← mul_div_assoc, hcol, ← hnr]
    ring
  have hinv : ((Real.sqrt S)⁻¹ * (Real.sqrt S)⁻¹ : ℝ) = S⁻¹ := by
    rw [← mul_inv, Real.mul_self_sqrt hSpos.le]
  obtain ⟨psi, hpsi'⟩ : ∃ psi, psi = phaseFix q r *ᵥ ![1, 0] := ⟨_, rfl⟩
  have hp0 : psi 0 = ((Real.sqrt S)⁻¹ : ℝ) * a := by rw [hpsi', hpsi, ha]
  have hp1 : psi 1 = ((Real.sqrt S)⁻¹ : ℝ) * b := by rw [hpsi', hpsi, hb]
  obtain ⟨c, hc⟩ : ∃ c, c = (Real.sqrt S)⁻¹ := ⟨_, rfl⟩
  rw [← hc] at hp0 hp1 hinv
  have hb0 : bvec (firstColumn v) 0 = (2 * (a * star b).re) * S⁻¹ := by
    simp only [bvec, blochNum, ← hS]
    simp [hfc, ← ha, ← hb, div_eq_mul_inv]
  have hb1 : bvec (firstColumn v) 1 = (-2 * (a * star b).im) * S⁻¹ := by
    simp only [bvec, blochNum, ← hS]
    simp [hfc, ← ha, ← hb, div_eq_mul_inv]
  have hb2 : bvec (firstColumn v) 2 = (Complex.normSq a - Complex.normSq b) * S⁻¹ := by
    simp only [bvec, blochNum, ← hS]
    simp [hfc, ← ha, ← hb, div_eq_mul_inv]
  show Except.ok (some (haarBloch (phaseFix q r))) = _
  rw [hb0, hb1, hb2, ← hinv]
  unfold haarBloch
  simp only [← hpsi']
  refine congrArg (fun l => Except.ok (some l)) ?_
  simp only [List.cons.injEq, and_true]
  refine ⟨?_, ?_, ?_⟩
  · simp [dotProduct, Fin.sum_univ_two, hp0, hp1, Complex.mul_re, Complex.mul_im]
    ring
  · simp [dotProduct, Fin.sum_univ_two, hp0, hp1, Complex.mul_re, Complex.mul_im]
    ring
  · simp [dotProduct, Fin.sum_univ_two, hp0, hp1, Complex.mul_re, Complex.mul_im, Complex.normSq_apply]
    ring

/-! ## Isotropic laws -/

/-- Isotropy: the law is not changed by rotations and reflections. -/
def Spec.Isotropic (μ : Measure R3) : Prop := ∀ R : R3 ≃ₗᵢ[ℝ] R3, μ.map R = μ

theorem isotropic_charFun {μ : Measure R3} (h : Spec.Isotropic μ) (s t : R3) (hst : ‖s‖ = ‖t‖) :
    charFun μ s = charFun μ t := by
  let R : R3 ≃ₗᵢ[ℝ] R3 := (Submodule.span ℝ {s - t})ᗮ.reflection
  have hR : R s = t := Submodule.reflection_sub hst
  have hm : Measurable R := R.continuous.measurable
  rw [← h R, charFun_apply, integral_map hm.aemeasurable (Measurable.aestronglyMeasurable (by fun_prop)), h R, charFun_apply]
  congr 1
  funext x
  congr 3
  have : R t = s := by
    rw [← hR]; exact Submodule.reflection_reflection _ _
  rw [← this, R.inner_map_map]

/-- There is only one isotropic law on the unit sphere. -/
theorem isotropic_unique {μ ν : Measure R3} [IsProbabilityMeasure μ] [IsProbabilityMeasure ν]
    (hμ : Spec.Isotropic μ) (hν : Spec.Isotropic ν) (h1 : ∀ᵐ x ∂μ, ‖x‖ = 1) (h2 : ∀ᵐ x ∂ν, ‖x‖ = 1) : μ = ν := by
  have key : ∀ {μ ν : Measure R3} [IsProbabilityMeasure μ] [IsProbabilityMeasure ν], Spec.Isotropic μ →
      (∀ᵐ x ∂ν, ‖x‖ = 1) → ∀ t : R3, charFun μ t = ∫ y, ∫ x, Complex.exp (‖t‖ * inner ℝ x y * Complex.I) ∂μ ∂ν := by
    intro μ ν _ _ hμ h2 t
    have : ∀ᵐ y ∂ν, ∫ x, Complex.exp (‖t‖ * inner ℝ x y * Complex.I) ∂μ = charFun μ t := by
      filter_upwards [h2] with y hy
      rw [isotropic_charFun hμ t (‖t‖ • y) (by rw [norm_smul, norm_norm, hy, mul_one]), charFun_apply]
      congr 1
      funext x
      rw [inner_smul_right]
      push_cast
      ring_nf
    rw [integral_congr_ae this]
    simp
  apply Measure.ext_of_charFun
  ext t
  rw [key (ν := ν) hμ h2 t, key (ν := μ) hν h1 t, integral_integral_swap]
  · congr 1
    funext x
    congr 1
    funext y
    rw [real_inner_comm]
  · refine Integrable.of_bound (Measurable.aestronglyMeasurable ?_) 1 (Filter.Eventually.of_forall fun p => ?_)
    · unfold Function.uncurry
      fun_prop
    · simp only [Function.uncurry]
      rw [show ((‖t‖ : ℂ) * (inner ℝ p.2 p.1 : ℝ) * Complex.I) = ((‖t‖ * inner ℝ p.2 p.1 : ℝ) : ℂ) * Complex.I by push_cast; ring,
        Complex.norm_exp_ofReal_mul_I]

end QInfer
