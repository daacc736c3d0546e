import Verif.Lemmas.JointNormal
import Verif.Props.OnePointLaw

/-!
# C162: the covariance after a fresh start
-/

namespace QInfer

open MeasureTheory ProbabilityTheory Matrix

variable {N d : Nat}

/-- The vector of one particle's kernel numbers. -/
theorem lwDraws_vector (N d : Nat) (i : Fin N) :
    (lwDraws N d).map (fun q => (q i).2) = Measure.pi fun _ => gaussianReal 0 1 := by
  have hvol : IsProbabilityMeasure (volume.restrict (Set.Ico (0 : ℝ) 1)) := ⟨by simp⟩
  have e1 : (fun q : Fin N → ℝ × (Fin d → ℝ) => (q i).2) = (Prod.snd : ℝ × (Fin d → ℝ) → Fin d → ℝ) ∘ Function.eval i := rfl
  rw [e1, ← Measure.map_map (by fun_prop) (by fun_prop)]
  unfold lwDraws
  rw [(measurePreserving_eval _ i).map_eq, Measure.map_snd_prod, measure_univ, one_smul]

theorem pi_gauss_second (m n : Fin d) :
    Integrable (fun v : Fin d → ℝ => v m) (Measure.pi fun _ => gaussianReal 0 1) ∧
    ∫ v : Fin d → ℝ, v m ∂(Measure.pi fun _ => gaussianReal 0 1) = 0 ∧
    Integrable (fun v : Fin d → ℝ => v m * v n) (Measure.pi fun _ => gaussianReal 0 1) ∧
    ∫ v : Fin d → ℝ, v m * v n ∂(Measure.pi fun _ => gaussianReal 0 1) = if m = n then 1 else 0 := by
  obtain ⟨g1, g2, g3, g4⟩ := gaussianReal_second 0 1
  have hmap : ∀ m : Fin d, (Measure.pi fun _ : Fin d => gaussianReal 0 1).map (fun v => v m) = gaussianReal 0 1 := fun m =>
    (measurePreserving_eval _ m).map_eq
  have hint : ∀ m : Fin d, Integrable (fun v : Fin d → ℝ => v m) (Measure.pi fun _ => gaussianReal 0 1) := fun m => by
    have := g1
    rw [← hmap m] at this
    exact this.comp_measurable (measurable_pi_apply m)
  have hmean : ∀ m : Fin d, ∫ v : Fin d → ℝ, v m ∂(Measure.pi fun _ => gaussianReal 0 1) = 0 := fun m => by
    refine Eq.trans ?_ g3
    conv_rhs => rw [← hmap m]
    exact (integral_map (φ := fun v : Fin d → ℝ => v m) (f := fun y : ℝ => y) (measurable_pi_apply m).aemeasurable
      measurable_id.aestronglyMeasurable).symm
  refine ⟨hint m, hmean m, ?_⟩
  rcases eq_or_ne m n with rfl | hmn
  · rw [if_pos rfl]
    have h2 := g2
    rw [← hmap m] at h2
    have h3 : Integrable (fun v : Fin d → ℝ => v m ^ 2) (Measure.pi fun _ => gaussianReal 0 1) :=
      h2.comp_measurable (measurable_pi_apply m)
    simp only [← pow_two]
    refine ⟨h3, ?_⟩
    have h4 : ∫ v : Fin d → ℝ, v m ^ 2 ∂(Measure.pi fun _ => gaussianReal 0 1) = ∫ y, y ^ 2 ∂gaussianReal 0 1 := by
      conv_rhs => rw [← hmap m]
      exact (integral_map (φ := fun v : Fin d → ℝ => v m) (f := fun y : ℝ => y ^ 2) (measurable_pi_apply m).aemeasurable
        (measurable_id.pow_const 2).aestronglyMeasurable).symm
    rw [h4, g4]
    simp
  · rw [if_neg hmn]
    have hind : iIndepFun (fun (m : Fin d) (v : Fin d → ℝ) => v m) (Measure.pi fun _ => gaussianReal 0 1) :=
      iIndepFun_pi (X := fun _ (t : ℝ) => t) fun m => by fun_prop
    have h := hind.indepFun hmn
    refine ⟨h.integrable_mul (hint m) (hint n), ?_⟩
    have := h.integral_fun_mul_eq_mul_integral (hint m).aestronglyMeasurable (hint n).aestronglyMeasurable
    rw [this, hmean, zero_mul]

theorem lwDraws_second (i j : Fin N) (m n : Fin d) :
    Integrable (fun q => (q i).2 m * (q j).2 n) (lwDraws N d) ∧
    ∫ q, (q i).2 m * (q j).2 n ∂lwDraws N d = if i = j ∧ m = n then 1 else 0 := by
  have hvol : IsProbabilityMeasure (volume.restrict (Set.Ico (0 : ℝ) 1)) := ⟨by simp⟩
  have hmeas : ∀ i : Fin N, Measurable fun q : Fin N → ℝ × (Fin d → ℝ) => (q i).2 := fun i => by fun_prop
  rcases eq_or_ne i j with rfl | hij
  · obtain ⟨-, -, h1, h2⟩ := pi_gauss_second m n
    rw [← lwDraws_vector N d i] at h1
    refine ⟨h1.comp_measurable (hmeas i), ?_⟩
    rw [← integral_map (φ := fun q : Fin N → ℝ × (Fin d → ℝ) => (q i).2) (f := fun v => v m * v n) (hmeas i).aemeasurable (by fun_prop),
      lwDraws_vector, h2]
    simp
  · rw [if_neg fun h => hij h.1]
    have hint : ∀ (i : Fin N) (m : Fin d), Integrable (fun q : Fin N → ℝ × (Fin d → ℝ) => (q i).2 m) (lwDraws N d) := fun i m => by
      have := (pi_gauss_second m m).1
      rw [← lwDraws_vector N d i] at this
      exact this.comp_measurable (hmeas i)
    have hmean : ∫ q, (q i).2 m ∂lwDraws N d = 0 := by
      rw [← integral_map (φ := fun q : Fin N → ℝ × (Fin d → ℝ) => (q i).2) (f := fun v => v m) (hmeas i).aemeasurable
        (measurable_pi_apply m).aestronglyMeasurable,
        lwDraws_vector, (pi_gauss_second m m).2.1]
    have hind : iIndepFun (fun (i : Fin N) (q : Fin N → ℝ × (Fin d → ℝ)) => (q i).2) (lwDraws N d) :=
      iIndepFun_pi (X := fun _ (p : ℝ × (Fin d → ℝ)) => p.2) fun i => by fun_prop
    have h : IndepFun (fun q : Fin N → ℝ × (Fin d → ℝ) => (q i).2 m) (fun q => (q j).2 n) (lwDraws N d) :=
      (hind.indepFun hij).comp (φ := fun v : Fin d → ℝ => v m) (ψ := fun v : Fin d → ℝ => v n) (by fun_prop) (by fun_prop)
    refine ⟨h.integrable_mul (hint i m) (hint j n), ?_⟩
    have := h.integral_fun_mul_eq_mul_integral (hint i m).aestronglyMeasurable (hint j n).aestronglyMeasurable
    rw [this, hmean, zero_mul]

/-- **C162, the covariance after a fresh start.**  On average the covariance of the new cloud of `n` particles is `(1 - 1/n) h² zero_cov_comp` times the
identity: with `a² + h² = 1` it is smaller than the `zero_cov_comp` it stands for by the factor `h² (1 - 1/n)`. -/
theorem C162_covariance {root : Matrix (Fin d) (Fin d) ℝ → Matrix (Fin d) (Fin d) ℝ} (hpsd : ∀ C, C.PosSemidef → (root C).PosSemidef)
    (hroot : ∀ C, C.PosSemidef → root C * root C = C) {zcc : ℝ} (hz : 0 ≤ zcc) (a h : ℝ) (hN : 0 < N) (w : Fin N → ℝ)
    (h0 : ∀ i, 0 ≤ w i) (h1 : ∑ i, w i = 1) (x : Fin N → Fin d → ℝ) (hx : Spec.Collapsed w x) (m n : Fin d) :
    ∫ q, pcov (lwCall root zcc a h hN w x q).1 (lwCall root zcc a h hN w x q).2 m n ∂lwDraws N d =
      if m = n then (1 - 1 / N) * h ^ 2 * zcc else 0 := by
  obtain ⟨k, hk⟩ : ∃ k, 0 < w k := by
    by_contra hne
    push Not at hne
    have : ∑ i, w i ≤ 0 := Finset.sum_nonpos fun i _ => hne i
    linarith
  have hN' : (N : ℝ) ≠ 0 := by exact_mod_cast hN.ne'
  have hu : ∑ _i : Fin N, (1 / (N : ℝ)) = 1 := by simp [hN']
  have hpt : ∀ q : Fin N → ℝ × (Fin d → ℝ), (∀ i, (q i).1 ∈ Set.Ico (0 : ℝ) 1) →
      pcov (lwCall root zcc a h hN w x q).1 (lwCall root zcc a h hN w x q).2 m n =
        h ^ 2 * zcc * (1 / N * ∑ i, (q i).2 m * (q i).2 n - 1 / N ^ 2 * ∑ i, ∑ j, (q i).2 m * (q j).2 n) := fun q hq => by
    rw [C162_reseeded hpsd hroot hz a h hN w h0 h1 x (x k) (fun i hi => hx i k hi hk) q hq]
    obtain ⟨c, hc⟩ : ∃ c, c = h * Real.sqrt zcc := ⟨_, rfl⟩
    have hc2 : h ^ 2 * zcc = c ^ 2 := by rw [hc, mul_pow, Real.sq_sqrt hz]
    rw [← hc, hc2]
    have haff : (fun i m => x k m + c * (q i).2 m) = fun i => (c • (1 : Matrix (Fin d) (Fin d) ℝ)) *ᵥ (q i).2 + x k := by
      funext i m
      simp [smul_mulVec, add_comm]
    rw [haff, (C133_moments (fun _ => 1 / (N : ℝ)) hu (fun i => (q i).2) _ (x k)).2]
    have : c • (1 : Matrix (Fin d) (Fin d) ℝ) * pcov (fun _ => 1 / (N : ℝ)) (fun i => (q i).2) * (c • (1 : Matrix (Fin d) (Fin d) ℝ))ᵀ =
        c ^ 2 • pcov (fun _ => 1 / (N : ℝ)) (fun i => (q i).2) := by
      rw [Matrix.transpose_smul, Matrix.transpose_one, Matrix.smul_mul, Matrix.one_mul, Matrix.mul_smul, Matrix.mul_one, smul_smul, pow_two]
    rw [this, Matrix.smul_apply, smul_eq_mul]
    congr 1
    simp only [pcov, pmean, ← Finset.mul_sum, mul_assoc]
    rw [← Finset.sum_mul]
    ring
  rw [integral_congr_ae ((lwDraws_mem N d).mono hpt), integral_const_mul]
  have i1 : Integrable (fun q : Fin N → ℝ × (Fin d → ℝ) => ∑ i, (q i).2 m * (q i).2 n) (lwDraws N d) :=
    integrable_finsetSum _ fun i _ => (lwDraws_second i i m n).1
  have i2 : ∀ i, Integrable (fun q : Fin N → ℝ × (Fin d → ℝ) => ∑ j, (q i).2 m * (q j).2 n) (lwDraws N d) := fun i =>
    integrable_finsetSum _ fun j _ => (lwDraws_second i j m n).1
  have i3 : Integrable (fun q : Fin N → ℝ × (Fin d → ℝ) => ∑ i, ∑ j, (q i).2 m * (q j).2 n) (lwDraws N d) :=
    integrable_finsetSum _ fun i _ => i2 i
  rw [integral_sub (i1.const_mul _) (i3.const_mul _), integral_const_mul, integral_const_mul,
    integral_finsetSum _ fun i _ => (lwDraws_second i i m n).1, integral_finsetSum _ fun i _ => i2 i]
  have e3 : ∀ i : Fin N, ∫ q, ∑ j, (q i).2 m * (q j).2 n ∂lwDraws N d = if m = n then 1 else 0 := fun i => by
    rw [integral_finsetSum _ fun j _ => (lwDraws_second i j m n).1]
    simp only [(lwDraws_second i _ m n).2]
    by_cases h : m = n <;> simp [h]
  simp only [e3, (lwDraws_second _ _ m n).2, true_and, Finset.sum_const, Finset.card_univ, Fintype.card_fin, nsmul_eq_mul]
  split_ifs
  · field_simp
  · simp

/-- Case for C162: two particles on the line at the same point; half of `1/25 · 1/100` is left. -/
example : ∫ q, pcov (lwCall Demo.root1 (1 / 100) (98 / 100) (1 / 5) (by norm_num) ![1 / 4, 3 / 4] ![![1], ![1]] q).1
      (lwCall Demo.root1 (1 / 100) (98 / 100) (1 / 5) (by norm_num) ![1 / 4, 3 / 4] ![![1], ![1]] q).2 0 0 ∂lwDraws 2 1 = 1 / 5000 := by
  rw [C162_covariance (fun C hC => (Demo.root1_spec C hC).1) (fun C hC => (Demo.root1_spec C hC).2.1) (by norm_num) _ _ _ _
    (fun i => by fin_cases i <;> norm_num) (by rw [Fin.sum_univ_two]; show (1 / 4 + 3 / 4 : ℝ) = 1; norm_num) _
    (fun i j _ _ => by fin_cases i <;> fin_cases j <;> rfl) 0 0]
  norm_num

end QInfer
