import Verif.Lemmas.NormalLaws
import Verif.Props.OnePoint
import Mathlib.Probability.Independence.Basic

/-!
# C162: the law of the cloud after a fresh start
-/

namespace QInfer

open MeasureTheory ProbabilityTheory Matrix

variable {N d : Nat}

theorem lwDraws_mem (N d : Nat) : ∀ᵐ q ∂lwDraws N d, ∀ i, (q i).1 ∈ Set.Ico (0 : ℝ) 1 := by
  have hvol : IsProbabilityMeasure (volume.restrict (Set.Ico (0 : ℝ) 1)) := ⟨by simp⟩
  rw [ae_all_iff]
  intro i
  have h2 : ∀ᵐ p ∂(volume.restrict (Set.Ico (0 : ℝ) 1)).prod (Measure.pi fun _ : Fin d => gaussianReal 0 1),
      p.1 ∈ Set.Ico (0 : ℝ) 1 :=
    Measure.quasiMeasurePreserving_fst.ae (ae_restrict_mem measurableSet_Ico)
  exact (Measure.quasiMeasurePreserving_eval (μ := fun _ : Fin N =>
    (volume.restrict (Set.Ico (0 : ℝ) 1)).prod (Measure.pi fun _ : Fin d => gaussianReal 0 1)) i).ae h2

/-- **C162, the law of a fresh start.**  The new particles of a cloud whose weight is all at `y` are independent; each parameter of each of them is
normal with mean that of `y` and variance `h² zero_cov_comp`, and the weights are all the same. -/
theorem C162_law {root : Matrix (Fin d) (Fin d) ℝ → Matrix (Fin d) (Fin d) ℝ} (hpsd : ∀ C, C.PosSemidef → (root C).PosSemidef)
    (hroot : ∀ C, C.PosSemidef → root C * root C = C) {zcc : ℝ} (hz : 0 ≤ zcc) (a h : ℝ) (hN : 0 < N) (w : Fin N → ℝ)
    (h0 : ∀ i, 0 ≤ w i) (h1 : ∑ i, w i = 1) (x : Fin N → Fin d → ℝ) (y : Fin d → ℝ) (hy : ∀ i, 0 < w i → x i = y) :
    (∀ q, (lwCall root zcc a h hN w x q).1 = fun _ => 1 / (N : ℝ)) ∧
    (lwDraws N d).map (fun q => (lwCall root zcc a h hN w x q).2) =
      Measure.pi fun _ => Measure.pi fun m => gaussianReal (y m) (h ^ 2 * zcc).toNNReal := by
  refine ⟨fun q => rfl, ?_⟩
  have hvol : IsProbabilityMeasure (volume.restrict (Set.Ico (0 : ℝ) 1)) := ⟨by simp⟩
  have hae := lwDraws_mem N d
  have hone : (gaussianReal 0 1).map (fun t => h * Real.sqrt zcc * t) = gaussianReal 0 (h ^ 2 * zcc).toNNReal := by
    rw [gaussianReal_map_const_mul, mul_zero, mul_one]
    congr 1
    rw [← NNReal.coe_inj, Real.coe_toNNReal _ (by positivity)]
    show (h * Real.sqrt zcc) ^ 2 = _
    rw [mul_pow, Real.sq_sqrt hz]
  have hcoord : ∀ m, (gaussianReal 0 1).map (fun t => y m + h * Real.sqrt zcc * t) = gaussianReal (y m) (h ^ 2 * zcc).toNNReal := fun m => by
    have : (fun t => y m + h * Real.sqrt zcc * t) = (fun t => y m + t) ∘ fun t => h * Real.sqrt zcc * t := rfl
    rw [this, ← Measure.map_map (by fun_prop) (by fun_prop), hone, gaussianReal_map_const_add, zero_add]
  have hcell : ((volume.restrict (Set.Ico (0 : ℝ) 1)).prod (Measure.pi fun _ : Fin d => gaussianReal 0 1)).map
      (fun p m => y m + h * Real.sqrt zcc * p.2 m) = Measure.pi fun m => gaussianReal (y m) (h ^ 2 * zcc).toNNReal := by
    have : (fun (p : ℝ × (Fin d → ℝ)) m => y m + h * Real.sqrt zcc * p.2 m) =
        (fun (v : Fin d → ℝ) m => y m + h * Real.sqrt zcc * v m) ∘ Prod.snd := rfl
    rw [this, ← Measure.map_map (by fun_prop) (by fun_prop), Measure.map_snd_prod, measure_univ, one_smul]
    have hm : ∀ m, AEMeasurable (fun t => y m + h * Real.sqrt zcc * t) (gaussianReal 0 1) := fun m => by fun_prop
    have hp : ∀ m, SigmaFinite ((gaussianReal 0 1).map fun t => y m + h * Real.sqrt zcc * t) := fun m => by rw [hcoord]; infer_instance
    have hpi := Measure.pi_map_pi hm
    simp only [hcoord] at hpi
    exact hpi
  rw [Measure.map_congr (hae.mono fun q hq => by
    show (lwCall root zcc a h hN w x q).2 = (fun (q : Fin N → ℝ × (Fin d → ℝ)) i m => y m + h * Real.sqrt zcc * (q i).2 m) q
    rw [C162_reseeded hpsd hroot hz a h hN w h0 h1 x y hy q hq])]
  unfold lwDraws
  have hm : ∀ i : Fin N, AEMeasurable (fun (p : ℝ × (Fin d → ℝ)) m => y m + h * Real.sqrt zcc * p.2 m)
      ((volume.restrict (Set.Ico (0 : ℝ) 1)).prod (Measure.pi fun _ : Fin d => gaussianReal 0 1)) := fun i => by fun_prop
  have hp : IsProbabilityMeasure (((volume.restrict (Set.Ico (0 : ℝ) 1)).prod (Measure.pi fun _ : Fin d => gaussianReal 0 1)).map
      (fun (p : ℝ × (Fin d → ℝ)) m => y m + h * Real.sqrt zcc * p.2 m)) := by rw [hcell]; infer_instance
  have hpi := Measure.pi_map_pi hm
  simp only [hcell] at hpi
  exact hpi

/-- **C162, spread out again.**  With a positive `zero_cov_comp` and `h ≠ 0` no two particles of the new cloud agree in any parameter, almost surely, so
that a cloud of two or more particles is not collapsed any more. -/
theorem C162_spread {root : Matrix (Fin d) (Fin d) ℝ → Matrix (Fin d) (Fin d) ℝ} (hpsd : ∀ C, C.PosSemidef → (root C).PosSemidef)
    (hroot : ∀ C, C.PosSemidef → root C * root C = C) {zcc : ℝ} (hz : 0 < zcc) (a : ℝ) {h : ℝ} (hh : h ≠ 0) (hN : 0 < N) (w : Fin N → ℝ)
    (h0 : ∀ i, 0 ≤ w i) (h1 : ∑ i, w i = 1) (x : Fin N → Fin d → ℝ) (hx : Spec.Collapsed w x) :
    ∀ᵐ q ∂lwDraws N d,
      (∀ i j m, i ≠ j → (lwCall root zcc a h hN w x q).2 i m ≠ (lwCall root zcc a h hN w x q).2 j m) ∧
      (2 ≤ N → 0 < d → ¬ Spec.Collapsed (lwCall root zcc a h hN w x q).1 (lwCall root zcc a h hN w x q).2) := by
  obtain ⟨k, hk⟩ : ∃ k, 0 < w k := by
    by_contra hne
    push Not at hne
    have : ∑ i, w i ≤ 0 := Finset.sum_nonpos fun i _ => hne i
    linarith
  have hvol : IsProbabilityMeasure (volume.restrict (Set.Ico (0 : ℝ) 1)) := ⟨by simp⟩
  have hae := lwDraws_mem N d
  have hne : ∀ᵐ q ∂lwDraws N d, ∀ i j m, i ≠ j → (q i).2 m ≠ (q j).2 m := by
    rw [ae_all_iff]; intro i
    rw [ae_all_iff]; intro j
    rw [ae_all_iff]; intro m
    rcases eq_or_ne i j with rfl | hij
    · exact Filter.Eventually.of_forall fun q hq => absurd rfl hq
    have hind : iIndepFun (fun (i : Fin N) (q : Fin N → ℝ × (Fin d → ℝ)) => (q i).2 m) (lwDraws N d) :=
      iIndepFun_pi (X := fun _ (p : ℝ × (Fin d → ℝ)) => p.2 m) fun i => by fun_prop
    have hlaw : ∀ i : Fin N, (lwDraws N d).map (fun q => (q i).2 m) = gaussianReal 0 1 := fun i => by
      have e1 : (fun q : Fin N → ℝ × (Fin d → ℝ) => (q i).2 m) =
          ((fun v : Fin d → ℝ => v m) ∘ (Prod.snd : ℝ × (Fin d → ℝ) → Fin d → ℝ)) ∘ Function.eval i := rfl
      rw [e1, ← Measure.map_map (by fun_prop) (by fun_prop)]
      unfold lwDraws
      rw [(measurePreserving_eval _ i).map_eq, ← Measure.map_map (by fun_prop) (by fun_prop), Measure.map_snd_prod, measure_univ, one_smul]
      exact (measurePreserving_eval _ m).map_eq
    have hprob : IsProbabilityMeasure (lwDraws N d) := by unfold lwDraws; infer_instance
    have hmeas : ∀ i : Fin N, Measurable fun q : Fin N → ℝ × (Fin d → ℝ) => (q i).2 m := fun i => by fun_prop
    have hpair := (indepFun_iff_map_prod_eq_prod_map_map (hmeas i).aemeasurable (hmeas j).aemeasurable).1 (hind.indepFun hij)
    rw [hlaw, hlaw] at hpair
    have : NullSingletonClass (gaussianReal 0 1) := nullSingletonClass_gaussianReal one_ne_zero
    have hdiag : ∀ᵐ p ∂(gaussianReal 0 1).prod (gaussianReal 0 1), p.1 ≠ p.2 := by
      refine Measure.ae_prod_iff_ae_ae (p := fun p : ℝ × ℝ => p.1 ≠ p.2) ?_ |>.2 (Filter.Eventually.of_forall fun s => ?_)
      · exact (measurableSet_eq_fun measurable_fst measurable_snd).compl
      · simp [ae_iff]
    rw [← hpair] at hdiag
    exact (ae_of_ae_map ((hmeas i).prodMk (hmeas j)).aemeasurable hdiag).mono fun q hq _ => hq
  filter_upwards [hae, hne] with q hq hqn
  rw [C162_reseeded hpsd hroot hz.le a h hN w h0 h1 x (x k) (fun i hi => hx i k hi hk) q hq]
  have hc : h * Real.sqrt zcc ≠ 0 := mul_ne_zero hh (Real.sqrt_pos.2 hz).ne'
  have hdiff : ∀ i j m, i ≠ j → x k m + h * Real.sqrt zcc * (q i).2 m ≠ x k m + h * Real.sqrt zcc * (q j).2 m :=
    fun i j m hij he => hqn i j m hij (mul_left_cancel₀ hc (add_left_cancel he))
  refine ⟨hdiff, fun h2 hd hcol => ?_⟩
  have hp : 0 < 1 / (N : ℝ) := by positivity
  exact hdiff ⟨0, hN⟩ ⟨1, h2⟩ ⟨0, hd⟩ (by simp [Fin.ext_iff]) (congrFun (hcol ⟨0, hN⟩ ⟨1, h2⟩ hp hp) ⟨0, hd⟩)

/-- **C162, the estimate after a fresh start.**  The mean of the new cloud is normal around `y` with variance `h² zero_cov_comp / n`, in every
parameter. -/
theorem C162_mean {root : Matrix (Fin d) (Fin d) ℝ → Matrix (Fin d) (Fin d) ℝ} (hpsd : ∀ C, C.PosSemidef → (root C).PosSemidef)
    (hroot : ∀ C, C.PosSemidef → root C * root C = C) {zcc : ℝ} (hz : 0 ≤ zcc) (a h : ℝ) (hN : 0 < N) (w : Fin N → ℝ)
    (h0 : ∀ i, 0 ≤ w i) (h1 : ∑ i, w i = 1) (x : Fin N → Fin d → ℝ) (y : Fin d → ℝ) (hy : ∀ i, 0 < w i → x i = y) (m : Fin d) :
    (lwDraws N d).map (fun q => pmean (lwCall root zcc a h hN w x q).1 (lwCall root zcc a h hN w x q).2 m) =
      gaussianReal (y m) (h ^ 2 * zcc / N).toNNReal := by
  have hvol : IsProbabilityMeasure (volume.restrict (Set.Ico (0 : ℝ) 1)) := ⟨by simp⟩
  have hN' : (N : ℝ) ≠ 0 := by exact_mod_cast hN.ne'
  rw [Measure.map_congr ((lwDraws_mem N d).mono fun q hq => by
    show _ = (fun q : Fin N → ℝ × (Fin d → ℝ) => y m + ∑ i, (h * Real.sqrt zcc / N) * (q i).2 m) q
    rw [C162_reseeded hpsd hroot hz a h hN w h0 h1 x y hy q hq]
    simp only [pmean]
    simp only [mul_add, Finset.sum_add_distrib, Finset.sum_const, Finset.card_univ, Fintype.card_fin, nsmul_eq_mul]
    congr 1
    · field_simp
    · exact Finset.sum_congr rfl fun i _ => by ring)]
  have hcell : ((volume.restrict (Set.Ico (0 : ℝ) 1)).prod (Measure.pi fun _ : Fin d => gaussianReal 0 1)).map
      (fun p => p.2 m) = gaussianReal 0 1 := by
    have : (fun p : ℝ × (Fin d → ℝ) => p.2 m) = (fun v : Fin d → ℝ => v m) ∘ Prod.snd := rfl
    rw [this, ← Measure.map_map (by fun_prop) (by fun_prop), Measure.map_snd_prod, measure_univ, one_smul]
    exact (measurePreserving_eval _ m).map_eq
  have hm : ∀ i : Fin N, AEMeasurable (fun p : ℝ × (Fin d → ℝ) => p.2 m)
      ((volume.restrict (Set.Ico (0 : ℝ) 1)).prod (Measure.pi fun _ : Fin d => gaussianReal 0 1)) := fun i => by fun_prop
  have hp : IsProbabilityMeasure (((volume.restrict (Set.Ico (0 : ℝ) 1)).prod (Measure.pi fun _ : Fin d => gaussianReal 0 1)).map
      (fun p => p.2 m)) := by rw [hcell]; infer_instance
  have hpi := Measure.pi_map_pi hm
  simp only [hcell] at hpi
  have hcomp : (fun q : Fin N → ℝ × (Fin d → ℝ) => y m + ∑ i, (h * Real.sqrt zcc / N) * (q i).2 m) =
      ((fun t : ℝ => y m + t) ∘ fun z : Fin N → ℝ => ∑ i, (h * Real.sqrt zcc / N) * z i) ∘ fun q i => (q i).2 m := rfl
  have hmz : Measurable fun z : Fin N → ℝ => ∑ i, (h * Real.sqrt zcc / N) * z i := by fun_prop
  have hmq : Measurable fun (q : Fin N → ℝ × (Fin d → ℝ)) i => (q i).2 m := by fun_prop
  rw [hcomp, ← Measure.map_map ((by fun_prop : Measurable fun t : ℝ => y m + t).comp hmz) hmq]
  unfold lwDraws
  rw [hpi, ← Measure.map_map (by fun_prop) hmz]
  rw [show (Measure.pi fun _ : Fin N => gaussianReal 0 1) = normals (Fin N) from rfl, normals_linear fun _ => h * Real.sqrt zcc / N, gaussianReal_map_const_add, zero_add]
  congr 2
  rw [Finset.sum_const, Finset.card_univ, Fintype.card_fin, nsmul_eq_mul, div_pow, mul_pow, Real.sq_sqrt hz]
  field_simp

/-- Case for C162: three particles in the plane, the weight at `(1, 2)` and the third particle elsewhere without weight. -/
example (root : Matrix (Fin 2) (Fin 2) ℝ → Matrix (Fin 2) (Fin 2) ℝ) (hpsd : ∀ C, C.PosSemidef → (root C).PosSemidef)
    (hroot : ∀ C, C.PosSemidef → root C * root C = C) :
    (lwDraws 3 2).map (fun q => (lwCall root (1 / 100) (98 / 100) (1 / 5) (by norm_num) ![1 / 4, 3 / 4, 0] ![![1, 2], ![1, 2], ![7, 7]] q).2) =
      Measure.pi fun _ => Measure.pi fun m => gaussianReal (![1, 2] m) ((1 / 5) ^ 2 * (1 / 100) : ℝ).toNNReal := by
  refine (C162_law hpsd hroot (by norm_num) _ _ _ _ (fun i => ?_) ?_ _ _ fun i hi => ?_).2
  · fin_cases i <;> norm_num
  · rw [Fin.sum_univ_three]
    show (1 / 4 + 3 / 4 + 0 : ℝ) = 1
    norm_num
  · fin_cases i
    · rfl
    · rfl
    · norm_num at hi

/-- Case for C162: two particles on the line at the same point, with the square root of the line. -/
example : ∀ᵐ q ∂lwDraws 2 1, ¬ Spec.Collapsed (lwCall Demo.root1 (1 / 100) (98 / 100) (1 / 5) (by norm_num) ![1 / 4, 3 / 4] ![![1], ![1]] q).1
    (lwCall Demo.root1 (1 / 100) (98 / 100) (1 / 5) (by norm_num) ![1 / 4, 3 / 4] ![![1], ![1]] q).2 := by
  refine (C162_spread (fun C hC => (Demo.root1_spec C hC).1) (fun C hC => (Demo.root1_spec C hC).2.1) (by norm_num) _ (by norm_num) _ _
    (fun i => ?_) ?_ _ fun i j _ _ => ?_).mono fun q hq => hq.2 le_rfl one_pos
  · fin_cases i <;> norm_num
  · rw [Fin.sum_univ_two]
    show (1 / 4 + 3 / 4 : ℝ) = 1
    norm_num
  · fin_cases i <;> fin_cases j <;> rfl

/-- Case for C162: the estimate of those two particles has variance `1/25 · 1/100 / 2`. -/
example : (lwDraws 2 1).map (fun q => pmean (lwCall Demo.root1 (1 / 100) (98 / 100) (1 / 5) (by norm_num) ![1 / 4, 3 / 4] ![![1], ![1]] q).1
      (lwCall Demo.root1 (1 / 100) (98 / 100) (1 / 5) (by norm_num) ![1 / 4, 3 / 4] ![![1], ![1]] q).2 0) =
    gaussianReal 1 (1 / 5000 : ℝ).toNNReal := by
  rw [C162_mean (fun C hC => (Demo.root1_spec C hC).1) (fun C hC => (Demo.root1_spec C hC).2.1) (by norm_num) _ _ _ _
    (fun i => by fin_cases i <;> norm_num) (by rw [Fin.sum_univ_two]; show (1 / 4 + 3 / 4 : ℝ) = 1; norm_num) _ ![1]
    (fun i _ => by fin_cases i <;> rfl) 0]
  congr 2
  norm_num

end QInfer
