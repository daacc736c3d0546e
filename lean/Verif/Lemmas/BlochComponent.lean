import Verif.Lemmas.GammaSums
import Verif.Lemmas.HaarLaw
import Verif.Lemmas.Moments

/-!
# The law of the components of the random Bloch vectors
-/

namespace QInfer

open MeasureTheory ProbabilityTheory Set
open scoped ENNReal

/-- Two lists of complex variates as one family of variates. -/
def joinPairs {k : Nat} (w : (Fin k → ℝ × ℝ) × (Fin k → ℝ × ℝ)) : Bool × Fin 2 × Fin k → ℝ := fun p =>
  if p.1 then (if p.2.1 = 0 then (w.1 p.2.2).2 else (w.2 p.2.2).2)
  else (if p.2.1 = 0 then (w.1 p.2.2).1 else (w.2 p.2.2).1)

theorem joinPairs_measurable {k : Nat} : Measurable (joinPairs (k := k)) := by
  rw [measurable_pi_iff]
  rintro ⟨b, i, j⟩
  cases b <;> fin_cases i <;> simp [joinPairs] <;> fun_prop

theorem joinPairs_law {k : Nat} :
    ((Measure.pi fun _ : Fin k => pairLaw).prod (Measure.pi fun _ : Fin k => pairLaw)).map joinPairs =
      normals (Bool × Fin 2 × Fin k) := by
  symm
  apply Measure.pi_eq
  intro s hs
  rw [Measure.map_apply joinPairs_measurable (MeasurableSet.univ_pi hs)]
  have : joinPairs ⁻¹' (Set.univ.pi s) =
      (Set.univ.pi fun j => s (false, 0, j) ×ˢ s (true, 0, j)) ×ˢ (Set.univ.pi fun j => s (false, 1, j) ×ˢ s (true, 1, j)) := by
    ext w
    simp only [Set.mem_preimage, Set.mem_pi, Set.mem_univ, true_imp_iff, Set.mem_prod, Prod.forall, Bool.forall_bool,
      Fin.forall_fin_two, joinPairs]
    simp
    constructor
    · rintro ⟨⟨h1, h2⟩, h3, h4⟩
      exact ⟨fun j => ⟨h1 j, h3 j⟩, fun j => ⟨h2 j, h4 j⟩⟩
    · rintro ⟨h1, h2⟩
      exact ⟨⟨fun j => (h1 j).1, fun j => (h2 j).1⟩, fun j => (h1 j).2, fun j => (h2 j).2⟩
  rw [this, Measure.prod_prod, Measure.pi_pi, Measure.pi_pi]
  simp only [pairLaw, Measure.prod_prod, Fintype.prod_prod_type, Fintype.prod_bool, Fin.prod_univ_two,
    Finset.prod_mul_distrib]
  ring

/-- The upper component is the share of the first row. -/
theorem bvec_share {k : Nat} (w : (Fin k → ℝ × ℝ) × (Fin k → ℝ × ℝ))
    (h : joinPairs w ≠ 0) :
    (1 + bvec (joinPairs w) 2) / 2 = (∑ j, halfSq (w.1 j)) / (∑ j, halfSq (w.1 j) + ∑ j, halfSq (w.2 j)) := by
  have hS := sumsq_pos h
  have h1 : ∑ p, joinPairs w p ^ 2 = 2 * (∑ j, halfSq (w.1 j) + ∑ j, halfSq (w.2 j)) := by
    simp only [Fintype.sum_prod_type, Fintype.sum_bool, Fin.sum_univ_two, joinPairs, halfSq, ← Finset.sum_add_distrib,
      Finset.mul_sum]
    refine Finset.sum_congr rfl fun j _ => ?_
    simp
    ring
  have h2 : blochNum (randnComplex (joinPairs w)) 2 = 2 * (∑ j, halfSq (w.1 j) - ∑ j, halfSq (w.2 j)) := by
    rw [← Finset.sum_sub_distrib, Finset.mul_sum]
    show ∑ j, (Complex.normSq (randnComplex (joinPairs w) 0 j) - Complex.normSq (randnComplex (joinPairs w) 1 j)) = _
    refine Finset.sum_congr rfl fun j _ => ?_
    simp [randnComplex, joinPairs, halfSq, Complex.normSq_apply]
    ring
  have h3 : bvec (joinPairs w) 2 = blochNum (randnComplex (joinPairs w)) 2 / ∑ p, joinPairs w p ^ 2 := rfl
  rw [h3, h2, h1]
  rw [h1] at hS
  have : ∑ j, halfSq (w.1 j) + ∑ j, halfSq (w.2 j) ≠ 0 := by linarith
  field_simp
  ring

theorem beta_density (m : ℕ) (g : ℝ → ℝ≥0∞) (hg : Measurable g) :
    ∫⁻ u, g u ∂betaMeasure (m + 1 : ℕ) (m + 1 : ℕ) =
      ∫⁻ u in Ioo 0 1, ENNReal.ofReal ((2 * m + 1).factorial / (m.factorial * m.factorial) * u ^ m * (1 - u) ^ m) * g u := by
  have hm : Measurable (betaPDF (m + 1 : ℕ) (m + 1 : ℕ)) := (measurable_betaPDFReal _ _).ennreal_ofReal
  rw [betaMeasure, lintegral_withDensity_eq_lintegral_mul _ hm hg, ← lintegral_indicator measurableSet_Ioo]
  congr 1
  funext u
  simp only [Pi.mul_apply]
  by_cases hu : u ∈ Ioo (0 : ℝ) 1
  · rw [indicator_of_mem hu, betaPDF_of_pos_lt_one hu.1 hu.2]
    have hb : beta (m + 1 : ℕ) (m + 1 : ℕ) = m.factorial * m.factorial / (2 * m + 1).factorial := by
      unfold beta
      rw [show ((m + 1 : ℕ) : ℝ) = (m : ℝ) + 1 by push_cast; ring, Real.Gamma_nat_eq_factorial,
        show (m : ℝ) + 1 + (m + 1) = ((2 * m + 1 : ℕ) : ℝ) + 1 by push_cast; ring, Real.Gamma_nat_eq_factorial]
    rw [hb, one_div_div, show ((m + 1 : ℕ) : ℝ) - 1 = (m : ℝ) by push_cast; ring, Real.rpow_natCast, Real.rpow_natCast]
  · rw [indicator_of_notMem hu]
    have : betaPDF (m + 1 : ℕ) (m + 1 : ℕ) u = 0 := by
      rw [betaPDF_eq, if_neg (fun h : 0 < u ∧ u < 1 => hu h), ENNReal.ofReal_zero]
    rw [this, zero_mul]

/-- The upper component. -/
theorem component_law (m : ℕ) :
    (normals (Bool × Fin 2 × Fin (m + 1))).map (fun v => (1 + bvec v 2) / 2) = betaMeasure (m + 1 : ℕ) (m + 1 : ℕ) := by
  have hb : Measurable fun v : Bool × Fin 2 × Fin (m + 1) → ℝ => (1 + bvec v 2) / 2 := by
    have : Measurable fun v : Bool × Fin 2 × Fin (m + 1) → ℝ => bvec v 2 :=
      (by fun_prop : Measurable fun x : R3 => x 2).comp bvec_measurable
    fun_prop
  apply Measure.ext_of_lintegral
  intro g hg
  have hgb : Measurable fun v : Bool × Fin 2 × Fin (m + 1) → ℝ => g ((1 + bvec v 2) / 2) := hg.comp hb
  have hs : Measurable fun w : Fin (m + 1) → ℝ × ℝ => ∑ j, halfSq (w j) :=
    Finset.measurable_sum _ fun j _ => halfSq_measurable.comp (measurable_pi_apply j)
  rw [lintegral_map hg hb, ← joinPairs_law, lintegral_map hgb joinPairs_measurable, beta_density m g hg,
    ← ratio_beta m g hg]
  have hae : ∀ᵐ w ∂((Measure.pi fun _ : Fin (m + 1) => pairLaw).prod (Measure.pi fun _ : Fin (m + 1) => pairLaw)),
      g ((1 + bvec (joinPairs w) 2) / 2) =
        g ((∑ j, halfSq (w.1 j)) / (∑ j, halfSq (w.1 j) + ∑ j, halfSq (w.2 j))) := by
    have h0 : ∀ᵐ v ∂((Measure.pi fun _ : Fin (m + 1) => pairLaw).prod (Measure.pi fun _ : Fin (m + 1) => pairLaw)).map joinPairs,
        v ≠ 0 := by
      rw [joinPairs_law]; exact normals_ne_zero
    filter_upwards [ae_of_ae_map joinPairs_measurable.aemeasurable h0] with w hw
    rw [bvec_share w hw]
  rw [lintegral_congr_ae hae, lintegral_prod_symm]
  · have h1 : ∀ w2 : Fin (m + 1) → ℝ × ℝ,
        ∫⁻ w1, g ((∑ j, halfSq (w1 j)) / (∑ j, halfSq (w1 j) + ∑ j, halfSq (w2 j))) ∂Measure.pi (fun _ : Fin (m + 1) => pairLaw) =
        gammaInt m fun x => g (x / (x + ∑ j, halfSq (w2 j))) := fun w2 =>
      sum_gamma m (fun x => g (x / (x + ∑ j, halfSq (w2 j)))) (by fun_prop)
    simp only [h1]
    refine sum_gamma m (fun y => gammaInt m fun x => g (x / (x + y))) ?_
    unfold gammaInt
    exact Measurable.lintegral_prod_right' (f := fun q : ℝ × ℝ =>
      ENNReal.ofReal (q.2 ^ m / m.factorial * Real.exp (-q.2)) * g (q.2 / (q.2 + q.1))) (by fun_prop)
  · apply Measurable.aemeasurable
    have a1 : Measurable fun w : (Fin (m + 1) → ℝ × ℝ) × (Fin (m + 1) → ℝ × ℝ) => ∑ j, halfSq (w.1 j) := hs.comp measurable_fst
    have a2 : Measurable fun w : (Fin (m + 1) → ℝ × ℝ) × (Fin (m + 1) → ℝ × ℝ) => ∑ j, halfSq (w.2 j) := hs.comp measurable_snd
    exact hg.comp (a1.div (a1.add a2))

end QInfer
