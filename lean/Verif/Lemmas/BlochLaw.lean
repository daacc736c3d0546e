import Verif.Lemmas.RandomStates
import Mathlib.MeasureTheory.Measure.CharacteristicFunction.Basic

/-!
# The law of the random Bloch vectors
-/

namespace QInfer

open MeasureTheory ProbabilityTheory Finset Matrix

/-- Euclidean space of Bloch vectors. -/
abbrev R3 := EuclideanSpace ℝ (Fin 3)

/-- The Bloch vector of an array with three entries. -/
noncomputable def vec3 (l : List ℝ) : R3 := WithLp.toLp 2 ![l.getD 0 0, l.getD 1 0, l.getD 2 0]

/-! ## Unitary matrices act on the variates -/

/-- The matrix `U` acting on the columns of the complex variates. -/
noncomputable def actC {n k : Nat} (U : Matrix (Fin n) (Fin n) ℂ) :
    (Bool × Fin n × Fin k → ℝ) →ₗ[ℝ] (Bool × Fin n × Fin k → ℝ) where
  toFun v p := if p.1 then ∑ l, ((U p.2.1 l).re * v (true, l, p.2.2) + (U p.2.1 l).im * v (false, l, p.2.2))
    else ∑ l, ((U p.2.1 l).re * v (false, l, p.2.2) - (U p.2.1 l).im * v (true, l, p.2.2))
  map_add' u v := by
    funext p
    simp only [Pi.add_apply]
    split_ifs <;> rw [← sum_add_distrib] <;> exact sum_congr rfl fun l _ => by ring
  map_smul' c v := by
    funext p
    simp only [Pi.smul_apply, smul_eq_mul, RingHom.id_apply]
    split_ifs <;> rw [mul_sum] <;> exact sum_congr rfl fun l _ => by ring

theorem actC_mat {n k : Nat} (U : Matrix (Fin n) (Fin n) ℂ) (v : Bool × Fin n × Fin k → ℝ) :
    randnComplex (actC U v) = U * randnComplex v := by
  ext i j
  simp only [randnComplex, of_apply, mul_apply]
  apply Complex.ext
  · simp [actC, Complex.add_re, Complex.mul_re, Complex.mul_im]
  · simp [actC, Complex.add_im, Complex.mul_re, Complex.mul_im]

theorem sumsq_normSq {n k : Nat} (v : Bool × Fin n × Fin k → ℝ) :
    ∑ p, v p ^ 2 = ∑ i, ∑ j, Complex.normSq (randnComplex v i j) := by
  simp only [Fintype.sum_prod_type, Fintype.sum_bool, randnComplex, of_apply, ← sum_add_distrib]
  refine sum_congr rfl fun i _ => sum_congr rfl fun j _ => ?_
  rw [Complex.normSq_apply]
  simp
  ring

theorem trace_normSq {n k : Nat} (z : Matrix (Fin n) (Fin k) ℂ) :
    trace (z * zᴴ) = ((∑ i, ∑ j, Complex.normSq (z i j) : ℝ) : ℂ) := by
  simp only [trace, diag_apply, mul_apply, conjTranspose_apply, Complex.ofReal_sum]
  exact sum_congr rfl fun i _ => sum_congr rfl fun j _ => Complex.mul_conj _

theorem actC_norm {n k : Nat} (U : Matrix (Fin n) (Fin n) ℂ) (h : Uᴴ * U = 1) (v : Bool × Fin n × Fin k → ℝ) :
    ∑ p, actC U v p ^ 2 = ∑ p, v p ^ 2 := by
  have h1 : trace (U * randnComplex v * (U * randnComplex v)ᴴ) = trace (randnComplex v * (randnComplex v)ᴴ) := by
    rw [conjTranspose_mul, trace_mul_comm, Matrix.mul_assoc, ← Matrix.mul_assoc Uᴴ, h, Matrix.one_mul, trace_mul_comm]
  rw [← actC_mat, trace_normSq, trace_normSq] at h1
  rw [sumsq_normSq, sumsq_normSq]
  exact_mod_cast h1

/-! ## Bloch vectors -/

/-- The numerators of the Bloch vector. -/
noncomputable def blochNum {k : Nat} (z : Matrix (Fin 2) (Fin k) ℂ) : Fin 3 → ℝ :=
  ![∑ j, 2 * (z 0 j * star (z 1 j)).re, ∑ j, -2 * (z 0 j * star (z 1 j)).im,
    ∑ j, (Complex.normSq (z 0 j) - Complex.normSq (z 1 j))]

/-- The Bloch vector as a function of the variates. -/
noncomputable def bvec {k : Nat} (v : Bool × Fin 2 × Fin k → ℝ) : R3 :=
  WithLp.toLp 2 fun a => blochNum (randnComplex v) a / ∑ p, v p ^ 2

theorem ginibreDraw_eq {k : Nat} (v : Bool × Fin 2 × Fin k → ℝ) :
    ginibreDraw v = if ∑ p, v p ^ 2 = 0 then none else
      some [bvec v 0, bvec v 1, bvec v 2] := by
  unfold ginibreDraw ginibreBloch
  simp only [trace_normSq, ← sumsq_normSq, Complex.ofReal_eq_zero]
  split_ifs with h0
  · rfl
  · obtain ⟨z, hz⟩ : ∃ z, z = randnComplex v := ⟨_, rfl⟩
    obtain ⟨S, hS⟩ : ∃ S, S = ∑ p, v p ^ 2 := ⟨_, rfl⟩
    simp only [bvec, ← hz, ← hS]
    have hre : ∀ (P : Matrix (Fin 2) (Fin 2) ℂ), (trace ((((S : ℝ) : ℂ)⁻¹ • (z * zᴴ)) * P)).re =
        (∑ j, (z 0 j * star (z 0 j) * P 0 0 + z 0 j * star (z 1 j) * P 1 0 + z 1 j * star (z 0 j) * P 0 1 +
          z 1 j * star (z 1 j) * P 1 1)).re / S := by
      intro P
      rw [Matrix.smul_mul, trace_smul, smul_eq_mul, ← Complex.ofReal_inv, Complex.re_ofReal_mul, div_eq_inv_mul]
      congr 2
      simp only [trace, diag_apply, mul_apply, Fin.sum_univ_two, conjTranspose_apply, sum_mul, ← sum_add_distrib]
      exact sum_congr rfl fun j _ => by ring
    simp only [hre, Option.some.injEq, List.cons.injEq, and_true]
    refine ⟨?_, ?_, ?_⟩
    · congr 1
      simp only [blochNum, cons_val_zero, Complex.re_sum]
      refine sum_congr rfl fun j _ => ?_
      simp [Complex.mul_re, Complex.mul_im]
      ring
    · congr 1
      simp only [blochNum, cons_val_one, cons_val_zero, Complex.re_sum]
      refine sum_congr rfl fun j _ => ?_
      simp [Complex.mul_re, Complex.mul_im]
      ring
    · congr 1
      simp only [blochNum, Complex.re_sum]
      refine sum_congr rfl fun j _ => ?_
      simp [Complex.mul_re, Complex.mul_im, Complex.normSq_apply]
      ring

theorem bvec_vec3 {k : Nat} (v : Bool × Fin 2 × Fin k → ℝ) : vec3 ((ginibreDraw v).getD []) = bvec v := by
  rw [ginibreDraw_eq]
  split_ifs with h0
  · ext a
    fin_cases a <;> simp [vec3, bvec, h0]
  · ext a
    fin_cases a <;> simp [vec3]

theorem bvec_measurable {k : Nat} : Measurable (bvec (k := k)) := by
  unfold bvec
  apply (by fun_prop : Measurable (WithLp.toLp 2 : (Fin 3 → ℝ) → R3)).comp
  rw [measurable_pi_iff]
  intro a
  apply Measurable.div _ (by fun_prop)
  unfold blochNum randnComplex
  fin_cases a
  · simp [Complex.mul_re, Complex.mul_im]; fun_prop
  · simp [Complex.mul_re, Complex.mul_im]; fun_prop
  · simp [Complex.normSq_apply]; fun_prop

/-- The law of the Bloch vector. -/
noncomputable def blochLaw (k : Nat) : Measure R3 := (normals (Bool × Fin 2 × Fin k)).map bvec

instance blochLaw_prob (k : Nat) : IsProbabilityMeasure (blochLaw k) :=
  Measure.isProbabilityMeasure_map bvec_measurable.aemeasurable

/-- Every direction can be turned into the z axis by a unitary matrix. -/
theorem exists_turn (n : R3) (hn : ‖n‖ = 1) : ∃ U : Matrix (Fin 2) (Fin 2) ℂ, Uᴴ * U = 1 ∧
    ∀ {k : Nat} (z : Matrix (Fin 2) (Fin k) ℂ), ∑ a, n a * blochNum z a = blochNum (U * z) 2 := by
  have hsq : n 0 ^ 2 + n 1 ^ 2 + n 2 ^ 2 = 1 := by
    have := EuclideanSpace.real_norm_sq_eq n
    rw [hn, Fin.sum_univ_three] at this
    linarith
  have hstep : ∀ U : Matrix (Fin 2) (Fin 2) ℂ,
      (∀ a b : ℂ, n 0 * (2 * (a * star b).re) + n 1 * (-2 * (a * star b).im) + n 2 * (Complex.normSq a - Complex.normSq b) =
        Complex.normSq (U 0 0 * a + U 0 1 * b) - Complex.normSq (U 1 0 * a + U 1 1 * b)) →
      ∀ {k : Nat} (z : Matrix (Fin 2) (Fin k) ℂ), ∑ a, n a * blochNum z a = blochNum (U * z) 2 := by
    intro U h k z
    simp only [Fin.sum_univ_three, blochNum, cons_val_zero, cons_val_one, Matrix.cons_val, mul_sum, ← sum_add_distrib]
    refine sum_congr rfl fun j _ => ?_
    simp only [mul_apply, Fin.sum_univ_two]
    exact h _ _
  by_cases h1 : n 2 = -1
  · have h0 : n 0 = 0 := by nlinarith [sq_nonneg (n 0), sq_nonneg (n 1)]
    have h2 : n 1 = 0 := by nlinarith [sq_nonneg (n 0), sq_nonneg (n 1)]
    refine ⟨!![0, 1; 1, 0], ?_, hstep _ ?_⟩
    · ext i j; fin_cases i <;> fin_cases j <;> simp [mul_apply, Fin.sum_univ_two]
    · intro a b
      simp [h0, h1, h2]
  · have hp : 0 < 1 + n 2 := by
      have : -1 ≤ n 2 := by nlinarith [sq_nonneg (n 0), sq_nonneg (n 1)]
      rcases this.lt_or_eq with h | h
      · linarith
      · exact absurd h.symm h1
    obtain ⟨c, hc⟩ : ∃ c, c = Real.sqrt (2 * (1 + n 2)) := ⟨_, rfl⟩
    have hc2 : c ^ 2 = 2 * (1 + n 2) := by rw [hc, Real.sq_sqrt (by linarith)]
    have hc0 : c ≠ 0 := by rintro rfl; nlinarith
    obtain ⟨x, hx⟩ : ∃ x, x = n 0 := ⟨_, rfl⟩
    obtain ⟨y, hy⟩ : ∃ y, y = n 1 := ⟨_, rfl⟩
    obtain ⟨w, hw⟩ : ∃ w, w = n 2 := ⟨_, rfl⟩
    rw [← hx, ← hy, ← hw] at hsq
    rw [← hw] at hc2 hp
    refine ⟨!![⟨(1 + w) / c, 0⟩, ⟨x / c, -y / c⟩; ⟨-x / c, -y / c⟩, ⟨(1 + w) / c, 0⟩], ?_, hstep _ ?_⟩
    · ext i j
      fin_cases i <;> fin_cases j <;> apply Complex.ext <;>
        simp [mul_apply, Fin.sum_univ_two, Complex.mul_re, Complex.mul_im] <;> field_simp <;>
        first | ring1 | linear_combination hsq - hc2
    · intro a b
      rw [← hx, ← hy, ← hw]
      simp [Complex.normSq_apply, Complex.mul_re, Complex.mul_im]
      field_simp
      rw [hc2]
      linear_combination ((a.re ^ 2 + a.im ^ 2) - (b.re ^ 2 + b.im ^ 2)) * hsq

/-- The component in every direction has the same law. -/
theorem bloch_direction {k : Nat} {E : Type} [NormedAddCommGroup E] [NormedSpace ℝ E] (n : R3) (hn : ‖n‖ = 1) (g : ℝ → E) :
    ∫ v, g (∑ a, n a * bvec v a) ∂normals (Bool × Fin 2 × Fin k) = ∫ v, g (bvec v 2) ∂normals (Bool × Fin 2 × Fin k) := by
  obtain ⟨U, hU, h⟩ := exists_turn n hn
  rw [← normals_integral (actC U) (actC_norm U hU) fun v => g (bvec v 2)]
  congr 1
  funext v
  congr 1
  show ∑ a, n a * (blochNum (randnComplex v) a / ∑ p, v p ^ 2) = blochNum (randnComplex (actC U v)) 2 / ∑ p, actC U v p ^ 2
  rw [actC_norm U hU, actC_mat, ← h, sum_div]
  exact sum_congr rfl fun a _ => by ring

/-- A law whose components have the same characteristic function in all directions is invariant under rotations and
reflections. -/
theorem charFun_bloch (k : Nat) (t : R3) :
    charFun (blochLaw k) t = ∫ v, Complex.exp (‖t‖ * bvec v 2 * Complex.I) ∂normals (Bool × Fin 2 × Fin k) := by
  rw [charFun_apply, blochLaw, integral_map bvec_measurable.aemeasurable
    (Measurable.aestronglyMeasurable (by fun_prop))]
  by_cases ht : t = 0
  · simp [ht]
  · have ht' : ‖t‖ ≠ 0 := norm_ne_zero_iff.2 ht
    have hn : ‖(‖t‖⁻¹ • t : R3)‖ = 1 := by rw [norm_smul, norm_inv, norm_norm, inv_mul_cancel₀ ht']
    rw [← bloch_direction (‖t‖⁻¹ • t) hn fun x => Complex.exp (‖t‖ * x * Complex.I)]
    congr 1
    funext v
    congr 2
    rw [← Complex.ofReal_mul]
    congr 1
    rw [PiLp.inner_apply, mul_sum]
    refine sum_congr rfl fun a _ => ?_
    simp
    field_simp

theorem blochLaw_rotate (k : Nat) (R : R3 ≃ₗᵢ[ℝ] R3) : (blochLaw k).map R = blochLaw k := by
  have hR : Measurable R := R.continuous.measurable
  haveI : IsProbabilityMeasure ((blochLaw k).map R) := Measure.isProbabilityMeasure_map hR.aemeasurable
  apply Measure.ext_of_charFun
  ext t
  have h1 : charFun ((blochLaw k).map R) t = charFun (blochLaw k) (R.symm t) := by
    rw [charFun_apply, charFun_apply, integral_map hR.aemeasurable (Measurable.aestronglyMeasurable (by fun_prop))]
    congr 1
    funext x
    congr 3
    rw [← R.inner_map_map x (R.symm t), R.apply_symm_apply]
  rw [h1, charFun_bloch, charFun_bloch, R.symm.norm_map]

end QInfer
