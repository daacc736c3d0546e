import Verif.Model.Misc
import Verif.Props.Ellipsoid
import Mathlib.MeasureTheory.Measure.Lebesgue.VolumeOfBalls
import Mathlib.LinearAlgebra.Matrix.PosDef

/-!
# C94: the volume of ellipsoids

Volume is Lebesgue measure; the ellipsoid is the set of points that `in_ellipsoid` accepts.
-/

namespace QInfer

open MeasureTheory Matrix

/-- What scipy's `sqrtm` returns for positive semidefinite matrices: the positive semidefinite root. -/
def Spec.RootOf {n : Nat} (S M : Matrix (Fin n) (Fin n) ℝ) : Prop := S.PosSemidef ∧ S * S = M

/-- The volume of the unit ball. -/
theorem unit_ball_volume (n : Nat) (hn : 0 < n) :
    volume {z : Fin n → ℝ | ∑ a, z a ^ 2 ≤ 1} =
      ENNReal.ofReal (Real.pi ^ ((n : ℝ) / 2) / Real.Gamma (1 + (n : ℝ) / 2)) := by
  haveI : Nonempty (Fin n) := ⟨⟨0, hn⟩⟩
  have hset : {z : Fin n → ℝ | ∑ a, z a ^ 2 ≤ 1} =
      (@WithLp.toLp 2 (Fin n → ℝ)) ⁻¹' Metric.closedBall 0 1 := by
    ext z
    simp only [Set.mem_setOf_eq, Set.mem_preimage, mem_closedBall_zero_iff, EuclideanSpace.norm_eq,
      Real.norm_eq_abs, sq_abs]
    rw [Real.sqrt_le_one]
  rw [hset, (PiLp.volume_preserving_toLp (Fin n)).measure_preimage
    measurableSet_closedBall.nullMeasurableSet, EuclideanSpace.volume_closedBall]
  simp only [ENNReal.ofReal_one, one_pow, one_mul, Fintype.card_fin]
  congr 2
  · rw [← Real.rpow_natCast, Real.sqrt_eq_rpow, ← Real.rpow_mul Real.pi_pos.le]
    congr 1
    ring
  · rw [add_comm]

/-- **C94.**  For a positive definite shape matrix, `ellipsoid_volume(invA=M)` is the volume of the set of
points that `in_ellipsoid(x, M, c)` accepts, whatever the centre. -/
theorem C94_volume {n : Nat} (hn : 0 < n)
    (sqrtm : Matrix (Fin n) (Fin n) ℝ → Matrix (Fin n) (Fin n) ℝ) (A : Option (Matrix (Fin n) (Fin n) ℝ))
    (M : Matrix (Fin n) (Fin n) ℝ) (hM : M.PosDef) (hS : Spec.RootOf (sqrtm M) M) (c : Fin n → ℝ) :
    ∃ v, ellipsoidVolume sqrtm A (some M) = .ok v ∧ 0 < v ∧
      volume {x | inEllipsoid x M c = .ok true} = ENNReal.ofReal v := by
  refine ⟨_, rfl, ?_⟩
  set S := sqrtm M
  obtain ⟨hS1, hS2⟩ := hS
  have hdet0 : S.det ≠ 0 := by
    intro h
    have := hM.det_pos
    rw [← hS2, det_mul, h] at this
    simp at this
  have hdet : 0 < S.det := lt_of_le_of_ne hS1.det_nonneg (Ne.symm hdet0)
  have hVn : 0 < Real.pi ^ ((n : ℝ) / 2) / Real.Gamma (1 + (n : ℝ) / 2) :=
    div_pos (Real.rpow_pos_of_pos Real.pi_pos _) (Real.Gamma_pos_of_pos (by positivity))
  refine ⟨mul_pos hVn hdet, ?_⟩
  have hST : M = S * Sᵀ := by
    have : Sᵀ = S := by
      have := hS1.1
      rwa [IsHermitian, conjTranspose_eq_transpose_of_trivial] at this
    rw [this, hS2]
  have hset : {x | inEllipsoid x M c = .ok true} =
      (fun y => c + y) '' ((Matrix.toLin' S) '' {z : Fin n → ℝ | ∑ a, z a ^ 2 ≤ 1}) := by
    ext x
    obtain ⟨b, hb, hiff⟩ := C79_ellipsoid S hdet0 c x
    rw [← hST] at hb
    simp only [Set.mem_setOf_eq, hb, Except.ok.injEq, hiff, Set.mem_image, toLin'_apply,
      exists_exists_and_eq_and]
    exact ⟨fun ⟨z, h1, h2⟩ => ⟨z, h1, h2.symm⟩, fun ⟨z, h1, h2⟩ => ⟨z, h1, h2.symm⟩⟩
  rw [hset, Set.image_add_left, measure_preimage_add, Measure.addHaar_image_linearMap,
    LinearMap.det_toLin', unit_ball_volume n hn, abs_of_pos hdet,
    ← ENNReal.ofReal_mul hdet.le, mul_comm]

/-- **C94, the other form.**  `ellipsoid_volume(A)` is the volume of the set of points with
`(x - c)ᵀ A (x - c) ≤ 1`, in the convention of `mvee`. -/
theorem C94_volume_of_form {n : Nat} (hn : 0 < n)
    (sqrtm : Matrix (Fin n) (Fin n) ℝ → Matrix (Fin n) (Fin n) ℝ)
    (A : Matrix (Fin n) (Fin n) ℝ) (hA : A.PosDef) (hS : Spec.RootOf (sqrtm A⁻¹) A⁻¹)
    (c : Fin n → ℝ) :
    ∃ v, ellipsoidVolume sqrtm (some A) none = .ok v ∧ 0 < v ∧
      volume {x | (x - c) ⬝ᵥ (A *ᵥ (x - c)) ≤ 1} = ENNReal.ofReal v := by
  obtain ⟨v, h1, h2, h3⟩ := C94_volume hn sqrtm none A⁻¹ hA.inv hS c
  refine ⟨v, ?_, h2, ?_⟩
  · rw [← h1]
    unfold ellipsoidVolume
    simp [hA.det_pos.ne']
  · rw [← h3]
    congr 1
    ext x
    obtain ⟨b, hb, hiff⟩ := inEllipsoid_eq x A⁻¹ c hA.inv.det_pos.ne'
    simp only [Set.mem_setOf_eq, hb, Except.ok.injEq, hiff]
    rw [Matrix.nonsing_inv_nonsing_inv _ (isUnit_iff_ne_zero.2 hA.det_pos.ne')]
    have : Spec.form A c x = (x - c) ⬝ᵥ (A *ᵥ (x - c)) := by
      unfold Spec.form
      simp only [dotProduct, mulVec, Pi.sub_apply, Finset.mul_sum]
      refine Finset.sum_congr rfl fun a _ => Finset.sum_congr rfl fun b _ => ?_
      ring
    rw [this]

/-- **C94, finding.**  The two helpers use opposite conventions for their argument `A`: with the same
matrix, the volume times the volume of what `in_ellipsoid` accepts is a constant, so they differ unless the
determinant is one. -/
theorem C94_conventions {n : Nat} (hn : 0 < n)
    (sqrtm : Matrix (Fin n) (Fin n) ℝ → Matrix (Fin n) (Fin n) ℝ)
    (A : Matrix (Fin n) (Fin n) ℝ) (hA : A.PosDef) (hS : Spec.RootOf (sqrtm A) A)
    (hS' : Spec.RootOf (sqrtm A⁻¹) A⁻¹) (c : Fin n → ℝ) :
    ∃ v, ellipsoidVolume sqrtm (some A) none = .ok v ∧
      (volume {x | inEllipsoid x A c = .ok true} = ENNReal.ofReal v ↔ A.det = 1) := by
  obtain ⟨v, h1, h2, -⟩ := C94_volume_of_form hn sqrtm A hA hS' c
  obtain ⟨u, g1, g2, g3⟩ := C94_volume hn sqrtm none A hA hS c
  refine ⟨v, h1, ?_⟩
  rw [g3, ENNReal.ofReal_eq_ofReal_iff g2.le h2.le]
  have hVn : 0 < Real.pi ^ ((n : ℝ) / 2) / Real.Gamma (1 + (n : ℝ) / 2) :=
    div_pos (Real.rpow_pos_of_pos Real.pi_pos _) (Real.Gamma_pos_of_pos (by positivity))
  have e1 : v = Real.pi ^ ((n : ℝ) / 2) / Real.Gamma (1 + (n : ℝ) / 2) * (sqrtm A⁻¹).det := by
    unfold ellipsoidVolume at h1
    simpa [hA.det_pos.ne', eq_comm] using h1
  have e2 : u = Real.pi ^ ((n : ℝ) / 2) / Real.Gamma (1 + (n : ℝ) / 2) * (sqrtm A).det := by
    unfold ellipsoidVolume at g1
    simpa [eq_comm] using g1
  rw [e1, e2, mul_right_inj' hVn.ne']
  have s1 : (sqrtm A).det ^ 2 = A.det := by rw [sq, ← det_mul, hS.2]
  have s2 : (sqrtm A⁻¹).det ^ 2 = A.det⁻¹ := by
    rw [sq, ← det_mul, hS'.2, det_nonsing_inv, Ring.inverse_eq_inv']
  rw [← sq_eq_sq₀ hS.1.det_nonneg hS'.1.det_nonneg, s1, s2]
  have h0 := hA.det_pos
  constructor
  · intro h
    have : A.det * A.det = 1 := by nth_rw 2 [h]; exact mul_inv_cancel₀ h0.ne'
    nlinarith
  · intro h
    rw [h, inv_one]

/-- **C94, errors.**  Without a matrix there is a `ValueError`, for a singular `A` a `LinAlgError`; with
`invA` given, `A` is not looked at. -/
theorem C94_arguments {n : Nat}
    (sqrtm : Matrix (Fin n) (Fin n) ℝ → Matrix (Fin n) (Fin n) ℝ) :
    ellipsoidVolume sqrtm none none = .error .valueError ∧
    (∀ A : Matrix (Fin n) (Fin n) ℝ, A.det = 0 →
      ellipsoidVolume sqrtm (some A) none = .error .other) ∧
    ∀ A M, ellipsoidVolume sqrtm A (some M) = ellipsoidVolume sqrtm none (some M) := by
  refine ⟨rfl, fun A hA => ?_, fun A M => rfl⟩
  unfold ellipsoidVolume
  simp [hA]

/-- Case for C94: the disc of radius 2 has area `4 π`. -/
example : ellipsoidVolume (fun _ => (2 : ℝ) • (1 : Matrix (Fin 2) (Fin 2) ℝ)) none
      (some ((4 : ℝ) • 1)) = .ok (4 * Real.pi) ∧
    volume {x : Fin 2 → ℝ | inEllipsoid x ((4 : ℝ) • 1) ![1, 0] = .ok true} =
      ENNReal.ofReal (4 * Real.pi) := by
  have hv : ellipsoidVolume (fun _ => (2 : ℝ) • (1 : Matrix (Fin 2) (Fin 2) ℝ)) none
      (some ((4 : ℝ) • 1)) = .ok (4 * Real.pi) := by
    unfold ellipsoidVolume
    have h2 : (1 : ℝ) + ((2 : ℕ) : ℝ) / 2 = 2 := by norm_num
    have h3 : ((2 : ℕ) : ℝ) / 2 = 1 := by norm_num
    simp only [h3, Real.rpow_one, det_smul, det_one, Fintype.card_fin]
    have h4 : Real.Gamma (1 + 1) = 1 := by
      rw [Real.Gamma_add_one one_ne_zero, Real.Gamma_one, mul_one]
    rw [h4]
    congr 1
    ring
  refine ⟨hv, ?_⟩
  have hpd : ((4 : ℝ) • (1 : Matrix (Fin 2) (Fin 2) ℝ)).PosDef := PosDef.one.smul (by norm_num)
  obtain ⟨v, h1, -, h3⟩ := C94_volume (by norm_num)
    (fun _ => (2 : ℝ) • (1 : Matrix (Fin 2) (Fin 2) ℝ)) none ((4 : ℝ) • 1) hpd
    ⟨(PosDef.one.smul (by norm_num : (0 : ℝ) < 2)).posSemidef, by
      rw [smul_mul_smul_comm, mul_one]; norm_num⟩ ![1, 0]
  rw [h3]
  rw [hv] at h1
  simp only [Except.ok.injEq] at h1
  rw [h1]

end QInfer
