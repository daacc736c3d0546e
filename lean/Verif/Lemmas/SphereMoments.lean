import Verif.Lemmas.RandomStates
import Verif.Lemmas.HaarLaw
import Mathlib.Analysis.InnerProductSpace.Projection.Reflection

/-!
# Moments of directions drawn uniformly

Fourth moments of `v / |v|` for independent standard normal variates `v`, from the invariance under reflections.
-/

namespace QInfer

open MeasureTheory ProbabilityTheory Finset

section
variable {ι : Type} [Fintype ι]

/-- A function of one linear form of the variates and of their length has a mean that depends only on the length of
the form. -/
theorem normals_form (g : ℝ → ℝ → ℝ) (s t : ι → ℝ) (hst : ∑ i, s i ^ 2 = ∑ i, t i ^ 2) :
    ∫ v, g (∑ i, s i * v i) (∑ i, v i ^ 2) ∂normals ι = ∫ v, g (∑ i, t i * v i) (∑ i, v i ^ 2) ∂normals ι := by
  let s' : EuclideanSpace ℝ ι := WithLp.toLp 2 s
  let t' : EuclideanSpace ℝ ι := WithLp.toLp 2 t
  have hn : ‖s'‖ = ‖t'‖ := by
    rw [EuclideanSpace.norm_eq, EuclideanSpace.norm_eq]
    simp only [Real.norm_eq_abs, sq_abs]
    exact congrArg _ hst
  let R : EuclideanSpace ℝ ι ≃ₗᵢ[ℝ] EuclideanSpace ℝ ι := (Submodule.span ℝ {s' - t'})ᗮ.reflection
  have hR : R s' = t' := Submodule.reflection_sub hn
  let f : (ι → ℝ) →ₗ[ℝ] (ι → ℝ) := (WithLp.linearEquiv 2 ℝ (ι → ℝ)).toLinearMap ∘ₗ
    R.toLinearEquiv.toLinearMap ∘ₗ (WithLp.linearEquiv 2 ℝ (ι → ℝ)).symm.toLinearMap
  have hf : ∀ x, ∑ i, f x i ^ 2 = ∑ i, x i ^ 2 := by
    intro x
    have h1 : ‖R (WithLp.toLp 2 x)‖ ^ 2 = ‖(WithLp.toLp 2 x : EuclideanSpace ℝ ι)‖ ^ 2 := by rw [R.norm_map]
    rw [EuclideanSpace.norm_sq_eq, EuclideanSpace.norm_sq_eq] at h1
    simp only [Real.norm_eq_abs, sq_abs] at h1
    exact h1
  have hi : ∀ x, ∑ i, t i * f x i = ∑ i, s i * x i := by
    intro x
    have h1 : inner ℝ (R s') (R (WithLp.toLp 2 x)) = inner ℝ s' (WithLp.toLp 2 x : EuclideanSpace ℝ ι) :=
      R.inner_map_map _ _
    rw [hR] at h1
    simp only [PiLp.inner_apply, RCLike.inner_apply, conj_trivial] at h1
    calc ∑ i, t i * f x i = ∑ i, f x i * t i := sum_congr rfl fun i _ => mul_comm _ _
      _ = ∑ i, x i * s i := h1
      _ = _ := sum_congr rfl fun i _ => mul_comm _ _
  have h := normals_integral f hf fun v => g (∑ i, t i * v i) (∑ i, v i ^ 2)
  simp only [hi, hf] at h
  exact h

/-- A product of four components of the direction. -/
noncomputable def dir4 (a b c d : ι) (v : ι → ℝ) : ℝ := v a * v b * v c * v d / (∑ i, v i ^ 2) ^ 2

theorem dir4_measurable (a b c d : ι) : Measurable (dir4 a b c d) := by
  unfold dir4; fun_prop

theorem comp_sq_le (v : ι → ℝ) (a : ι) : v a ^ 2 ≤ ∑ i, v i ^ 2 :=
  single_le_sum (f := fun i => v i ^ 2) (fun i _ => sq_nonneg _) (mem_univ a)

theorem dir4_le (a b c d : ι) (v : ι → ℝ) : |dir4 a b c d v| ≤ 1 := by
  unfold dir4
  obtain ⟨S, hS⟩ : ∃ S, S = ∑ i, v i ^ 2 := ⟨_, rfl⟩
  have hS0 : 0 ≤ S := hS ▸ sum_nonneg fun p _ => sq_nonneg _
  have h2 : ∀ a b, |v a * v b| ≤ S := by
    intro a b
    have := comp_sq_le v a
    have := comp_sq_le v b
    rw [← hS] at *
    rw [abs_le]
    constructor <;> nlinarith [sq_nonneg (v a + v b), sq_nonneg (v a - v b)]
  rw [← hS, abs_div, abs_of_nonneg (sq_nonneg S)]
  apply div_le_one_of_le₀ _ (sq_nonneg S)
  rw [show v a * v b * v c * v d = (v a * v b) * (v c * v d) by ring, abs_mul, sq]
  exact mul_le_mul (h2 a b) (h2 c d) (abs_nonneg _) hS0

theorem dir4_integrable (a b c d : ι) : Integrable (dir4 a b c d) (normals ι) :=
  Integrable.of_bound (dir4_measurable a b c d).aestronglyMeasurable 1
    (Filter.Eventually.of_forall fun v => by rw [Real.norm_eq_abs]; exact dir4_le a b c d v)

variable [DecidableEq ι]

/-- The coordinate form. -/
def unit (a : ι) (i : ι) : ℝ := if i = a then 1 else 0

omit [DecidableEq ι] in
theorem form_pow [DecidableEq ι] (s : ι → ℝ) (a : ι) :
    ∫ v, (∑ i, s i * v i) ^ 4 / (∑ i, v i ^ 2) ^ 2 ∂normals ι =
      (∑ i, s i ^ 2) ^ 2 * ∫ v, dir4 a a a a v ∂normals ι := by
  have h := normals_form (fun x y => x ^ 4 / y ^ 2) s (fun i => Real.sqrt (∑ i, s i ^ 2) * unit a i) (by
    simp only [mul_pow, Real.sq_sqrt (sum_nonneg fun i _ => sq_nonneg (s i)), unit]
    simp)
  rw [h, ← integral_const_mul]
  congr 1
  funext v
  have : ∑ i, Real.sqrt (∑ i, s i ^ 2) * unit a i * v i = Real.sqrt (∑ i, s i ^ 2) * v a := by
    simp [unit]
  rw [this, dir4, mul_pow, show Real.sqrt (∑ i, s i ^ 2) ^ 4 = (Real.sqrt (∑ i, s i ^ 2) ^ 2) ^ 2 by ring,
    Real.sq_sqrt (sum_nonneg fun i _ => sq_nonneg (s i))]
  ring

/-- Whether two indices agree, as a number. -/
def same (a b : ι) : ℝ := if a = b then 1 else 0

theorem signs_sq (a b c d : ι) (x y z : ℝ) (hx : x ^ 2 = 1) (hy : y ^ 2 = 1) (hz : z ^ 2 = 1) :
    ∑ i, (unit a i + x * unit b i + y * unit c i + z * unit d i) ^ 2 =
      4 + 2 * (x * same a b + y * same a c + z * same a d + x * y * same b c + x * z * same b d + y * z * same c d) := by
  have hu : ∀ a b : ι, ∑ i, unit a i * unit b i = same a b := by
    intro a b
    simp only [unit, same, ite_mul, one_mul, zero_mul]
    simp
  have h1 : ∀ a : ι, same a a = 1 := fun a => by simp [same]
  have e : ∀ i, (unit a i + x * unit b i + y * unit c i + z * unit d i) ^ 2 =
      unit a i * unit a i + x ^ 2 * (unit b i * unit b i) + y ^ 2 * (unit c i * unit c i) +
      z ^ 2 * (unit d i * unit d i) + 2 * x * (unit a i * unit b i) + 2 * y * (unit a i * unit c i) +
      2 * z * (unit a i * unit d i) + 2 * x * y * (unit b i * unit c i) + 2 * x * z * (unit b i * unit d i) +
      2 * y * z * (unit c i * unit d i) := fun i => by ring
  simp only [e, sum_add_distrib, ← mul_sum, hu, h1, hx, hy, hz]
  ring

theorem signs_form (a b c d : ι) (x y z : ℝ) (v : ι → ℝ) :
    ∑ i, (unit a i + x * unit b i + y * unit c i + z * unit d i) * v i = v a + x * v b + y * v c + z * v d := by
  have hu : ∀ a : ι, ∑ i, unit a i * v i = v a := by
    intro a; simp [unit]
  have e : ∀ i, (unit a i + x * unit b i + y * unit c i + z * unit d i) * v i =
      unit a i * v i + x * (unit b i * v i) + y * (unit c i * v i) + z * (unit d i * v i) := fun i => by ring
  simp only [e, sum_add_distrib, ← mul_sum, hu]

/-- Fourth moments up to a factor. -/
theorem dir4_shape (o a b c d : ι) :
    ∫ v, dir4 a b c d v ∂normals ι = (same a b * same c d + same a c * same b d + same a d * same b c) / 3 *
      ∫ v, dir4 o o o o v ∂normals ι := by
  obtain ⟨C, hC⟩ : ∃ C, C = ∫ v, dir4 o o o o v ∂normals ι := ⟨_, rfl⟩
  let F : ℝ → ℝ → ℝ → (ι → ℝ) → ℝ := fun x y z v => (v a + x * v b + y * v c + z * v d) ^ 4 / (∑ i, v i ^ 2) ^ 2
  have hF : ∀ x y z : ℝ, x ^ 2 = 1 → y ^ 2 = 1 → z ^ 2 = 1 → ∫ v, F x y z v ∂normals ι =
      (4 + 2 * (x * same a b + y * same a c + z * same a d + x * y * same b c + x * z * same b d +
        y * z * same c d)) ^ 2 * C := by
    intro x y z hx hy hz
    have := form_pow (fun i => unit a i + x * unit b i + y * unit c i + z * unit d i) o
    simp only [signs_form] at this
    rw [signs_sq a b c d x y z hx hy hz, ← hC] at this
    exact this
  have hFi : ∀ x y z : ℝ, x ^ 2 = 1 → y ^ 2 = 1 → z ^ 2 = 1 → Integrable (F x y z) (normals ι) := by
    intro x y z hx hy hz
    have hm : Measurable (F x y z) := by
      simp only [F]; fun_prop
    refine Integrable.of_bound hm.aestronglyMeasurable 256 (Filter.Eventually.of_forall fun v => ?_)
    obtain ⟨S, hS⟩ : ∃ S, S = ∑ i, v i ^ 2 := ⟨_, rfl⟩
    have hS0 : 0 ≤ S := hS ▸ sum_nonneg fun p _ => sq_nonneg _
    have ha := comp_sq_le v a
    have hb : (x * v b) ^ 2 ≤ ∑ i, v i ^ 2 := by rw [mul_pow, hx, one_mul]; exact comp_sq_le v b
    have hc : (y * v c) ^ 2 ≤ ∑ i, v i ^ 2 := by rw [mul_pow, hy, one_mul]; exact comp_sq_le v c
    have hd : (z * v d) ^ 2 ≤ ∑ i, v i ^ 2 := by rw [mul_pow, hz, one_mul]; exact comp_sq_le v d
    simp only [F]
    rw [← hS] at *
    generalize v a = p at *
    generalize x * v b = q at *
    generalize y * v c = r at *
    generalize z * v d = t at *
    have h16 : (p + q + r + t) ^ 2 ≤ 16 * S := by
      nlinarith [sq_nonneg (p - q), sq_nonneg (p - r), sq_nonneg (p - t), sq_nonneg (q - r), sq_nonneg (q - t),
        sq_nonneg (r - t)]
    rw [Real.norm_eq_abs, abs_of_nonneg (by positivity)]
    refine div_le_of_le_mul₀ (by positivity) (by norm_num) ?_
    calc (p + q + r + t) ^ 4 = ((p + q + r + t) ^ 2) ^ 2 := by ring
      _ ≤ (16 * S) ^ 2 := pow_le_pow_left₀ (sq_nonneg _) h16 2
      _ = 256 * S ^ 2 := by ring
  have hsum : ∀ v, 192 * dir4 a b c d v = F 1 1 1 v - F 1 1 (-1) v - F 1 (-1) 1 v + F 1 (-1) (-1) v
      - F (-1) 1 1 v + F (-1) 1 (-1) v + F (-1) (-1) 1 v - F (-1) (-1) (-1) v := by
    intro v
    simp only [F, dir4]
    ring
  have p1 : (1 : ℝ) ^ 2 = 1 := one_pow 2
  have m1 : (-1 : ℝ) ^ 2 = 1 := by norm_num
  have h192 : 192 * ∫ v, dir4 a b c d v ∂normals ι = ∫ v, (F 1 1 1 v - F 1 1 (-1) v - F 1 (-1) 1 v + F 1 (-1) (-1) v
      - F (-1) 1 1 v + F (-1) 1 (-1) v + F (-1) (-1) 1 v - F (-1) (-1) (-1) v) ∂normals ι := by
    rw [← integral_const_mul]
    exact integral_congr_ae (Filter.Eventually.of_forall hsum)
  have i1 := hFi 1 1 1 p1 p1 p1
  have i2 := hFi 1 1 (-1) p1 p1 m1
  have i3 := hFi 1 (-1) 1 p1 m1 p1
  have i4 := hFi 1 (-1) (-1) p1 m1 m1
  have i5 := hFi (-1) 1 1 m1 p1 p1
  have i6 := hFi (-1) 1 (-1) m1 p1 m1
  have i7 := hFi (-1) (-1) 1 m1 m1 p1
  have i8 := hFi (-1) (-1) (-1) m1 m1 m1
  have j2 : Integrable (fun v => F 1 1 1 v - F 1 1 (-1) v) (normals ι) := i1.sub i2
  have j3 : Integrable (fun v => F 1 1 1 v - F 1 1 (-1) v - F 1 (-1) 1 v) (normals ι) := j2.sub i3
  have j4 : Integrable (fun v => F 1 1 1 v - F 1 1 (-1) v - F 1 (-1) 1 v + F 1 (-1) (-1) v) (normals ι) := j3.add i4
  have j5 : Integrable (fun v => F 1 1 1 v - F 1 1 (-1) v - F 1 (-1) 1 v + F 1 (-1) (-1) v - F (-1) 1 1 v)
      (normals ι) := j4.sub i5
  have j6 : Integrable (fun v => F 1 1 1 v - F 1 1 (-1) v - F 1 (-1) 1 v + F 1 (-1) (-1) v - F (-1) 1 1 v +
      F (-1) 1 (-1) v) (normals ι) := j5.add i6
  have j7 : Integrable (fun v => F 1 1 1 v - F 1 1 (-1) v - F 1 (-1) 1 v + F 1 (-1) (-1) v - F (-1) 1 1 v +
      F (-1) 1 (-1) v + F (-1) (-1) 1 v) (normals ι) := j6.add i7
  rw [integral_sub j7 i8, integral_add j6 i7, integral_add j5 i6, integral_sub j4 i5, integral_add j3 i4,
    integral_sub j2 i3, integral_sub i1 i2, hF 1 1 1 p1 p1 p1, hF 1 1 (-1) p1 p1 m1, hF 1 (-1) 1 p1 m1 p1,
    hF 1 (-1) (-1) p1 m1 m1, hF (-1) 1 1 m1 p1 p1, hF (-1) 1 (-1) m1 p1 m1, hF (-1) (-1) 1 m1 m1 p1,
    hF (-1) (-1) (-1) m1 m1 m1] at h192
  rw [← hC]
  linear_combination h192 / 192

/-- Fourth moments of a direction drawn uniformly. -/
theorem dir4_mean [Nonempty ι] (a b c d : ι) :
    ∫ v, dir4 a b c d v ∂normals ι = (same a b * same c d + same a c * same b d + same a d * same b c) /
      (Fintype.card ι * (Fintype.card ι + 2)) := by
  obtain ⟨o⟩ := ‹Nonempty ι›
  obtain ⟨C, hC⟩ : ∃ C, C = ∫ v, dir4 o o o o v ∂normals ι := ⟨_, rfl⟩
  have hone : ∫ v, ∑ a, ∑ b, dir4 a a b b v ∂normals ι = 1 := by
    have : (fun v : ι → ℝ => ∑ a, ∑ b, dir4 a a b b v) =ᵐ[normals ι] fun _ => 1 := by
      haveI : Nonempty ι := ⟨o⟩
      filter_upwards [normals_ne_zero] with v hv
      have hS := sumsq_pos hv
      simp only [dir4, ← sum_div]
      rw [div_eq_one_iff_eq (by positivity), sq, sum_mul]
      refine sum_congr rfl fun a _ => ?_
      rw [mul_sum]
      exact sum_congr rfl fun b _ => by ring
    rw [integral_congr_ae this]
    simp
  rw [integral_finset_sum _ fun a _ => integrable_finset_sum _ fun b _ => dir4_integrable a a b b] at hone
  have hterm : ∀ a : ι, ∫ v, ∑ b, dir4 a a b b v ∂normals ι =
      ∑ b : ι, (same a a * same b b + same a b * same a b + same a b * same a b) / 3 * C := by
    intro a
    rw [integral_finset_sum _ fun b _ => dir4_integrable a a b b]
    exact sum_congr rfl fun b _ => by rw [dir4_shape o a a b b, ← hC]
  simp only [hterm] at hone
  have hcount : ∑ a : ι, ∑ b : ι, (same a a * same b b + same a b * same a b + same a b * same a b) / 3 * C =
      (Fintype.card ι * (Fintype.card ι + 2)) * (C / 3) := by
    have e : ∀ a b : ι, (same a a * same b b + same a b * same a b + same a b * same a b) / 3 * C =
        C / 3 + (if a = b then 2 * C / 3 else 0) := by
      intro a b
      by_cases h : a = b
      · subst h; simp [same]; ring
      · simp [same, h]; ring
    simp only [e, sum_add_distrib]
    simp
    ring
  rw [hcount] at hone
  rw [dir4_shape o, ← hC]
  have hn : (Fintype.card ι * (Fintype.card ι + 2) : ℝ) ≠ 0 := fun h0 => by
    rw [h0, zero_mul] at hone
    exact zero_ne_one hone
  rw [eq_div_iff hn]
  linear_combination (same a b * same c d + same a c * same b d + same a d * same b c) * hone

end

/-! ## Invertible matrices -/

/-- A square matrix of independent variates is almost surely invertible. -/
theorem normals_det (m : Nat) : ∀ᵐ v ∂normals (Fin m × Fin m),
    Matrix.det (Matrix.of fun i j => v (i, j)) ≠ 0 := by
  induction m with
  | zero => exact Filter.Eventually.of_forall fun v => by simp
  | succ m ih =>
    have hm : ∀ k : Nat, Measurable fun v : Fin k × Fin k → ℝ => Matrix.det (Matrix.of fun i j => v (i, j)) := by
      intro k
      simp only [Matrix.det_apply, Matrix.of_apply]
      fun_prop
    have hminor : ∀ᵐ v ∂normals (Fin (m + 1) × Fin (m + 1)),
        Matrix.det (Matrix.of fun i j : Fin m => v (i.succ, j.succ)) ≠ 0 := by
      have hp := normals_precomp (fun p : Fin m × Fin m => (p.1.succ, p.2.succ)) (by
        rintro ⟨a, b⟩ ⟨c, d⟩ h
        simp only [Prod.mk.injEq, Fin.succ_inj] at h
        rw [h.1, h.2])
      rw [← hp] at ih
      have hq : Measurable fun (v : Fin (m + 1) × Fin (m + 1) → ℝ) (k : Fin m × Fin m) => v (k.1.succ, k.2.succ) := by
        fun_prop
      exact ae_of_ae_map hq.aemeasurable ih
    refine normals_ae_update (0, 0) _ ((hm (m + 1)) (measurableSet_singleton 0)).compl ?_
    filter_upwards [hminor] with v hv
    obtain ⟨M, hM⟩ : ∃ M, M = Matrix.det (Matrix.of fun i j : Fin m => v (i.succ, j.succ)) := ⟨_, rfl⟩
    have e : ∃ c, ∀ x, Matrix.det (Matrix.of fun i j => Function.update v ((0 : Fin (m + 1)), (0 : Fin (m + 1))) x (i, j)) =
        x * M + c := by
      refine ⟨∑ j : Fin m, (-1) ^ (j.succ : ℕ) * v (0, j.succ) * Matrix.det (Matrix.submatrix
        (Matrix.of fun i j => v (i, j)) Fin.succ j.succ.succAbove), fun x => ?_⟩
      rw [Matrix.det_succ_row_zero, Fin.sum_univ_succ]
      congr 1
      simp [hM]
      left
      rfl
    obtain ⟨c, hc⟩ := e
    filter_upwards [gauss_ne (-c / M)] with x hx
    rw [hc]
    intro h0
    apply hx
    rw [eq_div_iff (by rw [hM]; exact hv)]
    linarith

end QInfer
