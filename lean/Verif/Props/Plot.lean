import Verif.Model.Plot
import Verif.Props.Bases
import Verif.Props.Region
import Mathlib.Analysis.Matrix.Spectrum
import Mathlib.LinearAlgebra.Matrix.PosDef

/-!
# C119: plots of rebit states
-/

namespace QInfer

open Matrix
open scoped ComplexOrder

/-! ### Specification -/

/-- `uᵀ C u`. -/
def Spec.quad2 (C : Matrix (Fin 2) (Fin 2) ℝ) (u : Fin 2 → ℝ) : ℝ := ∑ i, ∑ j, u i * C i j * u j

/-- The points at most `k` standard deviations away from `c`, whatever direction they are viewed
from. -/
def Spec.withinStd (C : Matrix (Fin 2) (Fin 2) ℝ) (c : Fin 2 → ℝ) (k : ℝ) : Set (Fin 2 → ℝ) :=
  {p | ∀ u : Fin 2 → ℝ, (∑ i, u i * (p i - c i)) ^ 2 ≤ k ^ 2 * Spec.quad2 C u}

/-- The points inside an ellipse with the given centre, full width and height, turned by an angle in
degrees. -/
def Spec.ellipseRegion (c : Fin 2 → ℝ) (width height angle : ℝ) : Set (Fin 2 → ℝ) :=
  {p | ∃ s t, s ^ 2 + t ^ 2 ≤ 1 ∧
    p 0 = c 0 + (Real.cos (angle * Real.pi / 180) * (width / 2 * s) -
      Real.sin (angle * Real.pi / 180) * (height / 2 * t)) ∧
    p 1 = c 1 + (Real.sin (angle * Real.pi / 180) * (width / 2 * s) +
      Real.cos (angle * Real.pi / 180) * (height / 2 * t))}

/-- What is assumed of `np.linalg.eigh`: eigenvalues and orthonormal eigenvectors. -/
def Spec.IsEigh (eigh : Matrix (Fin 2) (Fin 2) ℝ → (Fin 2 → ℝ) × Matrix (Fin 2) (Fin 2) ℝ) : Prop :=
  ∀ C : Matrix (Fin 2) (Fin 2) ℝ, Cᵀ = C → (eigh C).2ᵀ * (eigh C).2 = 1 ∧
    C = (eigh C).2 * diagonal (eigh C).1 * (eigh C).2ᵀ

/-- What is assumed of `argsort`: a permutation into increasing order. -/
def Spec.IsArgsort (argsort : (Fin 2 → ℝ) → Fin 2 → Fin 2) : Prop :=
  ∀ v, argsort v 0 ≠ argsort v 1 ∧ v (argsort v 0) ≤ v (argsort v 1)

/-- The total weight of the points inside a set. -/
noncomputable def Spec.weightIn {n : Nat} (w : Fin n → ℝ) (y : Fin n → Fin 2 → ℝ) (A : Set (Fin 2 → ℝ)) : ℝ :=
  open Classical in ∑ i, if y i ∈ A then w i else 0

/-! ### The ellipse -/

theorem ellipse_axes (l0 l1 k q0 q1 : ℝ) (h0 : 0 ≤ l0) (h1 : 0 ≤ l1) :
    (∃ s t, s ^ 2 + t ^ 2 ≤ 1 ∧ q0 = k * √l0 * s ∧ q1 = k * √l1 * t) ↔
      ∀ u0 u1 : ℝ, (u0 * q0 + u1 * q1) ^ 2 ≤ k ^ 2 * (l0 * u0 ^ 2 + l1 * u1 ^ 2) := by
  obtain ⟨r0, hr0⟩ : ∃ r, r = √l0 := ⟨_, rfl⟩
  obtain ⟨r1, hr1⟩ : ∃ r, r = √l1 := ⟨_, rfl⟩
  have e0 : l0 = r0 ^ 2 := by rw [hr0, Real.sq_sqrt h0]
  have e1 : l1 = r1 ^ 2 := by rw [hr1, Real.sq_sqrt h1]
  rw [← hr0, ← hr1, e0, e1]
  constructor
  · rintro ⟨s, t, hst, rfl, rfl⟩ u0 u1
    have h : (u0 * (k * r0 * s) + u1 * (k * r1 * t)) ^ 2 ≤
        (s ^ 2 + t ^ 2) * (k ^ 2 * (r0 ^ 2 * u0 ^ 2 + r1 ^ 2 * u1 ^ 2)) := by
      nlinarith [sq_nonneg (k * r0 * u0 * t - k * r1 * u1 * s)]
    have hn : 0 ≤ k ^ 2 * (r0 ^ 2 * u0 ^ 2 + r1 ^ 2 * u1 ^ 2) := by positivity
    nlinarith
  · intro h
    by_cases hk0 : k * r0 = 0
    · have hq0 : q0 = 0 := by
        have := h 1 0
        have hz : k ^ 2 * r0 ^ 2 = 0 := by rw [← mul_pow, hk0]; ring
        nlinarith
      by_cases hk1 : k * r1 = 0
      · have hq1 : q1 = 0 := by
          have := h 0 1
          have hz : k ^ 2 * r1 ^ 2 = 0 := by rw [← mul_pow, hk1]; ring
          nlinarith
        exact ⟨0, 0, by norm_num, by simp [hq0], by simp [hq1]⟩
      · refine ⟨0, q1 / (k * r1), ?_, by simp [hq0], by rw [mul_div_assoc', mul_div_cancel_left₀ _ hk1]⟩
        have := h 0 1
        rw [div_pow]
        have hp : 0 < (k * r1) ^ 2 := by positivity
        have : q1 ^ 2 / (k * r1) ^ 2 ≤ 1 := by
          rw [div_le_one hp]; nlinarith
        linarith
    · by_cases hk1 : k * r1 = 0
      · have hq1 : q1 = 0 := by
          have := h 0 1
          have hz : k ^ 2 * r1 ^ 2 = 0 := by rw [← mul_pow, hk1]; ring
          nlinarith
        refine ⟨q0 / (k * r0), 0, ?_, by rw [mul_div_assoc', mul_div_cancel_left₀ _ hk0], by simp [hq1]⟩
        have := h 1 0
        rw [div_pow]
        have hp : 0 < (k * r0) ^ 2 := by positivity
        have : q0 ^ 2 / (k * r0) ^ 2 ≤ 1 := by
          rw [div_le_one hp]; nlinarith
        linarith
      · refine ⟨q0 / (k * r0), q1 / (k * r1), ?_, by rw [mul_div_assoc', mul_div_cancel_left₀ _ hk0],
          by rw [mul_div_assoc', mul_div_cancel_left₀ _ hk1]⟩
        have hh := h (q0 / (k * r0) ^ 2) (q1 / (k * r1) ^ 2)
        obtain ⟨S, hS⟩ : ∃ S, S = (q0 / (k * r0)) ^ 2 + (q1 / (k * r1)) ^ 2 := ⟨_, rfl⟩
        have a1 : q0 / (k * r0) ^ 2 * q0 + q1 / (k * r1) ^ 2 * q1 = S := by
          rw [hS, div_pow, div_pow]; ring
        have a2 : k ^ 2 * (r0 ^ 2 * (q0 / (k * r0) ^ 2) ^ 2 + r1 ^ 2 * (q1 / (k * r1) ^ 2) ^ 2) = S := by
          have hk : k ≠ 0 := fun h => hk0 (by simp [h])
          have h0' : r0 ≠ 0 := fun h => hk0 (by simp [h])
          have h1' : r1 ≠ 0 := fun h => hk1 (by simp [h])
          rw [hS]; field_simp
        rw [a1, a2] at hh
        rw [← hS]
        have hS0 : 0 ≤ S := by rw [hS]; positivity
        by_contra hlt
        push Not at hlt
        nlinarith

/-- An orthonormal pair of vectors in the plane is a rotated pair, up to the sign of the second. -/
theorem orthonormal_pair {a b c d : ℝ} (h1 : a ^ 2 + b ^ 2 = 1) (h2 : c ^ 2 + d ^ 2 = 1)
    (h3 : a * c + b * d = 0) : c ^ 2 = b ^ 2 ∧ d ^ 2 = a ^ 2 ∧ c * d = -(a * b) := by
  have hc : c = -(b * (a * d - b * c)) := by linear_combination c * (-h1) + a * h3
  have hd : d = a * (a * d - b * c) := by linear_combination d * (-h1) + b * h3
  have hk : (a * d - b * c) ^ 2 = 1 := by
    linear_combination h1 + (a ^ 2 + b ^ 2) * h2 - (a * c + b * d) * h3
  obtain ⟨k, hke⟩ : ∃ k, k = a * d - b * c := ⟨_, rfl⟩
  rw [← hke] at hc hd hk
  refine ⟨?_, ?_, ?_⟩
  · rw [hc]; linear_combination b ^ 2 * hk
  · rw [hd]; linear_combination a ^ 2 * hk
  · rw [hc, hd]; linear_combination -(a * b) * hk

/-- The eigendecomposition, sorted, in coordinates. -/
theorem eig_coords {eigh : Matrix (Fin 2) (Fin 2) ℝ → (Fin 2 → ℝ) × Matrix (Fin 2) (Fin 2) ℝ}
    (he : Spec.IsEigh eigh) {argsort : (Fin 2 → ℝ) → Fin 2 → Fin 2} (ha : Spec.IsArgsort argsort)
    (C : Matrix (Fin 2) (Fin 2) ℝ) (hC : Cᵀ = C) :
    ∃ a b l0 l1 : ℝ, a ^ 2 + b ^ 2 = 1 ∧ l1 ≤ l0 ∧
      a = (eigh C).2 0 (argsort (eigh C).1 1) ∧ b = (eigh C).2 1 (argsort (eigh C).1 1) ∧
      l0 = (eigh C).1 (argsort (eigh C).1 1) ∧ l1 = (eigh C).1 (argsort (eigh C).1 0) ∧
      C 0 0 = l0 * a ^ 2 + l1 * b ^ 2 ∧ C 0 1 = (l0 - l1) * (a * b) ∧ C 1 0 = (l0 - l1) * (a * b) ∧
      C 1 1 = l0 * b ^ 2 + l1 * a ^ 2 := by
  obtain ⟨h1, h2⟩ := he C hC
  obtain ⟨h3, h4⟩ := ha (eigh C).1
  obtain ⟨l, hl⟩ : ∃ l, l = (eigh C).1 := ⟨_, rfl⟩
  obtain ⟨V, hV⟩ : ∃ V, V = (eigh C).2 := ⟨_, rfl⟩
  rw [← hl] at h2 h3 h4 ⊢
  rw [← hV] at h1 h2 ⊢
  have o00 := congrFun (congrFun h1 0) 0
  have o01 := congrFun (congrFun h1 0) 1
  have o11 := congrFun (congrFun h1 1) 1
  have c00 := congrFun (congrFun h2 0) 0
  have c01 := congrFun (congrFun h2 0) 1
  have c10 := congrFun (congrFun h2 1) 0
  have c11 := congrFun (congrFun h2 1) 1
  simp only [mul_apply, transpose_apply, Fin.sum_univ_two, one_apply, diagonal_apply] at o00 o01 o11 c00 c01 c10 c11
  norm_num at o00 o01 o11 c00 c01 c10 c11
  have hcase : (argsort l 0 = 0 ∧ argsort l 1 = 1) ∨ (argsort l 0 = 1 ∧ argsort l 1 = 0) := by
    revert h3
    generalize argsort l 0 = i
    generalize argsort l 1 = j
    revert i j; decide
  rcases hcase with ⟨e0, e1⟩ | ⟨e0, e1⟩
  · rw [e0, e1] at h4 ⊢
    obtain ⟨p1, p2, p3⟩ := orthonormal_pair (a := V 0 1) (b := V 1 1) (c := V 0 0) (d := V 1 0)
      (by linear_combination o11) (by linear_combination o00) (by linear_combination o01)
    refine ⟨V 0 1, V 1 1, l 1, l 0, by linear_combination o11, h4, rfl, rfl, rfl, rfl, ?_, ?_, ?_, ?_⟩
    · rw [c00]; linear_combination l 0 * p1
    · rw [c01]; linear_combination l 0 * p3
    · rw [c10]; linear_combination l 0 * p3
    · rw [c11]; linear_combination l 0 * p2
  · rw [e0, e1] at h4 ⊢
    obtain ⟨p1, p2, p3⟩ := orthonormal_pair (a := V 0 0) (b := V 1 0) (c := V 0 1) (d := V 1 1)
      (by linear_combination o00) (by linear_combination o11) (by linear_combination o01)
    refine ⟨V 0 0, V 1 0, l 0, l 1, by linear_combination o00, h4, rfl, rfl, rfl, rfl, ?_, ?_, ?_, ?_⟩
    · rw [c00]; linear_combination l 1 * p1
    · rw [c01]; linear_combination l 1 * p3
    · rw [c10]; linear_combination l 1 * p3
    · rw [c11]; linear_combination l 1 * p2

theorem arctan2_unit {a b : ℝ} (h : a ^ 2 + b ^ 2 = 1) :
    Real.cos (arctan2 b a) = a ∧ Real.sin (arctan2 b a) = b := by
  have hn : ‖(a + b * Complex.I : ℂ)‖ = 1 := by
    rw [Complex.norm_add_mul_I, h, Real.sqrt_one]
  have hz : (a + b * Complex.I : ℂ) ≠ 0 := by
    intro h0; rw [h0] at hn; simp at hn
  constructor
  · rw [arctan2, Complex.cos_arg hz, hn]; simp
  · rw [arctan2, Complex.sin_arg, hn]; simp

theorem quad2_expand (C : Matrix (Fin 2) (Fin 2) ℝ) (u : Fin 2 → ℝ) :
    Spec.quad2 C u = u 0 * C 0 0 * u 0 + u 0 * C 0 1 * u 1 + (u 1 * C 1 0 * u 0 + u 1 * C 1 1 * u 1) := by
  simp [Spec.quad2, Fin.sum_univ_two]

/-- Eigenvalues of a positive matrix. -/
theorem eig_nonneg {C : Matrix (Fin 2) (Fin 2) ℝ} {a b l0 l1 : ℝ} (hab : a ^ 2 + b ^ 2 = 1)
    (c00 : C 0 0 = l0 * a ^ 2 + l1 * b ^ 2) (c01 : C 0 1 = (l0 - l1) * (a * b))
    (c10 : C 1 0 = (l0 - l1) * (a * b)) (c11 : C 1 1 = l0 * b ^ 2 + l1 * a ^ 2)
    (hpos : ∀ u, 0 ≤ Spec.quad2 C u) : 0 ≤ l0 ∧ 0 ≤ l1 := by
  constructor
  · have := hpos ![a, b]
    rw [quad2_expand, c00, c01, c10, c11] at this
    simp only [cons_val_zero, cons_val_one] at this
    have e : a * (l0 * a ^ 2 + l1 * b ^ 2) * a + a * ((l0 - l1) * (a * b)) * b +
        (b * ((l0 - l1) * (a * b)) * a + b * (l0 * b ^ 2 + l1 * a ^ 2) * b) = l0 * (a ^ 2 + b ^ 2) ^ 2 := by ring
    rw [e, hab] at this
    linarith
  · have := hpos ![-b, a]
    rw [quad2_expand, c00, c01, c10, c11] at this
    simp only [cons_val_zero, cons_val_one] at this
    have e : -b * (l0 * a ^ 2 + l1 * b ^ 2) * -b + -b * ((l0 - l1) * (a * b)) * a +
        (a * ((l0 - l1) * (a * b)) * -b + a * (l0 * b ^ 2 + l1 * a ^ 2) * a) = l1 * (a ^ 2 + b ^ 2) ^ 2 := by ring
    rw [e, hab] at this
    linarith

/-- **C119, covariance ellipses.**  For every covariance matrix, positive or only nonnegative, and
whatever eigenvectors NumPy finds, the ellipse drawn by `plot_cov_ellipse` consists of exactly the points
that are at most `nstd` standard deviations away from `pos` in every direction.  Its width is the longer
axis. -/
theorem C119_ellipse {eigh : Matrix (Fin 2) (Fin 2) ℝ → (Fin 2 → ℝ) × Matrix (Fin 2) (Fin 2) ℝ}
    (he : Spec.IsEigh eigh) {argsort : (Fin 2 → ℝ) → Fin 2 → Fin 2} (ha : Spec.IsArgsort argsort)
    (C : Matrix (Fin 2) (Fin 2) ℝ) (hC : Cᵀ = C) (hpos : ∀ u, 0 ≤ Spec.quad2 C u)
    (pos : Fin 2 → ℝ) (nstd : ℝ) :
    ∃ width height angle, plotCovEllipse eigh argsort C pos nstd = .ellipse pos width height angle ∧
      Spec.ellipseRegion pos width height angle = Spec.withinStd C pos nstd ∧
      |height| ≤ |width| := by
  obtain ⟨a, b, l0, l1, hab, hle, rfl, rfl, rfl, rfl, c00, c01, c10, c11⟩ := eig_coords he ha C hC
  obtain ⟨n0, n1⟩ := eig_nonneg hab c00 c01 c10 c11 hpos
  obtain ⟨a, hae⟩ : ∃ a, a = (eigh C).2 0 (argsort (eigh C).1 1) := ⟨_, rfl⟩
  obtain ⟨b, hbe⟩ : ∃ b, b = (eigh C).2 1 (argsort (eigh C).1 1) := ⟨_, rfl⟩
  obtain ⟨l0, h0e⟩ : ∃ l, l = (eigh C).1 (argsort (eigh C).1 1) := ⟨_, rfl⟩
  obtain ⟨l1, h1e⟩ : ∃ l, l = (eigh C).1 (argsort (eigh C).1 0) := ⟨_, rfl⟩
  rw [← hae, ← hbe] at hab
  rw [← h0e, ← h1e] at hle
  rw [← h0e] at n0
  rw [← h1e] at n1
  rw [← hae, ← hbe, ← h0e, ← h1e] at c00 c01 c10 c11
  have hplot : plotCovEllipse eigh argsort C pos nstd = .ellipse pos (2 * nstd * √l0) (2 * nstd * √l1)
      (arctan2 b a * 180 / Real.pi) := by
    rw [h0e, h1e, hae, hbe]; rfl
  refine ⟨_, _, _, hplot, ?_, ?_⟩
  · obtain ⟨hcos, hsin⟩ := arctan2_unit hab
    have hang : arctan2 b a * 180 / Real.pi * Real.pi / 180 = arctan2 b a := by
      have := Real.pi_ne_zero
      field_simp
    ext p
    simp only [Spec.ellipseRegion, Spec.withinStd, Set.mem_ofPred_eq, hang, hcos, hsin]
    have hax := ellipse_axes l0 l1 nstd (a * (p 0 - pos 0) + b * (p 1 - pos 1))
      (-b * (p 0 - pos 0) + a * (p 1 - pos 1)) n0 n1
    constructor
    · rintro ⟨s, t, hst, e0, e1⟩ u
      have := hax.1 ⟨s, t, hst, by rw [e0, e1]; linear_combination nstd * √l0 * s * hab,
        by rw [e0, e1]; linear_combination nstd * √l1 * t * hab⟩ (a * u 0 + b * u 1) (-b * u 0 + a * u 1)
      rw [quad2_expand, c00, c01, c10, c11, Fin.sum_univ_two]
      have l : (a * u 0 + b * u 1) * (a * (p 0 - pos 0) + b * (p 1 - pos 1)) +
          (-b * u 0 + a * u 1) * (-b * (p 0 - pos 0) + a * (p 1 - pos 1)) =
          u 0 * (p 0 - pos 0) + u 1 * (p 1 - pos 1) := by
        linear_combination (u 0 * (p 0 - pos 0) + u 1 * (p 1 - pos 1)) * hab
      rw [l] at this
      refine this.trans (le_of_eq ?_)
      ring
    · intro h
      obtain ⟨s, t, hst, e0, e1⟩ := hax.2 (by
        intro v0 v1
        have := h ![a * v0 - b * v1, b * v0 + a * v1]
        rw [quad2_expand, c00, c01, c10, c11, Fin.sum_univ_two] at this
        simp only [cons_val_zero, cons_val_one] at this
        have l : (a * v0 - b * v1) * (p 0 - pos 0) + (b * v0 + a * v1) * (p 1 - pos 1) =
          v0 * (a * (p 0 - pos 0) + b * (p 1 - pos 1)) + v1 * (-b * (p 0 - pos 0) + a * (p 1 - pos 1)) := by
          ring
        rw [l] at this
        refine this.trans (le_of_eq ?_)
        have : (a * v0 - b * v1) * (l0 * a ^ 2 + l1 * b ^ 2) * (a * v0 - b * v1) +
            (a * v0 - b * v1) * ((l0 - l1) * (a * b)) * (b * v0 + a * v1) +
            ((b * v0 + a * v1) * ((l0 - l1) * (a * b)) * (a * v0 - b * v1) +
            (b * v0 + a * v1) * (l0 * b ^ 2 + l1 * a ^ 2) * (b * v0 + a * v1)) =
            (a ^ 2 + b ^ 2) ^ 2 * (l0 * v0 ^ 2 + l1 * v1 ^ 2) := by ring
        rw [this, hab]; ring)
      refine ⟨s, t, hst, ?_, ?_⟩
      · linear_combination a * e0 - b * e1 - (p 0 - pos 0) * hab
      · linear_combination b * e0 + a * e1 - (p 1 - pos 1) * hab
  · rw [abs_mul, abs_mul (2 * nstd) √l0]
    have h2 : √l1 ≤ √l0 := Real.sqrt_le_sqrt hle
    rw [abs_of_nonneg (Real.sqrt_nonneg l0), abs_of_nonneg (Real.sqrt_nonneg l1)]
    exact mul_le_mul_of_nonneg_left h2 (abs_nonneg _)

/-- The Cauchy-Schwarz inequality with weights. -/
theorem weighted_cs {q0 q1 t0 t1 l0 l1 v0 v1 k : ℝ} (n0 : 0 ≤ l0) (n1 : 0 ≤ l1) (p0 : 0 ≤ t0) (p1 : 0 ≤ t1)
    (g0 : q0 ^ 2 = l0 * t0) (g1 : q1 ^ 2 = l1 * t1) (hS : t0 + t1 ≤ k ^ 2) :
    (v0 * q0 + v1 * q1) ^ 2 ≤ k ^ 2 * (l0 * v0 ^ 2 + l1 * v1 ^ 2) := by
  have hA : 0 ≤ t1 * l0 * v0 ^ 2 := by positivity
  have hB : 0 ≤ t0 * l1 * v1 ^ 2 := by positivity
  have hprod : (2 * ((v0 * q0) * (v1 * q1))) ^ 2 = 4 * (t1 * l0 * v0 ^ 2) * (t0 * l1 * v1 ^ 2) := by
    have : (2 * ((v0 * q0) * (v1 * q1))) ^ 2 = 4 * v0 ^ 2 * v1 ^ 2 * (q0 ^ 2 * q1 ^ 2) := by ring
    rw [this, g0, g1]; ring
  have hx : 2 * ((v0 * q0) * (v1 * q1)) ≤ t1 * l0 * v0 ^ 2 + t0 * l1 * v1 ^ 2 := by
    refine (abs_le_of_sq_le_sq' ?_ (by positivity)).2
    rw [hprod]
    linarith [sq_nonneg (t1 * l0 * v0 ^ 2 - t0 * l1 * v1 ^ 2),
      show (t1 * l0 * v0 ^ 2 + t0 * l1 * v1 ^ 2) ^ 2 = (t1 * l0 * v0 ^ 2 - t0 * l1 * v1 ^ 2) ^ 2 +
        4 * (t1 * l0 * v0 ^ 2) * (t0 * l1 * v1 ^ 2) by ring]
  have hnn : 0 ≤ l0 * v0 ^ 2 + l1 * v1 ^ 2 := by positivity
  calc (v0 * q0 + v1 * q1) ^ 2 = v0 ^ 2 * q0 ^ 2 + v1 ^ 2 * q1 ^ 2 + 2 * ((v0 * q0) * (v1 * q1)) := by ring
    _ ≤ v0 ^ 2 * (l0 * t0) + v1 ^ 2 * (l1 * t1) + (t1 * l0 * v0 ^ 2 + t0 * l1 * v1 ^ 2) := by
        rw [g0, g1]; linarith
    _ = (t0 + t1) * (l0 * v0 ^ 2 + l1 * v1 ^ 2) := by ring
    _ ≤ k ^ 2 * (l0 * v0 ^ 2 + l1 * v1 ^ 2) := mul_le_mul_of_nonneg_right hS hnn

/-- Chebyshev's inequality in the plane. -/
theorem chebyshev_plane {n : Nat} (w : Fin n → ℝ) (hw : ∀ i, 0 ≤ w i) (h1 : ∑ i, w i = 1)
    (y : Fin n → Fin 2 → ℝ) (m : Fin 2 → ℝ) (C : Matrix (Fin 2) (Fin 2) ℝ)
    (hcov : ∀ a b, C a b = ∑ i, w i * (y i a - m a) * (y i b - m b))
    {eigh : Matrix (Fin 2) (Fin 2) ℝ → (Fin 2 → ℝ) × Matrix (Fin 2) (Fin 2) ℝ}
    (he : Spec.IsEigh eigh) {argsort : (Fin 2 → ℝ) → Fin 2 → Fin 2} (ha : Spec.IsArgsort argsort)
    (k : ℝ) (hk : k ≠ 0) :
    (∀ u, 0 ≤ Spec.quad2 C u) ∧ Cᵀ = C ∧ 1 - 2 / k ^ 2 ≤ Spec.weightIn w y (Spec.withinStd C m k) := by
  classical
  have hq : ∀ u : Fin 2 → ℝ, Spec.quad2 C u = ∑ i, w i * (∑ a, u a * (y i a - m a)) ^ 2 := by
    intro u
    rw [quad2_expand, hcov, hcov, hcov, hcov]
    simp only [Finset.mul_sum, Finset.sum_mul, ← Finset.sum_add_distrib, Fin.sum_univ_two]
    exact Finset.sum_congr rfl fun i _ => by ring
  have hpos : ∀ u, 0 ≤ Spec.quad2 C u := fun u => by
    rw [hq]; exact Finset.sum_nonneg fun i _ => mul_nonneg (hw i) (sq_nonneg _)
  have hsym : Cᵀ = C := by
    ext a b
    rw [transpose_apply, hcov, hcov]
    exact Finset.sum_congr rfl fun i _ => by ring
  refine ⟨hpos, hsym, ?_⟩
  obtain ⟨a, b, l0, l1, hab, hle, -, -, -, -, c00, c01, c10, c11⟩ := eig_coords he ha C hsym
  obtain ⟨n0, n1⟩ := eig_nonneg hab c00 c01 c10 c11 hpos
  obtain ⟨q0, hq0⟩ : ∃ q : Fin n → ℝ, q = fun i => a * (y i 0 - m 0) + b * (y i 1 - m 1) := ⟨_, rfl⟩
  obtain ⟨q1, hq1⟩ : ∃ q : Fin n → ℝ, q = fun i => -b * (y i 0 - m 0) + a * (y i 1 - m 1) := ⟨_, rfl⟩
  have s0 : ∑ i, w i * q0 i ^ 2 = l0 := by
    have := hq ![a, b]
    rw [quad2_expand, c00, c01, c10, c11] at this
    simp only [cons_val_zero, cons_val_one, Fin.sum_univ_two] at this
    rw [hq0, ← this]
    linear_combination (l0 * (a ^ 2 + b ^ 2) + l0) * hab
  have s1 : ∑ i, w i * q1 i ^ 2 = l1 := by
    have := hq ![-b, a]
    rw [quad2_expand, c00, c01, c10, c11] at this
    simp only [cons_val_zero, cons_val_one, Fin.sum_univ_two] at this
    rw [hq1, ← this]
    linear_combination (l1 * (a ^ 2 + b ^ 2) + l1) * hab
  -- a point of positive weight is inside when its scaled distance is at most `k`
  have hin : ∀ i, 0 < w i → q0 i ^ 2 / l0 + q1 i ^ 2 / l1 ≤ k ^ 2 →
      y i ∈ Spec.withinStd C m k := by
    intro i hi hS u
    have hz : ∀ (q : Fin n → ℝ) (l : ℝ), ∑ i, w i * q i ^ 2 = l → l = 0 → q i = 0 := by
      intro q l hs hl
      rw [hl, Finset.sum_eq_zero_iff_of_nonneg fun j _ => mul_nonneg (hw j) (sq_nonneg _)] at hs
      have := hs i (Finset.mem_univ i)
      rcases mul_eq_zero.1 this with h | h
      · exact absurd h hi.ne'
      · exact pow_eq_zero_iff (two_ne_zero) |>.1 h
    have hu : ∀ (q : Fin n → ℝ) (l : ℝ), 0 ≤ l → ∑ i, w i * q i ^ 2 = l → q i ^ 2 = l * (q i ^ 2 / l) := by
      intro q l hl hs
      rcases hl.eq_or_lt with h | h
      · rw [hz q l hs h.symm, ← h]; simp
      · field_simp
    have g0 := hu q0 l0 n0 s0
    have g1 := hu q1 l1 n1 s1
    obtain ⟨t0, ht0⟩ : ∃ t, t = q0 i ^ 2 / l0 := ⟨_, rfl⟩
    obtain ⟨t1, ht1⟩ : ∃ t, t = q1 i ^ 2 / l1 := ⟨_, rfl⟩
    have p0 : 0 ≤ t0 := by rw [ht0]; positivity
    have p1 : 0 ≤ t1 := by rw [ht1]; positivity
    rw [← ht0, ← ht1] at hS
    rw [← ht0] at g0
    rw [← ht1] at g1
    have hrot : ∑ j, u j * (y i j - m j) = (a * u 0 + b * u 1) * q0 i + (-b * u 0 + a * u 1) * q1 i := by
      rw [hq0, hq1, Fin.sum_univ_two]
      linear_combination -(u 0 * (y i 0 - m 0) + u 1 * (y i 1 - m 1)) * hab
    have hC : Spec.quad2 C u = l0 * (a * u 0 + b * u 1) ^ 2 + l1 * (-b * u 0 + a * u 1) ^ 2 := by
      rw [quad2_expand, c00, c01, c10, c11]; ring
    rw [hrot, hC]
    obtain ⟨v0, hv0⟩ : ∃ v, v = a * u 0 + b * u 1 := ⟨_, rfl⟩
    obtain ⟨v1, hv1⟩ : ∃ v, v = -b * u 0 + a * u 1 := ⟨_, rfl⟩
    rw [← hv0, ← hv1]
    exact weighted_cs n0 n1 p0 p1 g0 g1 hS
  have hout : ∑ i, (if y i ∈ Spec.withinStd C m k then 0 else w i) * k ^ 2 ≤ 2 := by
    calc ∑ i, (if y i ∈ Spec.withinStd C m k then 0 else w i) * k ^ 2
        ≤ ∑ i, w i * (q0 i ^ 2 / l0 + q1 i ^ 2 / l1) := by
          refine Finset.sum_le_sum fun i _ => ?_
          have hS : 0 ≤ q0 i ^ 2 / l0 + q1 i ^ 2 / l1 := by positivity
          split_ifs with h
          · rw [zero_mul]; exact mul_nonneg (hw i) hS
          · rcases (hw i).eq_or_lt with h0 | h0
            · rw [← h0]; simp
            · refine mul_le_mul_of_nonneg_left ?_ h0.le
              by_contra hlt
              exact h (hin i h0 (not_le.1 hlt).le)
      _ = (∑ i, w i * q0 i ^ 2) / l0 + (∑ i, w i * q1 i ^ 2) / l1 := by
          rw [Finset.sum_div, Finset.sum_div, ← Finset.sum_add_distrib]
          exact Finset.sum_congr rfl fun i _ => by ring
      _ ≤ 2 := by
          rw [s0, s1]
          linarith [div_self_le_one l0, div_self_le_one l1]
  have hsplit : Spec.weightIn w y (Spec.withinStd C m k) +
      ∑ i, (if y i ∈ Spec.withinStd C m k then 0 else w i) = 1 := by
    rw [Spec.weightIn, ← Finset.sum_add_distrib, ← h1]
    exact Finset.sum_congr rfl fun i _ => by split_ifs <;> simp_all
  rw [← Finset.sum_mul] at hout
  have hk2 : 0 < k ^ 2 := by positivity
  have := (le_div_iff₀ hk2).2 hout
  linarith

/-! ### Figures -/

/-- The plotted coordinates of a particle. -/
noncomputable def Spec.onAxes {d : Nat} (v : Fin d → ℝ) (a b : Fin d) : Fin 2 → ℝ := ![v a * √2, v b * √2]

theorem getD_ofFn {d : Nat} (v : Fin d → ℝ) (a : Fin d) : (List.ofFn v).getD a 0 = v a := by
  simp [List.getD]

theorem plot_marks {d n : Nat} (label : String) (x : Fin n → Fin d → ℝ) (a b : Fin d) :
    plotRebitModelparams label d (some (List.ofFn fun i => List.ofFn (x i))) (a, b) =
      .ok [.marks label (List.ofFn fun i => Spec.onAxes (x i) a b)] := by
  have h : (a : Nat) < d ∧ (b : Nat) < d := ⟨a.2, b.2⟩
  simp only [plotRebitModelparams, if_pos h, List.map_ofFn]
  congr 4
  funext i
  simp only [Function.comp_apply, getD_ofFn, Spec.onAxes]

/-- **C119, posterior plots.**  With a true state given as an array of rows, `plot_rebit_posterior`
succeeds for the method `'cov'`; it marks every particle, and its ellipse is centred at the marked
posterior mean and holds at least `1 - 2/n_std²` of the posterior weight, `7/9` by default. -/
theorem C119_posterior_partial {n d : Nat}
    {eigh : Matrix (Fin 2) (Fin 2) ℝ → (Fin 2 → ℝ) × Matrix (Fin 2) (Fin 2) ℝ}
    (he : Spec.IsEigh eigh) {argsort : (Fin 2 → ℝ) → Fin 2 → Fin 2} (ha : Spec.IsArgsort argsort)
    (hull : List ℝ → List (Fin 2 → ℝ) → Except PyErr (List (List (Fin 2 → ℝ)) × List (Fin 2 → ℝ)))
    (c : RebitCloud n d) (hw : ∀ i, 0 ≤ c.w i) (h1 : ∑ i, c.w i = 1) (hlab : c.basis.labels.length = d)
    (prior : Option (List ℝ)) (truth : List (List ℝ)) (nStd : ℝ) (hn : nStd ≠ 0) (a b : Fin d) :
    ∃ fig width height angle,
      plotRebitPosterior eigh argsort hull c (prior.map .ok) (some truth) nStd (a, b) (some "cov") =
        (fig, .ok ()) ∧
      .marks "Posterior" (List.ofFn fun i => Spec.onAxes (c.x i) a b) ∈ fig ∧
      .marks "Posterior Mean" [Spec.onAxes (pmean c.w c.x) a b] ∈ fig ∧
      .ellipse (Spec.onAxes (pmean c.w c.x) a b) width height angle ∈ fig ∧
      1 - 2 / nStd ^ 2 ≤ Spec.weightIn c.w (fun i => Spec.onAxes (c.x i) a b)
        (Spec.ellipseRegion (Spec.onAxes (pmean c.w c.x) a b) width height angle) := by
  have hab : (a : Nat) < d ∧ (b : Nat) < d := ⟨a.2, b.2⟩
  obtain ⟨C, hCe⟩ : ∃ C : Matrix (Fin 2) (Fin 2) ℝ, C = Matrix.of fun i j =>
    2 * pcov c.w c.x ((![a, b] : Fin 2 → Fin d) i) ((![a, b] : Fin 2 → Fin d) j) := ⟨_, rfl⟩
  have hm : (fun i => pmean c.w c.x ((![a, b] : Fin 2 → Fin d) i) * √2) =
      Spec.onAxes (pmean c.w c.x) a b := by
    funext i; fin_cases i <;> rfl
  have hx : ∀ i k, Spec.onAxes (c.x i) a b k = c.x i ((![a, b] : Fin 2 → Fin d) k) * √2 := by
    intro i k; fin_cases k <;> rfl
  have hcov : ∀ k l, C k l = ∑ i, c.w i * (Spec.onAxes (c.x i) a b k - Spec.onAxes (pmean c.w c.x) a b k) *
      (Spec.onAxes (c.x i) a b l - Spec.onAxes (pmean c.w c.x) a b l) := by
    intro k l
    rw [hCe, of_apply, C13_cov_is_centred_moment c.w c.x h1, Finset.mul_sum]
    refine Finset.sum_congr rfl fun i _ => ?_
    rw [← hm, hx, hx]
    simp only [pmean]
    have h2 : √2 * √2 = (2 : ℝ) := Real.mul_self_sqrt (by norm_num)
    rw [← sub_mul, ← sub_mul]
    linear_combination -(c.w i * (c.x i ((![a, b] : Fin 2 → Fin d) k) - ∑ k_1, c.w k_1 * c.x k_1 ((![a, b] : Fin 2 → Fin d) k)) *
      (c.x i ((![a, b] : Fin 2 → Fin d) l) - ∑ k_1, c.w k_1 * c.x k_1 ((![a, b] : Fin 2 → Fin d) l))) * h2
  obtain ⟨g1, g2, g3⟩ := chebyshev_plane c.w hw h1 (fun i => Spec.onAxes (c.x i) a b)
    (Spec.onAxes (pmean c.w c.x) a b) C hcov he ha nStd hn
  obtain ⟨width, height, angle, e1, e2, -⟩ := C119_ellipse he ha C g2 g1
    (Spec.onAxes (pmean c.w c.x) a b) nStd
  have hdec : ∃ l, plotDecorateRebits (some c.basis) (a, b) = .ok l := by
    have la : (a : Nat) < c.basis.labels.length := by omega
    have lb : (b : Nat) < c.basis.labels.length := by omega
    simp only [plotDecorateRebits, List.getElem?_eq_getElem la, List.getElem?_eq_getElem lb]
    exact ⟨_, rfl⟩
  obtain ⟨dec, hdec⟩ := hdec
  have hpost := plot_marks "Posterior" c.x a b
  have hmean := plot_marks (n := 1) "Posterior Mean" (fun _ => pmean c.w c.x) a b
  simp only [List.ofFn_succ, List.ofFn_zero] at hmean
  have htruth : ∃ l, plotRebitModelparams "True" d (some truth) (a, b) = .ok l := by
    simp only [plotRebitModelparams, if_pos hab]; exact ⟨_, rfl⟩
  obtain ⟨tr, htr⟩ := htruth
  have hprior : ∃ l, plotMeanMark "Prior Mean" d (prior.map .ok) (a, b) = .ok l := by
    cases prior with
    | none => exact ⟨_, rfl⟩
    | some m => simp only [plotMeanMark, Option.map_some, plotRebitModelparams, if_pos hab]; exact ⟨_, rfl⟩
  obtain ⟨pr, hpr⟩ := hprior
  have hfig : plotRebitPosterior eigh argsort hull c (prior.map .ok) (some truth) nStd (a, b) (some "cov") =
      (.marks "Posterior" (List.ofFn fun i => Spec.onAxes (c.x i) a b) :: (tr ++ (pr ++
        (.marks "Posterior Mean" [Spec.onAxes (pmean c.w c.x) a b] ::
          .ellipse (Spec.onAxes (pmean c.w c.x) a b) width height angle :: (dec ++ [])))), .ok ()) := by
    simp only [plotRebitPosterior, hpost, htr, hpr, hmean, hdec, if_true, dif_pos hab, Fin.eta]
    rw [hm, ← hCe, e1]
    rfl
  refine ⟨_, width, height, angle, hfig, by simp, by simp, by simp, ?_⟩
  rw [e2]
  exact g3

/-- **C119, hull plots.**  With the method `'hull'` the polygon drawn spans more than the demanded
probability of the plotted particles. -/
theorem C119_hull_partial {n d : Nat}
    (eigh : Matrix (Fin 2) (Fin 2) ℝ → (Fin 2 → ℝ) × Matrix (Fin 2) (Fin 2) ℝ)
    (argsort : (Fin 2 → ℝ) → Fin 2 → Fin 2)
    (ch : List (Fin 2 → ℝ) → Except PyErr HullResult) (hch : Spec.IsHull ch)
    (c : RebitCloud n d) (hw : ∀ i, 0 ≤ c.w i) (hlab : c.basis.labels.length = d)
    (idSort : List Nat) (hs : Spec.HeaviestFirst c.w idSort) (level : ℝ) (hl0 : 0 ≤ level)
    (hl1 : level < ∑ i, c.w i) (a b : Fin d)
    (hok : ∀ r, credRegion (List.ofFn c.w) (List.ofFn fun i => ![atAxis (c.x i) a, atAxis (c.x i) b]) idSort
      level = .ok r → ∃ h, ch r.1 = .ok h)
    (prior : Option (List ℝ)) (truth : List (List ℝ)) (nStd : ℝ) :
    ∃ fig pts,
      plotRebitPosterior eigh argsort (fun w mps => regionEstHull ch w mps idSort level) c (prior.map .ok)
        (some truth) nStd (a, b) (some "hull") = (fig, .ok ()) ∧
      .marks "Posterior" (List.ofFn fun i => Spec.onAxes (c.x i) a b) ∈ fig ∧ .polygon pts ∈ fig ∧
      (∀ p ∈ pts, ∃ i, p = Spec.onAxes (c.x i) a b) ∧
      level < Spec.weightIn c.w (fun i => Spec.onAxes (c.x i) a b) (convexHull ℝ {p | p ∈ pts}) := by
  have hab : (a : Nat) < d ∧ (b : Nat) < d := ⟨a.2, b.2⟩
  obtain ⟨faces, vertices, e1, e2, -, e3, -⟩ := C101_hull ch hch c.w
    (fun i => ![atAxis (c.x i) a, atAxis (c.x i) b]) hw idSort hs level hl0 hl1 hok
  have hat : ∀ (v : Fin d → ℝ) (a : Fin d), atAxis v a = v a := fun v a => by simp [atAxis]
  have hsc : ∀ i, (fun k => (![atAxis (c.x i) a, atAxis (c.x i) b] : Fin 2 → ℝ) k * √2) =
      Spec.onAxes (c.x i) a b := by
    intro i; funext k; fin_cases k <;> simp [hat, Spec.onAxes]
  have hdec : ∃ l, plotDecorateRebits (some c.basis) (a, b) = .ok l := by
    have la : (a : Nat) < c.basis.labels.length := by omega
    have lb : (b : Nat) < c.basis.labels.length := by omega
    simp only [plotDecorateRebits, List.getElem?_eq_getElem la, List.getElem?_eq_getElem lb]
    exact ⟨_, rfl⟩
  obtain ⟨dec, hdec⟩ := hdec
  have hpost := plot_marks "Posterior" c.x a b
  have hmean := plot_marks (n := 1) "Posterior Mean" (fun _ => pmean c.w c.x) a b
  simp only [List.ofFn_succ, List.ofFn_zero] at hmean
  have htruth : ∃ l, plotRebitModelparams "True" d (some truth) (a, b) = .ok l := by
    simp only [plotRebitModelparams, if_pos hab]; exact ⟨_, rfl⟩
  obtain ⟨tr, htr⟩ := htruth
  have hprior : ∃ l, plotMeanMark "Prior Mean" d (prior.map .ok) (a, b) = .ok l := by
    cases prior with
    | none => exact ⟨_, rfl⟩
    | some m => simp only [plotMeanMark, Option.map_some, plotRebitModelparams, if_pos hab]; exact ⟨_, rfl⟩
  obtain ⟨pr, hpr⟩ := hprior
  have hne : (some "hull" : Option String) ≠ some "cov" := by decide
  have hfig : plotRebitPosterior eigh argsort (fun w mps => regionEstHull ch w mps idSort level) c
      (prior.map .ok) (some truth) nStd (a, b) (some "hull") =
      (.marks "Posterior" (List.ofFn fun i => Spec.onAxes (c.x i) a b) :: (tr ++ (pr ++
        (.marks "Posterior Mean" [Spec.onAxes (pmean c.w c.x) a b] ::
          .polygon (vertices.map fun v i => v i * √2) :: (dec ++ [])))), .ok ()) := by
    simp only [plotRebitPosterior, hpost, htr, hpr, hmean, hdec, if_neg hne, if_true, e1]
    rfl
  refine ⟨_, vertices.map fun v i => v i * √2, hfig, by simp, by simp, ?_, ?_⟩
  · intro p hp
    obtain ⟨v, hv, rfl⟩ := List.mem_map.1 hp
    obtain ⟨i, rfl⟩ := e2 v hv
    exact ⟨i, hsc i⟩
  · refine lt_of_lt_of_le e3 ?_
    classical
    unfold Spec.covered Spec.weightIn
    refine Finset.sum_le_sum fun i _ => ?_
    by_cases hin : ![atAxis (c.x i) a, atAxis (c.x i) b] ∈ convexHull ℝ {p | p ∈ vertices}
    · rw [if_pos hin, if_pos]
      have himg : (fun v : Fin 2 → ℝ => √2 • v) '' {p | p ∈ vertices} =
          {p | p ∈ vertices.map fun v i => v i * √2} := by
        ext p
        simp only [Set.mem_image, Set.mem_ofPred_eq, List.mem_map]
        have : ∀ v : Fin 2 → ℝ, √2 • v = fun i => v i * √2 := fun v => by
          funext i; simp [mul_comm]
        simp only [this]
      have hl := (LinearMap.lsmul ℝ (Fin 2 → ℝ) √2).image_convexHull {p | p ∈ vertices}
      have hmem : √2 • (![atAxis (c.x i) a, atAxis (c.x i) b] : Fin 2 → ℝ) ∈
          (LinearMap.lsmul ℝ (Fin 2 → ℝ) √2) '' convexHull ℝ {p | p ∈ vertices} := ⟨_, hin, rfl⟩
      rw [hl] at hmem
      have hset : (LinearMap.lsmul ℝ (Fin 2 → ℝ) √2) '' {p | p ∈ vertices} =
          {p | p ∈ vertices.map fun v i => v i * √2} := himg
      rw [hset] at hmem
      have : √2 • (![atAxis (c.x i) a, atAxis (c.x i) b] : Fin 2 → ℝ) = Spec.onAxes (c.x i) a b := by
        rw [← hsc i]; funext k; simp [mul_comm]
      change Spec.onAxes (c.x i) a b ∈ _
      rw [← this]
      exact hmem
    · rw [if_neg hin]
      split_ifs
      · exact hw i
      · exact le_rfl

/-- **C119, the true state is required.**  Without a `true_state`, the default, `plot_rebit_posterior`
raises `TypeError` after marking the particles, whatever else it is given. -/
theorem C119_default_true_state_raises {n d : Nat}
    (eigh : Matrix (Fin 2) (Fin 2) ℝ → (Fin 2 → ℝ) × Matrix (Fin 2) (Fin 2) ℝ)
    (argsort : (Fin 2 → ℝ) → Fin 2 → Fin 2)
    (hull : List ℝ → List (Fin 2 → ℝ) → Except PyErr (List (List (Fin 2 → ℝ)) × List (Fin 2 → ℝ)))
    (c : RebitCloud n d) (prior : Option (Except PyErr (List ℝ))) (nStd : ℝ) (a b : Fin d)
    (method : Option String) :
    plotRebitPosterior eigh argsort hull c prior none nStd (a, b) method =
      ([.marks "Posterior" (List.ofFn fun i => Spec.onAxes (c.x i) a b)], .error .typeError) := by
  have hpost := plot_marks "Posterior" c.x a b
  simp only [plotRebitPosterior, hpost]
  rfl

/-! ### States -/

/-- `tr(σ ρ)`, the expectation value of a Pauli matrix. -/
noncomputable def Spec.expect (k : Fin 4) (ρ : Matrix (Fin 2) (Fin 2) ℂ) : ℝ := (trace (pauliMat k * ρ)).re

theorem pauli_herm (k : Fin 4) : (pauliMat k)ᴴ = pauliMat k := by
  fin_cases k <;> ext i j <;> fin_cases i <;> fin_cases j <;> simp [pauliMat]

theorem scaled_param {M ρ : Matrix (Fin 2) (Fin 2) ℂ} {k : Fin 4}
    (h : M = (1 / (Real.sqrt 2 : ℂ)) • pauliMat k) : (trace (Mᴴ * ρ)).re * √2 = Spec.expect k ρ := by
  rw [h, conjTranspose_smul, pauli_herm, smul_mul, trace_smul, Spec.expect]
  have : (star (1 / (Real.sqrt 2 : ℂ))) = ((1 / √2 : ℝ) : ℂ) := by
    simp
  rw [this, smul_eq_mul, Complex.re_ofReal_mul]
  have h2 : √2 ≠ 0 := by positivity
  field_simp

theorem expect_x (ρ : Matrix (Fin 2) (Fin 2) ℂ) : Spec.expect 1 ρ = (ρ 0 1).re + (ρ 1 0).re := by
  rw [Spec.expect, trace_fin_two, mul_apply, mul_apply, Fin.sum_univ_two, Fin.sum_univ_two]
  simp [pauliMat, add_comm]

theorem expect_y (ρ : Matrix (Fin 2) (Fin 2) ℂ) : Spec.expect 2 ρ = (ρ 1 0).im - (ρ 0 1).im := by
  rw [Spec.expect, trace_fin_two, mul_apply, mul_apply, Fin.sum_univ_two, Fin.sum_univ_two]
  simp [pauliMat, sub_eq_add_neg]

theorem expect_z (ρ : Matrix (Fin 2) (Fin 2) ℂ) : Spec.expect 3 ρ = (ρ 0 0).re - (ρ 1 1).re := by
  rw [Spec.expect, trace_fin_two, mul_apply, mul_apply, Fin.sum_univ_two, Fin.sum_univ_two]
  simp [pauliMat, sub_eq_add_neg]

/-- **C119, states in the Pauli basis.**  The plot shows the expectation values of the Pauli matrices
selected: axes `(1, 3)` show X and Z. -/
theorem C119_states (ρ : Plane) (label : String) (a b : Fin 4) :
    ∃ t x, pauliBasis 1 = .ok t ∧ stateToModelparams t 2 ρ = .ok x ∧
      plotRebitModelparams label 4 (some [x]) (a, b) =
        .ok [.marks label [![Spec.expect a (Spec.mat 2 ρ), Spec.expect b (Spec.mat 2 ρ)]]] ∧
      plotDecorateRebits (some t) (a, b) = .ok [.axisLabels
        ("$\\langle\\!\\langle " ++ ["𝟙", "\\sigma_x", "\\sigma_y", "\\sigma_z"].get a ++
          " | \\rho \\rangle\\!\\rangle$")
        ("$\\langle\\!\\langle " ++ ["𝟙", "\\sigma_x", "\\sigma_y", "\\sigma_z"].get b ++
          " | \\rho \\rangle\\!\\rangle$"), .circle (fun _ => 0) 1] := by
  obtain ⟨t, h1, h2, -, h4, -, h6⟩ := C40_pauli 1 one_pos
  obtain ⟨h6, h7⟩ := h6 rfl
  obtain ⟨x, g1, g2, g3⟩ := C40_params_of_state t ρ
  have hl : t.data.length = 4 := h4.len
  have hside : t.side = 2 := h2
  refine ⟨t, x, h1, by rw [← hside]; exact g1, ?_, ?_⟩
  · have hab : (a : Nat) < 4 ∧ (b : Nat) < 4 := ⟨a.2, b.2⟩
    simp only [plotRebitModelparams, if_pos hab, List.map_cons, List.map_nil]
    have hget : ∀ k : Fin 4, x.getD k 0 * √2 = Spec.expect k (Spec.mat 2 ρ) := by
      intro k
      have hk : (k : Nat) < t.data.length := by omega
      have hk' : (k : Nat) < x.length := by omega
      rw [List.getD_eq_getElem _ _ hk', g3 k hk]
      have hm := h7 k hk
      rw [hside]
      exact scaled_param hm
    rw [hget, hget]
  · simp only [plotDecorateRebits, h6]
    fin_cases a <;> fin_cases b <;> rfl

/-- **C119, states lie inside the circle.**  For every density operator of a qubit, the expectation
values of any two different Pauli matrices lie in the unit disc drawn by `plot_decorate_rebits`. -/
theorem C119_inside_circle (ρ : Matrix (Fin 2) (Fin 2) ℂ) (hρ : ρ.PosSemidef) (htr : trace ρ = 1)
    (a b : Fin 4) (ha : a ≠ 0) (hb : b ≠ 0) (hab : a ≠ b) :
    Spec.expect a ρ ^ 2 + Spec.expect b ρ ^ 2 ≤ 1 := by
  have hdet := hρ.det_nonneg
  have hh : ρ 1 0 = star (ρ 0 1) := by
    have := hρ.1.apply 0 1
    rw [← this, star_star]
  have h00 : (ρ 0 0).im = 0 := by
    have := hρ.1.apply 0 0
    have := congrArg Complex.im this
    simp at this; linarith
  have h11 : (ρ 1 1).im = 0 := by
    have := hρ.1.apply 1 1
    have := congrArg Complex.im this
    simp at this; linarith
  rw [det_fin_two, hh] at hdet
  have hd := (Complex.le_def.1 hdet).1
  simp [h00, h11] at hd
  have ht := congrArg Complex.re htr
  simp [trace_fin_two] at ht
  have hall : Spec.expect 1 ρ ^ 2 + Spec.expect 2 ρ ^ 2 + Spec.expect 3 ρ ^ 2 ≤ 1 := by
    rw [expect_x, expect_y, expect_z, hh]
    simp only [RCLike.star_def, Complex.conj_re, Complex.conj_im]
    nlinarith
  have h1 := sq_nonneg (Spec.expect 1 ρ)
  have h2 := sq_nonneg (Spec.expect 2 ρ)
  have h3 := sq_nonneg (Spec.expect 3 ρ)
  fin_cases a <;> fin_cases b <;> simp_all <;> linarith

/-- **C119, the default axes and the Pauli basis.**  In the Pauli basis the default axes show X and Y
instead of X and Z: every rebit (a state with real entries) is drawn on one line, and the two states of
the computational basis are drawn on top of each other. -/
theorem C119_default_axes_hide_z :
    (∀ ρ : Plane, (∀ i j, (ρ i j).im = 0) → ρ 0 1 = ρ 1 0 → ∃ t x, pauliBasis 1 = .ok t ∧
      stateToModelparams t 2 ρ = .ok x ∧ ∃ p, plotRebitModelparams "" 4 (some [x]) (1, 2) =
        .ok [.marks "" [p]] ∧ p 1 = 0) ∧
    ∃ t x0 x1, pauliBasis 1 = .ok t ∧
      stateToModelparams t 2 (fun i j => if i = 0 ∧ j = 0 then 1 else 0) = .ok x0 ∧
      stateToModelparams t 2 (fun i j => if i = 1 ∧ j = 1 then 1 else 0) = .ok x1 ∧
      plotRebitModelparams "" 4 (some [x0]) (1, 2) = plotRebitModelparams "" 4 (some [x1]) (1, 2) ∧
      plotRebitModelparams "" 4 (some [x0]) (1, 3) ≠ plotRebitModelparams "" 4 (some [x1]) (1, 3) := by
  constructor
  · intro ρ him hsym
    obtain ⟨t, x, h1, h2, h3, -⟩ := C119_states ρ "" 1 2
    refine ⟨t, x, h1, h2, _, h3, ?_⟩
    simp [expect_y, Spec.mat, him]
  · obtain ⟨t, x0, h1, h2, h3, -⟩ := C119_states (fun i j => if i = 0 ∧ j = 0 then 1 else 0) "" 1 2
    obtain ⟨t', x1, h1', h2', h3', -⟩ := C119_states (fun i j => if i = 1 ∧ j = 1 then 1 else 0) "" 1 2
    obtain ⟨t3, x2, g1, g2, g3, -⟩ := C119_states (fun i j => if i = 0 ∧ j = 0 then 1 else 0) "" 1 3
    obtain ⟨t4, x3, g1', g2', g3', -⟩ := C119_states (fun i j => if i = 1 ∧ j = 1 then 1 else 0) "" 1 3
    rw [h1] at h1' g1 g1'
    cases h1'; cases g1; cases g1'
    rw [h2] at g2
    rw [h2'] at g2'
    cases g2; cases g2'
    refine ⟨t, x0, x1, h1, h2, h2', ?_, ?_⟩
    · refine h3.trans (Eq.trans ?_ h3'.symm)
      simp [expect_x, expect_y, Spec.mat]
    · intro h
      have h' := g3.symm.trans (h.trans g3')
      simp [expect_x, expect_z, Spec.mat] at h'
      norm_num at h'

/-- **C119, the default axes and the Gell-Mann basis.**  In `gell_mann_basis(2)` the default axes show Z
and X. -/
theorem C119_gell_mann (ρ : Plane) (label : String) :
    ∃ t x, gellMannBasis 2 = .ok t ∧ stateToModelparams t 2 ρ = .ok x ∧
      plotRebitModelparams label 4 (some [x]) (1, 2) =
        .ok [.marks label [![Spec.expect 3 (Spec.mat 2 ρ), Spec.expect 1 (Spec.mat 2 ρ)]]] := by
  obtain ⟨t, h1, h2, -, -, -, h4⟩ := C40_gell_mann 2 two_pos
  obtain ⟨e1, e2⟩ := C40_gell_mann_elements 2 t h1
  obtain ⟨x, g1, g2, g3⟩ := C40_params_of_state t ρ
  have hl : t.data.length = 4 := h4.len
  refine ⟨t, x, h1, by rw [← h2]; exact g1, ?_⟩
  have hab : (1 : Nat) < 4 ∧ (2 : Nat) < 4 := by decide
  simp only [plotRebitModelparams, if_pos hab, List.map_cons, List.map_nil]
  have s2 : Real.sqrt (1 + 1 ^ 2) = Real.sqrt 2 := by norm_num
  have m1 : Spec.mat 2 (t.data[1]'(by omega)) = (1 / (Real.sqrt 2 : ℂ)) • pauliMat 3 := by
    ext i j
    have := e1 1 (by omega) (by norm_num) (by norm_num) i i.2 j j.2
    simp only [Spec.mat, of_apply, this]
    fin_cases i <;> fin_cases j <;> norm_num [pauliMat, neg_div]
  have m2 : Spec.mat 2 (t.data[2]'(by omega)) = (1 / (Real.sqrt 2 : ℂ)) • pauliMat 1 := by
    obtain ⟨k1, k2, k3, -⟩ := e2 1 0 (by norm_num) (by norm_num)
    ext i j
    have := k3 i j
    simp only [Spec.mat, of_apply]
    refine this.trans ?_
    fin_cases i <;> fin_cases j <;> norm_num [pauliMat]
  have p1 : x.getD 1 0 * √2 = Spec.expect 3 (Spec.mat 2 ρ) := by
    rw [List.getD_eq_getElem _ _ (by omega), g3 1 (by omega), h2]
    exact scaled_param m1
  have p2 : x.getD 2 0 * √2 = Spec.expect 1 (Spec.mat 2 ρ) := by
    rw [List.getD_eq_getElem _ _ (by omega), g3 2 (by omega), h2]
    exact scaled_param m2
  rw [p1, p2]

/-! ### Cases -/

/-- An `eigh` by the spectral theorem. -/
noncomputable def specEigh (C : Matrix (Fin 2) (Fin 2) ℝ) : (Fin 2 → ℝ) × Matrix (Fin 2) (Fin 2) ℝ :=
  open Classical in
  if h : C.IsHermitian then (h.eigenvalues, h.eigenvectorUnitary) else (0, 1)

theorem specEigh_isEigh : Spec.IsEigh specEigh := by
  intro C hC
  have h : C.IsHermitian := by
    rw [IsHermitian, conjTranspose_eq_transpose_of_trivial, hC]
  have e : specEigh C = (h.eigenvalues, (h.eigenvectorUnitary : Matrix (Fin 2) (Fin 2) ℝ)) := by
    rw [specEigh, dif_pos h]
  rw [e]
  constructor
  · have := Unitary.coe_star_mul_self h.eigenvectorUnitary
    rwa [star_eq_conjTranspose, conjTranspose_eq_transpose_of_trivial] at this
  · have := h.spectral_theorem
    rw [Unitary.conjStarAlgAut_apply] at this
    rw [star_eq_conjTranspose, conjTranspose_eq_transpose_of_trivial] at this
    simpa using this

/-- Sorting two numbers. -/
noncomputable def sort2 (v : Fin 2 → ℝ) : Fin 2 → Fin 2 :=
  open Classical in if v 0 ≤ v 1 then ![0, 1] else ![1, 0]

theorem sort2_isArgsort : Spec.IsArgsort sort2 := by
  intro v
  unfold sort2
  split_ifs with h
  · exact ⟨by simp, h⟩
  · exact ⟨by simp, (not_le.1 h).le⟩

/-- Case: for standard deviations 3 and 1 the two-sigma ellipse reaches from -6 to 6 along the first
axis and from -2 to 2 along the second. -/
example : ∃ width height angle,
    plotCovEllipse specEigh sort2 (Matrix.of ![![9, 0], ![0, 1]]) ![0, 0] 2 =
      .ellipse ![0, 0] width height angle ∧
    ![6, 0] ∈ Spec.ellipseRegion ![0, 0] width height angle ∧
    ![0, 2] ∈ Spec.ellipseRegion ![0, 0] width height angle ∧
    ![0, 3] ∉ Spec.ellipseRegion ![0, 0] width height angle := by
  have hC : (Matrix.of ![![9, 0], ![0, 1]] : Matrix (Fin 2) (Fin 2) ℝ)ᵀ = Matrix.of ![![9, 0], ![0, 1]] := by
    ext i j; fin_cases i <;> fin_cases j <;> rfl
  have hq : ∀ u, Spec.quad2 (Matrix.of ![![9, 0], ![0, 1]]) u = 9 * u 0 ^ 2 + u 1 ^ 2 := by
    intro u; rw [quad2_expand]; simp; ring
  obtain ⟨w, h, a, e1, e2, -⟩ := C119_ellipse specEigh_isEigh sort2_isArgsort _ hC
    (fun u => by rw [hq]; positivity) ![0, 0] 2
  refine ⟨w, h, a, e1, ?_, ?_, ?_⟩
  · rw [e2]
    intro u
    rw [hq, Fin.sum_univ_two]
    simp
    nlinarith [sq_nonneg (u 1), sq_nonneg (u 0)]
  · rw [e2]
    intro u
    rw [hq, Fin.sum_univ_two]
    simp
    nlinarith [sq_nonneg (u 1), sq_nonneg (u 0)]
  · rw [e2]
    intro hin
    have := hin ![0, 1]
    rw [hq, Fin.sum_univ_two] at this
    simp at this
    norm_num at this

/-- Case: a cloud of two states with the Pauli basis, and a true state. -/
example : ∃ t, pauliBasis 1 = .ok t ∧ ∃ fig width height angle c,
    plotRebitPosterior specEigh sort2 (fun _ _ => .error .other)
      (⟨![1 / 4, 3 / 4], ![![1 / √2, 1 / √2, 0, 0], ![1 / √2, 0, 0, 1 / √2]], t⟩ : RebitCloud 2 4)
      none (some [[1 / √2, 0, 0, 1 / √2]]) 3 (1, 3) (some "cov") = (fig, .ok ()) ∧
    .ellipse c width height angle ∈ fig ∧ c = ![1 / 4 * √2 * (1 / √2), 3 / 4 * √2 * (1 / √2)] := by
  obtain ⟨t, h1, -, -, -, -, h6⟩ := C40_pauli 1 one_pos
  obtain ⟨h6, -⟩ := h6 rfl
  obtain ⟨fig, w, h, a, e1, -, -, e4, -⟩ := C119_posterior_partial specEigh_isEigh sort2_isArgsort
    (fun _ _ => .error .other)
    (⟨![1 / 4, 3 / 4], ![![1 / √2, 1 / √2, 0, 0], ![1 / √2, 0, 0, 1 / √2]], t⟩ : RebitCloud 2 4)
    (by intro i; fin_cases i <;> norm_num) (by norm_num [Fin.sum_univ_two]) (by simp [h6]) none
    [[1 / √2, 0, 0, 1 / √2]] 3 (by norm_num) 1 3
  refine ⟨t, h1, fig, w, h, a, _, e1, e4, ?_⟩
  funext k
  fin_cases k <;> simp [Spec.onAxes, pmean, Fin.sum_univ_two] <;> ring

/-- Case: the state `|+⟩` is drawn at `(1, 0)` on the axes X and Z. -/
example : Spec.expect 1 (Matrix.of ![![1 / 2, 1 / 2], ![1 / 2, 1 / 2]]) = 1 ∧
    Spec.expect 3 (Matrix.of ![![1 / 2, 1 / 2], ![1 / 2, 1 / 2]]) = 0 := by
  rw [expect_x, expect_z]
  constructor <;> simp <;> norm_num

end QInfer
