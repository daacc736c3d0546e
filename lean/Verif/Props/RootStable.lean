import Verif.Props.TomoDist
import Verif.Props.RoundEst
import Mathlib.Analysis.Matrix.Spectrum
import Mathlib.Algebra.Order.Chebyshev

/-!
# C161: the square root of the covariance is stable
-/

namespace QInfer

open Matrix
open scoped BigOperators ComplexOrder

/-! ## Specification -/

/-- Two matrices differ by at most `ε`: the eigenvalues of their difference lie between `-ε` and `ε`. -/
structure Spec.Within {d : ℕ} (ε : ℝ) (A B : Matrix (Fin d) (Fin d) ℂ) : Prop where
  upper : ((ε : ℂ) • (1 : Matrix (Fin d) (Fin d) ℂ) - (A - B)).PosSemidef
  lower : ((ε : ℂ) • (1 : Matrix (Fin d) (Fin d) ℂ) + (A - B)).PosSemidef

/-! ## Helper lemmas -/

section

variable {d : ℕ}

theorem herm_diag {D : Matrix (Fin d) (Fin d) ℂ} (hD : D.IsHermitian) :
    ∃ (U : Matrix (Fin d) (Fin d) ℂ) (l : Fin d → ℝ), Uᴴ * U = 1 ∧ U * Uᴴ = 1 ∧
      Uᴴ * D * U = diagonal (fun k => (l k : ℂ)) := by
  have h1 : (hD.eigenvectorUnitary : Matrix (Fin d) (Fin d) ℂ)ᴴ * hD.eigenvectorUnitary = 1 :=
    Unitary.coe_star_mul_self hD.eigenvectorUnitary
  refine ⟨hD.eigenvectorUnitary, hD.eigenvalues, h1, mul_eq_one_comm.1 h1, ?_⟩
  have := hD.conjStarAlgAut_star_eigenvectorUnitary
  rw [Unitary.conjStarAlgAut_star_apply] at this
  exact this

/-- Matrices are compared through their diagonals in a basis of eigenvectors. -/
theorem conj_diag {U M : Matrix (Fin d) (Fin d) ℂ} (hM : M.PosSemidef) (k : Fin d) : 0 ≤ (Uᴴ * M * U) k k :=
  (hM.conjTranspose_mul_mul_same U).diag_nonneg

theorem conj_scalar {U : Matrix (Fin d) (Fin d) ℂ} (hU : Uᴴ * U = 1) (ε : ℂ) (k : Fin d) :
    (Uᴴ * (ε • (1 : Matrix (Fin d) (Fin d) ℂ)) * U) k k = ε := by
  rw [Matrix.mul_smul, Matrix.mul_one, Matrix.smul_mul, hU, Matrix.smul_apply, Matrix.one_apply_eq, smul_eq_mul, mul_one]

/-- Conjugated back. -/
theorem conj_back {U M : Matrix (Fin d) (Fin d) ℂ} (hU : U * Uᴴ = 1) (hM : (Uᴴ * M * U).PosSemidef) : M.PosSemidef := by
  have := hM.mul_mul_conjTranspose_same U
  have e : U * (Uᴴ * M * U) * Uᴴ = (U * Uᴴ) * M * (U * Uᴴ) := by simp only [Matrix.mul_assoc]
  rwa [e, hU, Matrix.one_mul, Matrix.mul_one] at this

theorem root_close {X Y : Matrix (Fin d) (Fin d) ℂ} (hX : X.PosSemidef) (hY : Y.PosSemidef) {ε : ℝ}
    (h : Spec.Within ε (X * X) (Y * Y)) :
    ((ε : ℂ) • (1 : Matrix (Fin d) (Fin d) ℂ) - (X - Y) * (X - Y)).PosSemidef := by
  obtain ⟨U, l, hU, hU', hl⟩ := herm_diag (hX.1.sub hY.1)
  have hmul : ∀ A B : Matrix (Fin d) (Fin d) ℂ, Uᴴ * (A * B) * U = (Uᴴ * A * U) * (Uᴴ * B * U) := by
    intro A B
    calc Uᴴ * (A * B) * U = Uᴴ * A * (1 : Matrix (Fin d) (Fin d) ℂ) * B * U := by
          rw [Matrix.mul_one]; simp only [Matrix.mul_assoc]
      _ = _ := by rw [← hU']; simp only [Matrix.mul_assoc]
  have hsub : ∀ A B : Matrix (Fin d) (Fin d) ℂ, Uᴴ * (A - B) * U = Uᴴ * A * U - Uᴴ * B * U := by
    intro A B
    rw [Matrix.mul_sub, Matrix.sub_mul]
  obtain ⟨X', hX'⟩ : ∃ X', X' = Uᴴ * X * U := ⟨_, rfl⟩
  obtain ⟨Y', hY'⟩ : ∃ Y', Y' = Uᴴ * Y * U := ⟨_, rfl⟩
  have hd : X' - Y' = diagonal (fun k => (l k : ℂ)) := by rw [hX', hY', ← hsub, hl]
  have key : ∀ k, l k ^ 2 ≤ ε := by
    intro k
    have x0 : 0 ≤ X' k k := by rw [hX']; exact conj_diag hX k
    have y0 : 0 ≤ Y' k k := by rw [hY']; exact conj_diag hY k
    have hxy : X' k k - Y' k k = l k := by
      have := congrFun (congrFun hd k) k
      rwa [Matrix.sub_apply, diagonal_apply_eq] at this
    have hq : (Uᴴ * (X * X - Y * Y) * U) k k = l k * (X' k k + Y' k k) := by
      rw [hsub, hmul, hmul, ← hX', ← hY']
      have : X' * X' - Y' * Y' = (X' - Y') * X' + Y' * (X' - Y') := by
        rw [Matrix.sub_mul, Matrix.mul_sub]; abel
      rw [this, hd, Matrix.add_apply, diagonal_mul, mul_diagonal]
      ring
    have u1 := conj_diag (U := U) h.upper k
    have u2 := conj_diag (U := U) h.lower k
    rw [Matrix.mul_sub, Matrix.sub_mul, Matrix.sub_apply, conj_scalar hU, hq] at u1
    rw [Matrix.mul_add, Matrix.add_mul, Matrix.add_apply, conj_scalar hU, hq] at u2
    obtain ⟨x, hx⟩ : ∃ x : ℝ, X' k k = x := ⟨(X' k k).re, Complex.ext rfl (Complex.nonneg_iff.1 x0).2.symm⟩
    obtain ⟨y, hy⟩ : ∃ y : ℝ, Y' k k = y := ⟨(Y' k k).re, Complex.ext rfl (Complex.nonneg_iff.1 y0).2.symm⟩
    rw [hx, hy] at hxy u1 u2
    rw [hx, Complex.zero_le_real] at x0
    rw [hy, Complex.zero_le_real] at y0
    have hxy' : x - y = l k := by exact_mod_cast hxy
    have u1' : 0 ≤ ε - l k * (x + y) := by
      rw [← Complex.ofReal_add, ← Complex.ofReal_mul, ← Complex.ofReal_sub, Complex.zero_le_real] at u1
      exact u1
    have u2' : 0 ≤ ε + l k * (x + y) := by
      rw [← Complex.ofReal_add, ← Complex.ofReal_mul, ← Complex.ofReal_add, Complex.zero_le_real] at u2
      exact u2
    rcases le_total 0 (l k) with hl0 | hl0 <;> nlinarith
  apply conj_back hU'
  have : Uᴴ * ((ε : ℂ) • (1 : Matrix (Fin d) (Fin d) ℂ) - (X - Y) * (X - Y)) * U =
      diagonal (fun k => ((ε - l k ^ 2 : ℝ) : ℂ)) := by
    rw [hsub, hmul, hl, diagonal_mul_diagonal, Matrix.mul_smul, Matrix.mul_one, Matrix.smul_mul, hU]
    ext i j
    by_cases hij : i = j
    · subst hij
      simp [sq]
    · simp [hij]
  rw [this]
  exact PosSemidef.diagonal fun k => by
    rw [Pi.zero_apply, Complex.zero_le_real]
    linarith [key k]

/-- Truncating negative eigenvalues of a matrix near a positive one. -/
theorem posPart_near {A B P : Matrix (Fin d) (Fin d) ℂ} (hB : B.PosSemidef) (hP : Spec.IsPosPart A P) {ε : ℝ} (hε : 0 ≤ ε)
    (h : Spec.Within ε A B) : Spec.Within (2 * ε) P B := by
  have hN : ((ε : ℂ) • (1 : Matrix (Fin d) (Fin d) ℂ) - (P - A)).PosSemidef := by
    obtain ⟨U, l, hU, hU', hl⟩ := herm_diag hP.neg.1
    have key : ∀ k, l k ≤ ε := by
      intro k
      have h1 : ((ε : ℂ) • (1 : Matrix (Fin d) (Fin d) ℂ) + A).PosSemidef := by
        have := h.lower.add hB
        rwa [add_assoc, sub_add_cancel] at this
      have h2 := conj_diag (U := U) h1 k
      rw [Matrix.mul_add, Matrix.add_mul, Matrix.add_apply, conj_scalar hU,
        show A = P - (P - A) by abel, Matrix.mul_sub, Matrix.sub_mul, hl, Matrix.sub_apply, diagonal_apply_eq] at h2
      have h3 : (Uᴴ * P * U) * (Uᴴ * (P - A) * U) = 0 := by
        calc (Uᴴ * P * U) * (Uᴴ * (P - A) * U) = Uᴴ * (P * (U * Uᴴ) * (P - A)) * U := by simp only [Matrix.mul_assoc]
          _ = 0 := by rw [hU', Matrix.mul_one, hP.mul, Matrix.mul_zero, Matrix.zero_mul]
      have h4 := congrFun (congrFun h3 k) k
      rw [hl, mul_diagonal, Matrix.zero_apply, mul_eq_zero] at h4
      rcases h4 with h4 | h4
      · rw [h4, zero_sub, ← sub_eq_add_neg, ← Complex.ofReal_sub, Complex.zero_le_real] at h2
        linarith
      · have : l k = 0 := by exact_mod_cast h4
        linarith
    apply conj_back hU'
    rw [Matrix.mul_sub, Matrix.sub_mul, hl, Matrix.mul_smul, Matrix.mul_one, Matrix.smul_mul, hU]
    have : (ε : ℂ) • (1 : Matrix (Fin d) (Fin d) ℂ) - diagonal (fun k => (l k : ℂ)) =
        diagonal (fun k => ((ε - l k : ℝ) : ℂ)) := by
      ext i j
      by_cases hij : i = j
      · subst hij
        simp
      · simp [hij]
    rw [this]
    exact PosSemidef.diagonal fun k => by
      rw [Pi.zero_apply, Complex.zero_le_real]
      linarith [key k]
  have e2 : ((2 * ε : ℝ) : ℂ) • (1 : Matrix (Fin d) (Fin d) ℂ) = (ε : ℂ) • 1 + (ε : ℂ) • 1 := by
    rw [← add_smul]
    push_cast
    ring_nf
  constructor
  · have := h.upper.add hN
    rw [e2]
    convert this using 1
    abel
  · have h1 : ((ε : ℂ) • (1 : Matrix (Fin d) (Fin d) ℂ)).PosSemidef :=
      PosSemidef.one.smul (by rw [Complex.zero_le_real]; exact hε)
    have := (h.lower.add hP.neg).add h1
    rw [e2]
    convert this using 1
    abel

/-- Entries bound eigenvalues. -/
theorem within_entries {A B : Matrix (Fin d) (Fin d) ℂ} (hA : A.IsHermitian) (hB : B.IsHermitian) {δ : ℝ}
    (h : ∀ i j, ‖A i j - B i j‖ ≤ δ) : Spec.Within (d * δ) A B := by
  have form : ∀ x : Fin d → ℂ, ‖star x ⬝ᵥ ((A - B) *ᵥ x)‖ ≤ d * δ * ∑ i, ‖x i‖ ^ 2 := by
    intro x
    have h1 : ‖star x ⬝ᵥ ((A - B) *ᵥ x)‖ ≤ ∑ i, ∑ j, ‖x i‖ * (δ * ‖x j‖) := by
      refine (norm_sum_le _ _).trans (Finset.sum_le_sum fun i _ => ?_)
      rw [norm_mul, Pi.star_apply, norm_star, ← Finset.mul_sum]
      refine mul_le_mul_of_nonneg_left ?_ (norm_nonneg _)
      rw [Matrix.mulVec, dotProduct]
      refine (norm_sum_le _ _).trans (Finset.sum_le_sum fun j _ => ?_)
      rw [norm_mul]
      exact mul_le_mul_of_nonneg_right (h i j) (norm_nonneg _)
    refine h1.trans ?_
    rcases Nat.eq_zero_or_pos d with hd | hd
    · subst hd
      simp
    have hδ : 0 ≤ δ := (norm_nonneg _).trans (h ⟨0, hd⟩ ⟨0, hd⟩)
    have h2 : ∑ i, ∑ j, ‖x i‖ * (δ * ‖x j‖) = δ * (∑ i, ‖x i‖) ^ 2 := by
      rw [sq, Finset.sum_mul_sum, Finset.mul_sum]
      refine Finset.sum_congr rfl fun i _ => ?_
      rw [Finset.mul_sum]
      exact Finset.sum_congr rfl fun j _ => by ring
    have h3 := sq_sum_le_card_mul_sum_sq (s := (Finset.univ : Finset (Fin d))) (f := fun i => ‖x i‖)
    rw [Finset.card_univ, Fintype.card_fin] at h3
    rw [h2]
    calc δ * (∑ i, ‖x i‖) ^ 2 ≤ δ * (d * ∑ i, ‖x i‖ ^ 2) := mul_le_mul_of_nonneg_left h3 hδ
      _ = _ := by ring
  have hs : ∀ x : Fin d → ℂ, star x ⬝ᵥ x = ((∑ i, ‖x i‖ ^ 2 : ℝ) : ℂ) := by
    intro x
    rw [Complex.ofReal_sum]
    refine Finset.sum_congr rfl fun i _ => ?_
    rw [Pi.star_apply, Complex.star_def, ← Complex.normSq_eq_conj_mul_self, Complex.normSq_eq_norm_sq]
  have hreal : ∀ x : Fin d → ℂ, star x ⬝ᵥ ((A - B) *ᵥ x) = ((star x ⬝ᵥ ((A - B) *ᵥ x)).re : ℂ) := by
    intro x
    exact Complex.ext rfl (by simpa using (hA.sub hB).im_star_dotProduct_mulVec_self x)
  have hb : ∀ x : Fin d → ℂ, |(star x ⬝ᵥ ((A - B) *ᵥ x)).re| ≤ d * δ * ∑ i, ‖x i‖ ^ 2 := fun x =>
    (Complex.abs_re_le_norm _).trans (form x)
  have hone : ((d * δ : ℝ) : ℂ) • (1 : Matrix (Fin d) (Fin d) ℂ) = diagonal fun _ => ((d * δ : ℝ) : ℂ) := by
    ext i j
    by_cases hij : i = j
    · subst hij; simp
    · simp [hij]
  have hherm : (((d * δ : ℝ) : ℂ) • (1 : Matrix (Fin d) (Fin d) ℂ)).IsHermitian := by
    rw [hone]
    exact isHermitian_diagonal_of_self_adjoint _ (by ext i; simp)
  constructor
  · refine PosSemidef.of_dotProduct_mulVec_nonneg (hherm.sub (hA.sub hB)) fun x => ?_
    rw [Matrix.sub_mulVec, dotProduct_sub, Matrix.smul_mulVec, Matrix.one_mulVec, dotProduct_smul, hs, hreal, smul_eq_mul,
      ← Complex.ofReal_mul, ← Complex.ofReal_sub, Complex.zero_le_real]
    linarith [(abs_le.1 (hb x)).2]
  · refine PosSemidef.of_dotProduct_mulVec_nonneg (hherm.add (hA.sub hB)) fun x => ?_
    rw [Matrix.add_mulVec, dotProduct_add, Matrix.smul_mulVec, Matrix.one_mulVec, dotProduct_smul, hs, hreal, smul_eq_mul,
      ← Complex.ofReal_mul, ← Complex.ofReal_add, Complex.zero_le_real]
    linarith [(abs_le.1 (hb x)).1]

theorem within_lower {A B : Matrix (Fin d) (Fin d) ℂ} (hB : B.IsHermitian) {δ : ℝ} (h : ∀ i j, ‖A i j - B i j‖ ≤ δ) :
    ∀ i j, ‖hermLower A i j - B i j‖ ≤ δ := by
  intro i j
  simp only [hermLower, Matrix.of_apply]
  split_ifs with h1 h2
  · exact h i j
  · subst h2
    have hb : B i i = ((B i i).re : ℂ) := by
      have := hB.apply i i
      rw [Complex.star_def] at this
      exact (Complex.conj_eq_iff_re.1 this).symm
    rw [hb, ← Complex.ofReal_sub, ← Complex.sub_re, Complex.norm_real, Real.norm_eq_abs]
    exact (Complex.abs_re_le_norm _).trans (h i i)
  · rw [← hB.apply i j, ← star_sub, norm_star]
    exact h j i

/-- The covariance matrix is positive. -/
theorem centred_pos {n : ℕ} (w : Fin n → ℝ) (hw : ∀ i, 0 ≤ w i) (x : Fin d → Fin n → ℝ) :
    (Matrix.of fun i j => ((Spec.centred w (x i) (x j) : ℝ) : ℂ)).PosSemidef := by
  have : (Matrix.of fun i j => ((Spec.centred w (x i) (x j) : ℝ) : ℂ)) =
      ∑ k, (w k : ℂ) • vecMulVec (fun i => ((x i k - Spec.avg w (x i) : ℝ) : ℂ))
        (star fun i => ((x i k - Spec.avg w (x i) : ℝ) : ℂ)) := by
    ext i j
    rw [Matrix.sum_apply]
    simp [Spec.centred, vecMulVec_apply]
  rw [this]
  exact posSemidef_sum _ fun k _ => (posSemidef_vecMulVec_self_star _).smul (by
    rw [Complex.zero_le_real]; exact hw k)

/-! ## Theorems -/

/-- **C161, square roots.**  If the computed matrix `A` and the positive matrix `B` differ by at most `ε`, what `sqrtm_psd` returns
for them differs by at most `√(2 ε)`, also if `A` has negative eigenvalues, which are truncated; by at most `√ε` if it has
none. -/
theorem C161_root {A B : Matrix (Fin d) (Fin d) ℂ} (hB : B.PosSemidef) {ε : ℝ} (hε : 0 ≤ ε)
    (h : Spec.Within ε (hermLower A) B) {w w' : Fin d → ℝ} {v v' : Matrix (Fin d) (Fin d) ℂ}
    (hE : hermLower A * v = v * diagonal fun k => (w k : ℂ)) (hu : vᴴ * v = 1)
    (hE' : hermLower B * v' = v' * diagonal fun k => (w' k : ℂ)) (hu' : v'ᴴ * v' = 1) (e e' : Bool) :
    (((2 * ε : ℝ) : ℂ) • (1 : Matrix (Fin d) (Fin d) ℂ) -
      ((sqrtmPsd A w v e).1 - (sqrtmPsd B w' v' e').1) * ((sqrtmPsd A w v e).1 - (sqrtmPsd B w' v' e').1)).PosSemidef ∧
    (A.PosSemidef → ((ε : ℂ) • (1 : Matrix (Fin d) (Fin d) ℂ) -
      ((sqrtmPsd A w v e).1 - (sqrtmPsd B w' v' e').1) * ((sqrtmPsd A w v e).1 - (sqrtmPsd B w' v' e').1)).PosSemidef) := by
  obtain ⟨hX, hXX, hXX'⟩ := C66_root hE hu e
  obtain ⟨hY, -, hYY⟩ := C66_root hE' hu' e'
  have self : ∀ {M : Matrix (Fin d) (Fin d) ℂ}, M.PosSemidef → Spec.IsPosPart M M := fun hM =>
    ⟨hM, by rw [sub_self]; exact PosSemidef.zero, by simp⟩
  have hYB := Spec.isPosPart_unique (hYY hB.1) (self hB)
  refine ⟨root_close hX hY ?_, fun hA => root_close hX hY ?_⟩
  · rw [hYB]
    exact posPart_near hB hXX hε h
  · rw [hYB, Spec.isPosPart_unique (hXX' hA.1) (self hA)]
    rwa [hermLower_eq A hA.1] at h

/-- **C161, displacements.**  If every entry of the computed covariance is off by at most `δ`, the product of the square root with
any kernel draw `z` is off by at most `√(2 d δ) |z|`. -/
theorem C161_displacement {A B : Matrix (Fin d) (Fin d) ℂ} (hB : B.PosSemidef) {δ : ℝ} (h : ∀ i j, ‖A i j - B i j‖ ≤ δ)
    {w w' : Fin d → ℝ} {v v' : Matrix (Fin d) (Fin d) ℂ}
    (hE : hermLower A * v = v * diagonal fun k => (w k : ℂ)) (hu : vᴴ * v = 1)
    (hE' : hermLower B * v' = v' * diagonal fun k => (w' k : ℂ)) (hu' : v'ᴴ * v' = 1) (e e' : Bool) (z : Fin d → ℂ) :
    ∑ i, ‖((sqrtmPsd A w v e).1 *ᵥ z) i - ((sqrtmPsd B w' v' e').1 *ᵥ z) i‖ ^ 2 ≤ 2 * (d * δ) * ∑ i, ‖z i‖ ^ 2 := by
  rcases Nat.eq_zero_or_pos d with hd | hd
  · subst hd
    simp
  have hδ : 0 ≤ δ := (norm_nonneg _).trans (h ⟨0, hd⟩ ⟨0, hd⟩)
  have hw := within_entries (hermLower_isHermitian A) hB.1 (within_lower hB.1 h)
  have hX := (C66_root hE hu e).1
  have hY := (C66_root hE' hu' e').1
  have := (C161_root hB (by positivity) hw hE hu hE' hu' e e').1
  generalize (sqrtmPsd A w v e).1 = X at *
  generalize (sqrtmPsd B w' v' e').1 = Y at *
  have hs : ∀ x : Fin d → ℂ, star x ⬝ᵥ x = ((∑ i, ‖x i‖ ^ 2 : ℝ) : ℂ) := by
    intro x
    rw [Complex.ofReal_sum]
    refine Finset.sum_congr rfl fun i _ => ?_
    rw [Pi.star_apply, Complex.star_def, ← Complex.normSq_eq_conj_mul_self, Complex.normSq_eq_norm_sq]
  have h1 := this.dotProduct_mulVec_nonneg z
  have h2 : star z ⬝ᵥ (((X - Y) * (X - Y)) *ᵥ z) = star ((X - Y) *ᵥ z) ⬝ᵥ ((X - Y) *ᵥ z) := by
    rw [star_mulVec, ← dotProduct_mulVec, mulVec_mulVec, (hX.1.sub hY.1).eq]
  rw [Matrix.sub_mulVec, dotProduct_sub, Matrix.smul_mulVec, Matrix.one_mulVec, dotProduct_smul, h2, hs, hs, smul_eq_mul,
    ← Complex.ofReal_mul, ← Complex.ofReal_sub, Complex.zero_le_real] at h1
  simp only [Matrix.sub_mulVec, Pi.sub_apply] at h1
  linarith

/-- **C161, rounding.**  The displacement computed from the covariance matrix in rounded arithmetic: if no parameter has a mean
square of more than `M`, the product of its square root with any kernel draw `z` is within `√(4 d γ M) |z|` of the exact one, with
`γ = (1 + u)^(2 D + 4) - 1`. -/
theorem C161_rounded {n : ℕ} {u : ℝ} {rnd : ℝ → ℝ} {radd : ℝ → ℝ → ℝ} (h : Spec.Relative u rnd radd)
    (t : Fin d → Fin d → SumTree (Fin n)) (tm : Fin d → SumTree (Fin n)) (D : ℕ)
    (ht : ∀ i j, (t i j).leaves.Perm (List.finRange n) ∧ (t i j).depth ≤ D)
    (htm : ∀ i, (tm i).leaves.Perm (List.finRange n) ∧ (tm i).depth ≤ D) (p : Fin n → ℝ) (hp : ∀ i, 0 ≤ p i)
    (hp1 : ∑ i, p i = 1) (x : Fin d → Fin n → ℝ) (M : ℝ) (hM : ∀ i, ∑ k, p k * x i k ^ 2 ≤ M)
    {w w' : Fin d → ℝ} {v v' : Matrix (Fin d) (Fin d) ℂ}
    (hE : hermLower (Matrix.of fun i j => ((covRound rnd radd (t i j) (tm i) (tm j) p (x i) (x j) : ℝ) : ℂ)) * v =
      v * diagonal fun k => (w k : ℂ)) (hu : vᴴ * v = 1)
    (hE' : hermLower (Matrix.of fun i j => ((Spec.centred p (x i) (x j) : ℝ) : ℂ)) * v' = v' * diagonal fun k => (w' k : ℂ))
    (hu' : v'ᴴ * v' = 1) (e e' : Bool) (z : Fin d → ℂ) :
    ∑ i, ‖((sqrtmPsd (Matrix.of fun i j => ((covRound rnd radd (t i j) (tm i) (tm j) p (x i) (x j) : ℝ) : ℂ)) w v e).1 *ᵥ z) i -
        ((sqrtmPsd (Matrix.of fun i j => ((Spec.centred p (x i) (x j) : ℝ) : ℂ)) w' v' e').1 *ᵥ z) i‖ ^ 2 ≤
      2 * (d * (((1 + u) ^ (2 * D + 4) - 1) * (2 * M))) * ∑ i, ‖z i‖ ^ 2 := by
  refine C161_displacement (centred_pos p hp x) (fun i j => ?_) hE hu hE' hu' e e' z
  rw [Matrix.of_apply, Matrix.of_apply, ← Complex.ofReal_sub, Complex.norm_real, Real.norm_eq_abs]
  refine (C154_covariance h (t i j) (tm i) (tm j) D (ht i j).1 (htm i).1 (htm j).1 (ht i j).2 (htm i).2 (htm j).2 p _ _ hp
    hp1).trans ?_
  have hg : 0 ≤ (1 + u) ^ (2 * D + 4) - 1 := by linarith [one_le_gam h (2 * D + 4)]
  refine mul_le_mul_of_nonneg_left ?_ hg
  -- both terms are at most `M`
  have hsq : ∀ i, (Spec.avg p fun k => |x i k|) ^ 2 ≤ M := by
    intro i
    refine le_trans ?_ (hM i)
    have := Finset.sum_mul_sq_le_sq_mul_sq (Finset.univ : Finset (Fin n)) (fun k => Real.sqrt (p k))
      (fun k => Real.sqrt (p k) * |x i k|)
    have e1 : ∀ k, Real.sqrt (p k) * (Real.sqrt (p k) * |x i k|) = p k * |x i k| := fun k => by
      rw [← mul_assoc, Real.mul_self_sqrt (hp k)]
    have e2 : ∀ k, (Real.sqrt (p k) * |x i k|) ^ 2 = p k * x i k ^ 2 := fun k => by
      rw [mul_pow, Real.sq_sqrt (hp k), sq_abs]
    simp only [e1, e2, Real.sq_sqrt (hp _), hp1, one_mul] at this
    exact this
  have hnn : ∀ i, 0 ≤ Spec.avg p fun k => |x i k| := fun i => Finset.sum_nonneg fun k _ => mul_nonneg (hp k) (abs_nonneg _)
  have h1 : (Spec.avg p fun k => |x i k * x j k|) ≤ M := by
    have : ∀ k, p k * |x i k * x j k| ≤ (p k * x i k ^ 2 + p k * x j k ^ 2) / 2 := fun k => by
      have := two_mul_le_add_sq |x i k| |x j k|
      rw [sq_abs, sq_abs] at this
      rw [abs_mul]
      nlinarith [mul_le_mul_of_nonneg_left this (hp k)]
    refine (Finset.sum_le_sum fun k _ => this k).trans ?_
    rw [← Finset.sum_div, Finset.sum_add_distrib]
    linarith [hM i, hM j]
  have h2 : (Spec.avg p fun k => |x i k|) * (Spec.avg p fun k => |x j k|) ≤ M := by
    nlinarith [hsq i, hsq j, sq_nonneg ((Spec.avg p fun k => |x i k|) - Spec.avg p fun k => |x j k|)]
  linarith

end

/-- Case: the rate cannot be improved.  The 1 × 1 matrices `δ` and `0` differ by `δ`, their square roots by `√δ`. -/
example (δ : ℝ) (hδ : 0 < δ) : (sqrtmPsd (d := 1) !![(δ : ℂ)] (fun _ => δ) 1 false).1 0 0 = (Real.sqrt δ : ℂ) ∧
    (sqrtmPsd (d := 1) !![0] (fun _ => 0) 1 false).1 0 0 = 0 := by
  constructor
  · simp [sqrtmPsd, not_le.2 hδ]
  · simp [sqrtmPsd]

/-- Case for `C161_displacement`: a variance of 1/4 computed as 1/4 + 1/100. -/
example (z : Fin 1 → ℂ) : ∑ i, ‖((sqrtmPsd (d := 1) !![((1 / 4 + 1 / 100 : ℝ) : ℂ)] (fun _ => 1 / 4 + 1 / 100) 1 false).1 *ᵥ z) i -
    ((sqrtmPsd (d := 1) !![((1 / 4 : ℝ) : ℂ)] (fun _ => 1 / 4) 1 false).1 *ᵥ z) i‖ ^ 2 ≤
      2 * ((1 : ℕ) * (1 / 100)) * ∑ i, ‖z i‖ ^ 2 := by
  have hdiag : ∀ r : ℝ, (!![(r : ℂ)] : Matrix (Fin 1) (Fin 1) ℂ) = diagonal fun _ => (r : ℂ) := fun r => by
    ext i j
    fin_cases i; fin_cases j; simp
  have hherm : ∀ r : ℝ, hermLower (!![(r : ℂ)] : Matrix (Fin 1) (Fin 1) ℂ) = !![(r : ℂ)] := fun r =>
    hermLower_eq _ (by rw [hdiag]; exact isHermitian_diagonal_of_self_adjoint _ (by ext i; simp))
  refine C161_displacement ?_ ?_ ?_ ?_ ?_ ?_ _ _ _
  · rw [hdiag]
    exact PosSemidef.diagonal fun k => by rw [Pi.zero_apply, Complex.zero_le_real]; norm_num
  · intro i j
    fin_cases i; fin_cases j
    simp only [Fin.zero_eta, Matrix.of_apply, Matrix.cons_val', Matrix.cons_val_fin_one]
    rw [← Complex.ofReal_sub, Complex.norm_real, Real.norm_eq_abs, abs_of_nonneg] <;> norm_num
  · rw [hherm, Matrix.mul_one, Matrix.one_mul, hdiag]
  · simp
  · rw [hherm, Matrix.mul_one, Matrix.one_mul, hdiag]
  · simp

end QInfer
