import Verif.Spec.Density
import Mathlib.Analysis.Matrix.Spectrum
import Mathlib.Analysis.Matrix.Order
import Mathlib.LinearAlgebra.Matrix.NonsingularInverse
import Mathlib.Tactic.Linarith

/-!
# Lemmas on eigendecompositions of Hermitian matrices
-/

set_option linter.unusedSectionVars false

namespace QInfer.Spec

open Matrix
open scoped ComplexOrder

variable {d : Nat} {A V : Matrix (Fin d) (Fin d) ℂ} {w : Fin d → ℂ}

/-- Eigenvalues of a Hermitian matrix are its expectation values in the unit eigenvectors. -/
theorem IsEig.expect (h : IsEig A w V) (k : Fin d) : (Vᴴ * A * V) k k = w k := by
  rw [Matrix.mul_assoc, h.eigen, ← Matrix.mul_assoc, Matrix.mul_diagonal, h.unit, one_mul]

theorem IsEig.real (h : IsEig A w V) (hA : A.IsHermitian) (k : Fin d) : star (w k) = w k := by
  rw [← h.expect k]
  have : (Vᴴ * A * V).IsHermitian := Matrix.isHermitian_conjTranspose_mul_mul V hA
  exact this.apply k k

theorem IsEig.covers (h : IsEig A w V) (hA : A.IsHermitian) (i : Fin d) :
    ∃ k, w k = (hA.eigenvalues i : ℂ) := by
  by_contra hne
  push Not at hne
  obtain ⟨U, hU⟩ := h.indep
  let u := (hA.eigenvectorBasis i).ofLp
  have hu : A *ᵥ u = (hA.eigenvalues i : ℂ) • u := by
    have := hA.mulVec_eigenvectorBasis i
    simpa using this
  let c := (↑U⁻¹ : Matrix (Fin d) (Fin d) ℂ) *ᵥ u
  have hVc : V *ᵥ c = u := by
    simp only [c, ← hU, Matrix.mulVec_mulVec, Units.mul_inv, Matrix.one_mulVec]
  have h1 : V *ᵥ (diagonal w *ᵥ c) = V *ᵥ ((hA.eigenvalues i : ℂ) • c) := by
    rw [Matrix.mulVec_mulVec, ← h.eigen, ← Matrix.mulVec_mulVec, hVc, hu, Matrix.mulVec_smul, hVc]
  have h2 : diagonal w *ᵥ c = (hA.eigenvalues i : ℂ) • c := by
    have := congrArg (fun x => (↑U⁻¹ : Matrix (Fin d) (Fin d) ℂ) *ᵥ x) h1
    simpa only [Matrix.mulVec_mulVec, ← hU, Units.inv_mul, Matrix.one_mulVec, ← Matrix.mul_assoc,
      Matrix.one_mul] using this
  have h3 : c = 0 := by
    funext k
    have := congrFun h2 k
    rw [Matrix.mulVec_diagonal, Pi.smul_apply, smul_eq_mul] at this
    have h4 : (w k - (hA.eigenvalues i : ℂ)) * c k = 0 := by rw [sub_mul, this, sub_self]
    rcases mul_eq_zero.1 h4 with h5 | h5
    · exact absurd (sub_eq_zero.1 h5) (hne k)
    · exact h5
  have h4 : u = 0 := by rw [← hVc, h3, Matrix.mulVec_zero]
  have h5 : hA.eigenvectorBasis i = 0 := by
    ext k
    exact congrFun h4 k
  exact (hA.eigenvectorBasis.orthonormal.ne_zero i) h5

/-- A Hermitian matrix is positive exactly when the computed eigenvalues are. -/
theorem IsEig.posSemidef_iff (h : IsEig A w V) (hA : A.IsHermitian) :
    A.PosSemidef ↔ ∀ k, 0 ≤ w k := by
  constructor
  · intro hp k
    rw [← h.expect k]
    exact (hp.conjTranspose_mul_mul_same V).diag_nonneg
  · intro hw
    rw [hA.posSemidef_iff_eigenvalues_nonneg]
    intro i
    obtain ⟨k, hk⟩ := h.covers hA i
    have := hw k
    rw [hk] at this
    simpa using this

theorem IsEig.neg (h : IsEig A w V) : IsEig (-A) (fun k => -w k) V where
  eigen := by
    rw [← Matrix.diagonal_neg, Matrix.neg_mul, h.eigen, Matrix.mul_neg]
  unit := h.unit
  indep := h.indep

/-- The matrix rebuilt from nonnegative eigenvalues is positive, orthogonal eigenvectors or not. -/
theorem rebuilt_pos (V : Matrix (Fin d) (Fin d) ℂ) (p : Fin d → ℂ) (hp : ∀ k, 0 ≤ p k) :
    (V * diagonal p * Vᴴ).PosSemidef :=
  (PosSemidef.diagonal (d := p) hp).mul_mul_conjTranspose_same V

theorem rebuilt_trace (V : Matrix (Fin d) (Fin d) ℂ) (p : Fin d → ℂ)
    (hu : ∀ k, (Vᴴ * V) k k = 1) : trace (V * diagonal p * Vᴴ) = ∑ k, p k := by
  rw [Matrix.trace_mul_comm, ← Matrix.mul_assoc]
  simp only [Matrix.trace, Matrix.diag_apply, Matrix.mul_diagonal, hu, one_mul]

/-- With orthonormal eigenvectors the rebuilt matrix is the positive part. -/
theorem rebuilt_posPart (h : IsEig A w V) (hV : Vᴴ * V = 1) (p : Fin d → ℂ) (hp : ∀ k, 0 ≤ p k)
    (hn : ∀ k, 0 ≤ p k - w k) (hz : ∀ k, p k * (p k - w k) = 0) :
    IsPosPart A (V * diagonal p * Vᴴ) := by
  have hV' : V * Vᴴ = 1 := mul_eq_one_comm.1 hV
  have hA : A = V * diagonal w * Vᴴ := by
    rw [← h.eigen, Matrix.mul_assoc, hV', Matrix.mul_one]
  have hs : V * diagonal p * Vᴴ - A = V * diagonal (fun k => p k - w k) * Vᴴ := by
    have : diagonal (fun k => p k - w k) = diagonal p - diagonal w := by
      rw [Matrix.diagonal_sub]
    rw [this, Matrix.mul_sub, Matrix.sub_mul, ← hA]
  refine ⟨rebuilt_pos V p hp, ?_, ?_⟩
  · rw [hs]; exact rebuilt_pos V _ hn
  · rw [hs]
    have : V * diagonal p * Vᴴ * (V * diagonal (fun k => p k - w k) * Vᴴ) =
        V * (diagonal p * (Vᴴ * V) * diagonal (fun k => p k - w k)) * Vᴴ := by
      simp only [Matrix.mul_assoc]
    rw [this, hV, Matrix.mul_one, Matrix.diagonal_mul_diagonal]
    have : (fun k => p k * (p k - w k)) = fun _ => 0 := by funext k; exact hz k
    rw [this, Matrix.diagonal_zero, Matrix.mul_zero, Matrix.zero_mul]

/-- Distinct eigenvalues force orthonormal eigenvectors. -/
theorem IsEig.orthonormal (h : IsEig A w V) (hA : A.IsHermitian)
    (hw : Function.Injective w) : Vᴴ * V = 1 := by
  ext k l
  by_cases hkl : k = l
  · subst hkl; rw [h.unit, Matrix.one_apply_eq]
  · rw [Matrix.one_apply_ne hkl]
    have h1 : (Vᴴ * A * V) k l = (Vᴴ * V) k l * w l := by
      rw [Matrix.mul_assoc, h.eigen, ← Matrix.mul_assoc, Matrix.mul_diagonal]
    have h2 : (Vᴴ * A * V) k l = w k * (Vᴴ * V) k l := by
      have e : Vᴴ * A = diagonal w * Vᴴ := by
        have := congrArg Matrix.conjTranspose h.eigen
        rw [Matrix.conjTranspose_mul, Matrix.conjTranspose_mul, hA.eq,
          Matrix.diagonal_conjTranspose] at this
        rw [this]
        congr 2
        funext j
        exact h.real hA j
      rw [e, Matrix.mul_assoc, Matrix.diagonal_mul]
    have h3 : (w k - w l) * (Vᴴ * V) k l = 0 := by
      rw [sub_mul, ← h2, h1]; ring
    rcases mul_eq_zero.1 h3 with h4 | h4
    · exact absurd (hw (sub_eq_zero.1 h4)) hkl
    · exact h4

/-- Every Hermitian matrix has an eigendecomposition with orthonormal eigenvectors. -/
theorem exists_isEig (hA : A.IsHermitian) : ∃ w V, IsEig A w V ∧ Vᴴ * V = 1 := by
  let U := hA.eigenvectorUnitary
  have h1 : (U : Matrix (Fin d) (Fin d) ℂ)ᴴ * (U : Matrix (Fin d) (Fin d) ℂ) = 1 :=
    (Matrix.mem_unitaryGroup_iff').1 U.2
  refine ⟨fun k => (hA.eigenvalues k : ℂ), U, ⟨?_, fun k => by rw [h1, Matrix.one_apply_eq], ?_⟩,
    h1⟩
  · have := hA.spectral_theorem
    ext i k
    have h2 := congrFun (hA.eigenvectorUnitary_mulVec k) i
    rw [Matrix.mul_diagonal, Matrix.mul_apply]
    have h3 := hA.mulVec_eigenvectorBasis k
    have h4 := congrFun h3 i
    simp only [Matrix.mulVec, dotProduct, Pi.smul_apply] at h4
    have h5 : ∀ j, (U : Matrix (Fin d) (Fin d) ℂ) j k = (hA.eigenvectorBasis k).ofLp j :=
      fun j => hA.eigenvectorUnitary_apply j k
    simp only [h5]
    rw [h4]
    simp [mul_comm]
  · exact (Unitary.toUnits U).isUnit

theorem trace_mul_nonneg {A B : Matrix (Fin d) (Fin d) ℂ} (hA : A.PosSemidef)
    (hB : B.PosSemidef) : 0 ≤ trace (A * B) := by
  obtain ⟨w, V, h, hV⟩ := exists_isEig hB.1
  have hV' : V * Vᴴ = 1 := mul_eq_one_comm.1 hV
  have e : B = V * diagonal w * Vᴴ := by
    rw [← h.eigen, Matrix.mul_assoc, hV', Matrix.mul_one]
  have hw := (h.posSemidef_iff hB.1).1 hB
  rw [e, ← Matrix.mul_assoc, Matrix.trace_mul_comm, ← Matrix.mul_assoc, ← Matrix.mul_assoc]
  simp only [Matrix.trace, Matrix.diag_apply, Matrix.mul_diagonal]
  exact Finset.sum_nonneg fun k _ =>
    mul_nonneg (hA.conjTranspose_mul_mul_same V).diag_nonneg (hw k)

theorem isPosPart_unique {A P P' : Matrix (Fin d) (Fin d) ℂ} (h : IsPosPart A P)
    (h' : IsPosPart A P') : P = P' := by
  have hD : (P - P').IsHermitian := h.pos.1.sub h'.pos.1
  have e : (P - P') * (P - P') = -(P * (P' - A)) - P' * (P - A) := by
    have h1 : (P - P') * (P - P') = (P - P') * ((P - A) - (P' - A)) := by
      congr 1; abel
    rw [h1, Matrix.mul_sub, Matrix.sub_mul, Matrix.sub_mul, h.mul, h'.mul]
    abel
  have ht : trace ((P - P')ᴴ * (P - P')) = 0 := by
    refine le_antisymm ?_ (posSemidef_conjTranspose_mul_self _).trace_nonneg
    rw [hD.eq, e, Matrix.trace_sub, Matrix.trace_neg]
    have h1 := trace_mul_nonneg h.pos h'.neg
    have h2 := trace_mul_nonneg h'.pos h.neg
    have := add_nonneg h1 h2
    rw [← sub_nonneg]
    convert! this using 1
    ring
  exact sub_eq_zero.1 (Matrix.trace_conjTranspose_mul_self_eq_zero_iff.1 ht)

end QInfer.Spec
