import Verif.Props.Tomo
import Verif.Props.TomoDist
import Mathlib.LinearAlgebra.Dimension.Constructions
import Mathlib.LinearAlgebra.Basis.VectorSpace
import Mathlib.LinearAlgebra.FiniteDimensional.Lemmas

/-! # Operators and their coefficients: spans, squares, norms -/

namespace QInfer

open Matrix
open scoped BigOperators ComplexOrder

/-- The coefficients as a vector. -/
def coeffVec (n : ℕ) (x : List ℝ) : Fin n → ℝ := fun a => x.getD a 0

theorem zip_dot (m x : List ℝ) (n : ℕ) (hm : m.length = n) (hx : x.length = n) :
    ((m.zip x).map fun p => p.1 * p.2).sum = ∑ a, coeffVec n m a * coeffVec n x a := by
  subst hm
  induction m generalizing x with
  | nil => simp
  | cons a m ih =>
    cases x with
    | nil => simp at hx
    | cons c x =>
      rw [List.zip_cons_cons, List.map_cons, List.sum_cons, ih x (by simpa using hx)]
      simp only [List.length_cons]
      rw [Fin.sum_univ_succ]
      simp [coeffVec]

theorem op_coeff (d : ℕ) (l : List Plane) (x : List ℝ) :
    Spec.op d l x = ∑ a, (coeffVec l.length x a : ℂ) • Spec.mat d l[a] := rfl

/-- Vectors whose span is not everything have a common orthogonal vector. -/
theorem exists_orthogonal {n : ℕ} {ι : Type*} (u : ι → Fin n → ℝ)
    (h : Submodule.span ℝ (Set.range u) ≠ ⊤) :
    ∃ v : Fin n → ℝ, v ≠ 0 ∧ ∀ i, ∑ a, u i a * v a = 0 := by
  obtain ⟨f, hf, hle⟩ := Submodule.exists_le_ker_of_lt_top _ (lt_top_iff_ne_top.mpr h)
  have hf' : ∀ w : Fin n → ℝ, f w = ∑ a, w a * f (Pi.single a 1) := by
    intro w
    conv_lhs => rw [pi_eq_sum_univ' w]
    rw [map_sum]
    refine Finset.sum_congr rfl fun a _ => ?_
    rw [map_smul, smul_eq_mul]
  refine ⟨fun a => f (Pi.single a 1), fun h0 => hf ?_, fun i => ?_⟩
  · ext w
    simpa using congrFun h0 w
  · rw [← hf']
    exact hle (Submodule.subset_span ⟨i, rfl⟩)

/-- A Hermitian operator without trace is a multiple of the difference of two density operators. -/
theorem difference_of_densities {d : ℕ} (hd : 0 < d) (V : Matrix (Fin d) (Fin d) ℂ) (hV : V.IsHermitian)
    (ht : trace V = 0) : ∃ ρ σ : Matrix (Fin d) (Fin d) ℂ, ∃ c : ℝ, 0 < c ∧ Spec.IsDensity ρ ∧
      Spec.IsDensity σ ∧ ρ - σ = (c : ℂ) • V := by
  have hsq : ∀ A : Matrix (Fin d) (Fin d) ℂ, A.IsHermitian → (A * A).PosSemidef := by
    intro A hA
    have := posSemidef_conjTranspose_mul_self A
    rwa [hA.eq] at this
  have h1 : (1 : Matrix (Fin d) (Fin d) ℂ).IsHermitian := isHermitian_one
  have ht2 : 0 ≤ trace (V * V) := (hsq V hV).trace_nonneg
  obtain ⟨t, ht'⟩ : ∃ t : ℝ, 0 ≤ t ∧ trace (V * V) = (t : ℂ) := by
    obtain ⟨h3, h4⟩ := Complex.nonneg_iff.1 ht2
    exact ⟨_, h3, Complex.ext rfl h4.symm⟩
  have hd' : (0 : ℝ) < d := by exact_mod_cast hd
  have hpos : 0 < t + d := by linarith [ht'.1]
  have hne : ((t + d : ℝ) : ℂ) ≠ 0 := by exact_mod_cast hpos.ne'
  have hnn : (0 : ℂ) ≤ (((t + d)⁻¹ : ℝ) : ℂ) := by
    rw [Complex.zero_le_real]; exact (inv_pos.mpr hpos).le
  refine ⟨(((t + d)⁻¹ : ℝ) : ℂ) • ((V + 1) * (V + 1)), (((t + d)⁻¹ : ℝ) : ℂ) • ((V - 1) * (V - 1)),
    4 * (t + d)⁻¹, by positivity, ⟨(hsq _ (hV.add h1)).smul hnn, ?_⟩, ⟨(hsq _ (hV.sub h1)).smul hnn, ?_⟩, ?_⟩
  · rw [trace_smul, show (V + 1) * (V + 1) = V * V + V + V + 1 from by noncomm_ring, trace_add, trace_add,
      trace_add, ht, ht'.2, trace_one, Fintype.card_fin, smul_eq_mul, Complex.ofReal_inv]
    push_cast at hne ⊢
    field_simp
    ring
  · rw [trace_smul, show (V - 1) * (V - 1) = V * V - V - V + 1 from by noncomm_ring, trace_add, trace_sub,
      trace_sub, ht, ht'.2, trace_one, Fintype.card_fin, smul_eq_mul, Complex.ofReal_inv]
    push_cast at hne ⊢
    field_simp
    ring
  · rw [← smul_sub, show (V + 1) * (V + 1) - (V - 1) * (V - 1) = (4 : ℂ) • V from by
      rw [show (4 : ℂ) • V = V + V + V + V from by
        rw [show (4 : ℂ) = 1 + 1 + 1 + 1 from by norm_num]; simp only [add_smul, one_smul]]
      noncomm_ring, smul_smul]
    congr 1
    push_cast
    ring

/-- A Hermitian operator whose square has trace one lies above minus the identity. -/
theorem one_add_posSemidef {d : ℕ} (B : Matrix (Fin d) (Fin d) ℂ) (hB : B.IsHermitian)
    (ht : trace (B * B) = 1) : (1 + B).PosSemidef := by
  have hspec := hB.spectral_theorem
  rw [Unitary.conjStarAlgAut_apply] at hspec
  obtain ⟨U, hU⟩ : ∃ U : Matrix (Fin d) (Fin d) ℂ, U = (hB.eigenvectorUnitary : Matrix _ _ ℂ) := ⟨_, rfl⟩
  rw [← hU] at hspec
  have hUU : star U * U = 1 := by rw [hU]; exact Unitary.coe_star_mul_self _
  have hUU' : U * star U = 1 := by rw [hU]; exact Unitary.coe_mul_star_self _
  obtain ⟨lam, hlam⟩ : ∃ lam : Fin d → ℝ, lam = hB.eigenvalues := ⟨_, rfl⟩
  rw [← hlam] at hspec
  have hsum : ∑ i, lam i ^ 2 = 1 := by
    have h1 : trace (B * B) = trace (diagonal (RCLike.ofReal ∘ lam : Fin d → ℂ) *
        diagonal (RCLike.ofReal ∘ lam : Fin d → ℂ)) := by
      rw [hspec]
      obtain ⟨D, hD⟩ : ∃ D : Matrix (Fin d) (Fin d) ℂ, D = diagonal (RCLike.ofReal ∘ lam) := ⟨_, rfl⟩
      rw [← hD, show U * D * star U * (U * D * star U) = U * (D * (star U * U) * D * star U) from by
        simp only [Matrix.mul_assoc], hUU, Matrix.mul_one, Matrix.trace_mul_comm, Matrix.mul_assoc,
        hUU, Matrix.mul_one]
    rw [ht, diagonal_mul_diagonal, trace_diagonal] at h1
    have h2 : ((∑ i, lam i ^ 2 : ℝ) : ℂ) = 1 := by
      rw [h1]
      push_cast
      refine Finset.sum_congr rfl fun i _ => ?_
      simp [sq]
    exact_mod_cast h2
  have hge : ∀ i, 0 ≤ 1 + lam i := by
    intro i
    have : lam i ^ 2 ≤ 1 := by
      rw [← hsum]
      exact Finset.single_le_sum (f := fun i => lam i ^ 2) (fun _ _ => sq_nonneg _) (Finset.mem_univ i)
    nlinarith
  have heq : 1 + B = U * diagonal (fun i => ((1 + lam i : ℝ) : ℂ)) * Uᴴ := by
    have : diagonal (fun i => ((1 + lam i : ℝ) : ℂ)) = 1 + diagonal (RCLike.ofReal ∘ lam : Fin d → ℂ) := by
      rw [← diagonal_one, diagonal_add]
      congr 1
      ext i
      simp
    rw [this, Matrix.mul_add, Matrix.add_mul, Matrix.mul_one, ← Matrix.star_eq_conjTranspose, hUU', ← hspec]
  rw [heq]
  refine PosSemidef.mul_mul_conjTranspose_same (PosSemidef.diagonal fun i => ?_) U
  exact Complex.zero_le_real.mpr (hge i)

end QInfer
