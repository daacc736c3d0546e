import Verif.Model.RandomStates
import Verif.Lemmas.GaussInvariant
import Mathlib.MeasureTheory.Constructions.Pi
import Mathlib.Tactic.Linarith
import Mathlib.Tactic.LinearCombination
import Mathlib.Tactic.FieldSimp
import Mathlib.Tactic.Ring

/-!
# Rotating the variates of the random states
-/

namespace QInfer

open MeasureTheory ProbabilityTheory Finset Matrix

/-! ## Real matrices -/

/-- The orthogonal matrix `O` acting on the columns. -/
noncomputable def actReal {N r : Nat} (O : Matrix (Fin N) (Fin N) ℝ) : (Fin N × Fin r → ℝ) →ₗ[ℝ] (Fin N × Fin r → ℝ) where
  toFun v p := ∑ l, O p.1 l * v (l, p.2)
  map_add' u v := by
    funext p
    simp only [Pi.add_apply, mul_add, sum_add_distrib]
  map_smul' c v := by
    funext p
    simp only [Pi.smul_apply, smul_eq_mul, RingHom.id_apply, mul_sum]
    exact sum_congr rfl fun l _ => by ring

theorem actReal_mat {N r : Nat} (O : Matrix (Fin N) (Fin N) ℝ) (v : Fin N × Fin r → ℝ) :
    (of fun i j => actReal O v (i, j) : Matrix (Fin N) (Fin r) ℝ) = O * of fun i j => v (i, j) := by
  ext i j
  simp [actReal, mul_apply]

theorem sumsq_trace {N r : Nat} (X : Matrix (Fin N) (Fin r) ℝ) : trace (X * Xᵀ) = ∑ i, ∑ j, X i j ^ 2 := by
  simp only [trace, diag_apply, mul_apply, transpose_apply]
  exact sum_congr rfl fun i _ => sum_congr rfl fun j _ => by ring

theorem trace_rotate {N r : Nat} (O : Matrix (Fin N) (Fin N) ℝ) (h : Oᵀ * O = 1) (X : Matrix (Fin N) (Fin r) ℝ) :
    trace (O * X * (O * X)ᵀ) = trace (X * Xᵀ) := by
  rw [transpose_mul, trace_mul_comm, Matrix.mul_assoc, ← Matrix.mul_assoc Oᵀ, h, Matrix.one_mul, trace_mul_comm]

theorem actReal_norm {N r : Nat} (O : Matrix (Fin N) (Fin N) ℝ) (h : Oᵀ * O = 1) (v : Fin N × Fin r → ℝ) :
    ∑ p, actReal O v p ^ 2 = ∑ p, v p ^ 2 := by
  have h1 := trace_rotate O h (of fun i j => v (i, j) : Matrix (Fin N) (Fin r) ℝ)
  rw [← actReal_mat, sumsq_trace, sumsq_trace] at h1
  rw [Fintype.sum_prod_type, Fintype.sum_prod_type]
  exact h1

/-- The state drawn from rotated variates is the rotated state. -/
theorem redit_rotate {N r : Nat} (O : Matrix (Fin N) (Fin N) ℝ) (h : Oᵀ * O = 1) (v : Fin N × Fin r → ℝ) :
    reditDraw (actReal O v) =
      (reditDraw v).map fun ρ => O.map (fun x => (x : ℂ)) * ρ * (O.map fun x => (x : ℂ))ᵀ := by
  unfold reditDraw ginibreRedit
  rw [actReal_mat]
  simp only [trace_rotate O h]
  obtain ⟨X, hX⟩ : ∃ X, X = (of fun i j => v (i, j) : Matrix (Fin N) (Fin r) ℝ) := ⟨_, rfl⟩
  rw [← hX]
  by_cases h0 : trace (X * Xᵀ) = 0
  · simp [h0]
  · simp only [h0, if_false, Option.map_some, Option.some.injEq]
    have hm : ∀ {a b c : Nat} (A : Matrix (Fin a) (Fin b) ℝ) (B : Matrix (Fin b) (Fin c) ℝ),
        (A * B).map (fun x => (x : ℂ)) = A.map (fun x => (x : ℂ)) * B.map (fun x => (x : ℂ)) := by
      intro a b c A B
      ext i j
      simp [mul_apply]
    have ht : (O.map fun x => (x : ℂ))ᵀ = (Oᵀ).map fun x => (x : ℂ) := rfl
    rw [ht, ← hm, ← hm]
    congr 1
    rw [transpose_mul, Matrix.mul_smul, Matrix.smul_mul]
    simp only [Matrix.mul_assoc]

/-- The entries of the state. -/
noncomputable def reditEntry {N r : Nat} (i j : Fin N) (v : Fin N × Fin r → ℝ) : ℝ :=
  (∑ k, v (i, k) * v (j, k)) / ∑ p, v p ^ 2

theorem redit_entry {N r : Nat} (i j : Fin N) (v : Fin N × Fin r → ℝ) :
    ((reditDraw v).getD 0) i j = (reditEntry i j v : ℂ) := by
  unfold reditDraw ginibreRedit reditEntry
  have e : trace ((of fun i j => v (i, j) : Matrix (Fin N) (Fin r) ℝ) * (of fun i j => v (i, j))ᵀ) = ∑ p, v p ^ 2 := by
    rw [sumsq_trace, Fintype.sum_prod_type]; rfl
  simp only [e]
  split_ifs with h0
  · simp [h0]
  · simp only [Option.getD_some, map_apply, Matrix.smul_apply, mul_apply, transpose_apply, of_apply, smul_eq_mul]
    congr 1
    rw [div_eq_inv_mul]

theorem reditEntry_measurable {N r : Nat} (i j : Fin N) : Measurable (reditEntry (r := r) i j) := by
  unfold reditEntry
  fun_prop

theorem reditEntry_le {N r : Nat} (i j : Fin N) (v : Fin N × Fin r → ℝ) : |reditEntry i j v| ≤ 1 := by
  unfold reditEntry
  have hS : 0 ≤ ∑ p, v p ^ 2 := sum_nonneg fun p _ => sq_nonneg _
  have hi : ∀ i, ∑ k, v (i, k) ^ 2 ≤ ∑ p, v p ^ 2 := fun i => by
    rw [Fintype.sum_prod_type]
    exact single_le_sum (f := fun i => ∑ k, v (i, k) ^ 2) (fun i _ => sum_nonneg fun k _ => sq_nonneg _) (mem_univ i)
  rw [abs_div, abs_of_nonneg hS]
  apply div_le_one_of_le₀ _ hS
  have h1 : |∑ k, v (i, k) * v (j, k)| ≤ ∑ k, (v (i, k) ^ 2 + v (j, k) ^ 2) / 2 := by
    refine (abs_sum_le_sum_abs _ _).trans (sum_le_sum fun k _ => ?_)
    rw [abs_le]
    constructor <;> nlinarith [sq_nonneg (v (i, k) + v (j, k)), sq_nonneg (v (i, k) - v (j, k))]
  rw [← sum_div, sum_add_distrib] at h1
  linarith [hi i, hi j]

theorem reditEntry_integrable {N r : Nat} (i j : Fin N) :
    Integrable (reditEntry (r := r) i j) (normals (Fin N × Fin r)) :=
  Integrable.of_bound (reditEntry_measurable i j).aestronglyMeasurable 1
    (Filter.Eventually.of_forall fun v => by rw [Real.norm_eq_abs]; exact reditEntry_le i j v)

theorem normals_ne_zero {ι : Type} [Fintype ι] [Nonempty ι] : ∀ᵐ v ∂normals ι, v ≠ 0 := by
  have : NullSingletonClass (normals ι) := by
    unfold normals
    haveI : NullSingletonClass (gaussianReal 0 1) := nullSingletonClass_gaussianReal one_ne_zero
    infer_instance
  have h : normals ι {0} = 0 := measure_singleton 0
  rw [ae_iff]
  simpa using h

theorem sumsq_pos {ι : Type} [Fintype ι] {v : ι → ℝ} (hv : v ≠ 0) : 0 < ∑ p, v p ^ 2 := by
  obtain ⟨p, hp⟩ := Function.ne_iff.1 hv
  exact sum_pos' (fun _ _ => sq_nonneg _) ⟨p, mem_univ p, by have : v p ≠ 0 := hp; positivity⟩

theorem normals_integral {ι : Type} [Fintype ι] (f : (ι → ℝ) →ₗ[ℝ] (ι → ℝ))
    (hf : ∀ x, ∑ i, f x i ^ 2 = ∑ i, x i ^ 2) {E : Type} [NormedAddCommGroup E] [NormedSpace ℝ E] (g : (ι → ℝ) → E) :
    ∫ v, g (f v) ∂normals ι = ∫ v, g v ∂normals ι := by
  obtain ⟨e, he, hm⟩ := normals_invariant f hf
  conv_rhs => rw [← hm]
  rw [integral_map_equiv]
  simp only [he]

theorem normals_sets {ι : Type} [Fintype ι] (f : (ι → ℝ) →ₗ[ℝ] (ι → ℝ))
    (hf : ∀ x, ∑ i, f x i ^ 2 = ∑ i, x i ^ 2) (A : Set (ι → ℝ)) :
    normals ι {v | f v ∈ A} = normals ι A := by
  obtain ⟨e, he, hm⟩ := normals_invariant f hf
  conv_rhs => rw [← hm, MeasurableEquiv.map_apply]
  congr 1
  ext v
  simp [he]

theorem reditEntry_rotate {N r : Nat} (O : Matrix (Fin N) (Fin N) ℝ) (h : Oᵀ * O = 1) (i j : Fin N) (v : Fin N × Fin r → ℝ) :
    reditEntry i j (actReal O v) =
      (∑ k, (∑ l, O i l * v (l, k)) * (∑ l, O j l * v (l, k))) / ∑ p, v p ^ 2 := by
  unfold reditEntry
  rw [actReal_norm O h]
  rfl

/-- The mean of the real Ginibre states. -/
theorem redit_mean {N r : Nat} (hr : 0 < r) (i j : Fin N) :
    ∫ v, reditEntry (r := r) i j v ∂normals (Fin N × Fin r) = if i = j then 1 / (N : ℝ) else 0 := by
  split_ifs with hij
  · subst hij
    have hswap : ∀ j, ∫ v, reditEntry (r := r) j j v ∂normals (Fin N × Fin r) =
        ∫ v, reditEntry (r := r) i i v ∂normals (Fin N × Fin r) := by
      intro j
      let O : Matrix (Fin N) (Fin N) ℝ := of fun a b => if Equiv.swap i j a = b then 1 else 0
      have hO : Oᵀ * O = 1 := by
        ext a b
        show ∑ c, O c a * O c b = (1 : Matrix (Fin N) (Fin N) ℝ) a b
        rw [sum_eq_single (Equiv.swap i j a)]
        · simp [O, one_apply]
        · intro c _ hc
          have : Equiv.swap i j c ≠ a := fun h => hc (by rw [← h]; simp)
          simp [O, this]
        · simp
      have hl : ∀ (a : Fin N) (v : Fin N × Fin r → ℝ) k, ∑ l, O a l * v (l, k) = v (Equiv.swap i j a, k) := by
        intro a v k
        simp [O]
      rw [← normals_integral (actReal O) (actReal_norm O hO) (reditEntry (r := r) j j)]
      congr 1
      funext v
      rw [reditEntry_rotate O hO]
      simp only [hl, Equiv.swap_apply_right]
      rfl
    have hsum : ∑ j : Fin N, ∫ v, reditEntry (r := r) j j v ∂normals (Fin N × Fin r) = 1 := by
      rw [← integral_finsetSum _ fun j _ => reditEntry_integrable j j]
      have hne : Nonempty (Fin N × Fin r) := ⟨(i, ⟨0, hr⟩)⟩
      have : ∀ᵐ v ∂normals (Fin N × Fin r), ∑ j : Fin N, reditEntry (r := r) j j v = 1 := by
        filter_upwards [normals_ne_zero] with v hv
        unfold reditEntry
        rw [← sum_div, div_eq_one_iff_eq (sumsq_pos hv).ne', Fintype.sum_prod_type]
        exact sum_congr rfl fun a _ => sum_congr rfl fun k _ => by ring
      rw [integral_congr_ae this]
      simp
    simp only [hswap, sum_const, card_univ, Fintype.card_fin, nsmul_eq_mul] at hsum
    have hN : (N : ℝ) ≠ 0 := by
      intro h; rw [h, zero_mul] at hsum; exact zero_ne_one hsum
    rw [eq_div_iff hN, mul_comm]; exact hsum
  · let O : Matrix (Fin N) (Fin N) ℝ := diagonal fun a => if a = i then -1 else 1
    have hO : Oᵀ * O = 1 := by
      show (diagonal _)ᵀ * diagonal _ = 1
      rw [diagonal_transpose, diagonal_mul_diagonal, ← diagonal_one]
      congr 1
      funext a
      split_ifs <;> norm_num
    have hl : ∀ (a : Fin N) (v : Fin N × Fin r → ℝ) k,
        ∑ l, O a l * v (l, k) = (if a = i then -1 else 1) * v (a, k) := by
      intro a v k
      have := mulVec_diagonal (fun a => if a = i then (-1 : ℝ) else 1) (fun l => v (l, k)) a
      simpa [mulVec, dotProduct] using this
    have h1 := normals_integral (actReal O) (actReal_norm O hO) (reditEntry (r := r) i j)
    have h2 : ∀ v, reditEntry (r := r) i j (actReal O v) = -reditEntry i j v := by
      intro v
      rw [reditEntry_rotate O hO]
      simp only [hl, if_true, if_neg (Ne.symm hij), reditEntry]
      rw [← neg_div, ← sum_neg_distrib]
      congr 1
      exact sum_congr rfl fun k _ => by ring
    simp only [h2, integral_neg] at h1
    linarith

end QInfer
