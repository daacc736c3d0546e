import Verif.Props.Isotropy
import Verif.Lemmas.SphereMoments
import Mathlib.LinearAlgebra.Matrix.Rank
import Mathlib.Algebra.Order.Chebyshev
import Mathlib.Analysis.SpecificLimits.Basic

/-!
# C137: how mixed random states are
-/

namespace QInfer

open MeasureTheory ProbabilityTheory Finset Matrix Filter Topology
open scoped ComplexOrder

/-! ## Second moments -/

theorem reditEntry_mul {N r : Nat} (i j k l : Fin N) (v : Fin N × Fin r → ℝ) :
    reditEntry i j v * reditEntry k l v = ∑ p, ∑ q, dir4 (i, p) (j, p) (k, q) (l, q) v := by
  unfold reditEntry dir4
  rw [div_mul_div_comm, sum_mul_sum, ← sq, sum_div]
  refine sum_congr rfl fun p _ => ?_
  rw [sum_div]
  exact sum_congr rfl fun q _ => by ring

theorem reditEntry_mul_integrable {N r : Nat} (i j k l : Fin N) :
    Integrable (fun v => reditEntry (r := r) i j v * reditEntry k l v) (normals (Fin N × Fin r)) := by
  simp only [reditEntry_mul]
  exact integrable_finsetSum _ fun p _ => integrable_finsetSum _ fun q _ => dir4_integrable _ _ _ _

theorem same_pair {N r : Nat} (i j : Fin N) (p q : Fin r) : same (i, p) (j, q) = same i j * same p q := by
  unfold same
  by_cases h : i = j <;> by_cases h' : p = q <;> simp [h, h']

theorem reditEntry_second {N r : Nat} (hN : 0 < N) (hr : 0 < r) (i j k l : Fin N) :
    ∫ v, reditEntry (r := r) i j v * reditEntry k l v ∂normals (Fin N × Fin r) =
      (r * (same i j * same k l) + same i k * same j l + same i l * same j k) / (N * (N * r + 2)) := by
  have : Nonempty (Fin N × Fin r) := ⟨(⟨0, hN⟩, ⟨0, hr⟩)⟩
  simp only [reditEntry_mul]
  rw [integral_finsetSum _ fun p _ => integrable_finsetSum _ fun q _ => dir4_integrable _ _ _ _]
  have e : ∀ p : Fin r, ∫ v, ∑ q, dir4 (i, p) (j, p) (k, q) (l, q) v ∂normals (Fin N × Fin r) =
      ∑ q, ((same i j * same k l) + (same i k * same j l + same i l * same j k) * same p q) /
        ((N * r : ℝ) * (N * r + 2)) := by
    intro p
    rw [integral_finsetSum _ fun q _ => dir4_integrable _ _ _ _]
    refine sum_congr rfl fun q _ => ?_
    rw [dir4_mean]
    simp only [same_pair, Fintype.card_prod, Fintype.card_fin, Nat.cast_mul]
    congr 1
    have h1 : ∀ p : Fin r, same p p = 1 := fun p => by simp [same]
    have h2 : same p q * same p q = same p q := by unfold same; split_ifs <;> simp
    rw [h1, h1]
    linear_combination (same i k * same j l + same i l * same j k) * h2
  simp only [e, ← sum_div, sum_add_distrib, ← mul_sum]
  have h3 : ∀ p : Fin r, ∑ q, same p q = 1 := fun p => by simp [same]
  simp only [h3]
  have hN' : (N : ℝ) ≠ 0 := by positivity
  have hr' : (r : ℝ) ≠ 0 := by positivity
  simp
  field_simp
  ring

/-- **C137, second moments.**  For the states drawn by `rand_dm_ginibre_redit`, of every dimension `N` and rank `r`, the
mean product of the expectation values of any two operators is
`(r tr A tr B + tr AB + tr ABᵀ) / (N (N r + 2))`. -/
theorem C137_second_moments {N r : Nat} (hN : 0 < N) (hr : 0 < r) (A B : Matrix (Fin N) (Fin N) ℂ) :
    Integrable (fun v => trace (A * (reditDraw v).getD 0) * trace (B * (reditDraw v).getD 0))
      (normals (Fin N × Fin r)) ∧
    ∫ v, trace (A * (reditDraw v).getD 0) * trace (B * (reditDraw v).getD 0) ∂normals (Fin N × Fin r) =
      (r * (trace A * trace B) + trace (A * B) + trace (A * Bᵀ)) / (N * (N * r + 2)) := by
  have e : ∀ v : Fin N × Fin r → ℝ, trace (A * (reditDraw v).getD 0) * trace (B * (reditDraw v).getD 0) =
      ∑ i, ∑ j, ∑ k, ∑ l, A i j * B k l * ((reditEntry j i v * reditEntry l k v : ℝ) : ℂ) := by
    intro v
    simp only [trace, diag_apply, mul_apply, redit_entry]
    rw [sum_mul]
    refine sum_congr rfl fun i _ => ?_
    rw [sum_mul]
    refine sum_congr rfl fun j _ => ?_
    rw [mul_sum]
    refine sum_congr rfl fun k _ => ?_
    rw [mul_sum]
    refine sum_congr rfl fun l _ => ?_
    push_cast
    ring
  have hi : ∀ i j k l, Integrable (fun v : Fin N × Fin r → ℝ =>
      A i j * B k l * ((reditEntry j i v * reditEntry l k v : ℝ) : ℂ)) (normals (Fin N × Fin r)) := fun i j k l =>
    ((reditEntry_mul_integrable j i l k).ofReal (𝕜 := ℂ)).const_mul _
  simp only [e]
  refine ⟨integrable_finsetSum _ fun i _ => integrable_finsetSum _ fun j _ => integrable_finsetSum _ fun k _ =>
    integrable_finsetSum _ fun l _ => hi i j k l, ?_⟩
  rw [integral_finsetSum _ fun i _ => integrable_finsetSum _ fun j _ => integrable_finsetSum _ fun k _ =>
    integrable_finsetSum _ fun l _ => hi i j k l]
  have e2 : ∀ i, ∫ v, ∑ j, ∑ k, ∑ l, A i j * B k l * ((reditEntry j i v * reditEntry l k v : ℝ) : ℂ)
      ∂normals (Fin N × Fin r) = ∑ j, ∑ k, ∑ l, A i j * B k l *
        (((r * (same j i * same l k) + same j l * same i k + same j k * same i l) / (N * (N * r + 2)) : ℝ) : ℂ) := by
    intro i
    rw [integral_finsetSum _ fun j _ => integrable_finsetSum _ fun k _ =>
      integrable_finsetSum _ fun l _ => hi i j k l]
    refine sum_congr rfl fun j _ => ?_
    rw [integral_finsetSum _ fun k _ => integrable_finsetSum _ fun l _ => hi i j k l]
    refine sum_congr rfl fun k _ => ?_
    rw [integral_finsetSum _ fun l _ => hi i j k l]
    refine sum_congr rfl fun l _ => ?_
    rw [integral_const_mul]
    congr 1
    rw [← reditEntry_second hN hr j i l k]
    exact integral_ofReal (𝕜 := ℂ) (f := fun v => reditEntry j i v * reditEntry l k v)
  simp only [e2]
  push_cast
  simp only [mul_div_assoc', ← sum_div]
  congr 1
  have s : ∀ a b : Fin N, ((same a b : ℝ) : ℂ) = if a = b then 1 else 0 := fun a b => by
    unfold same; split_ifs <;> simp
  simp only [s, mul_add, sum_add_distrib]
  rw [add_right_comm (_ * (trace A * trace B))]
  congr 1
  · congr 1
    · have hAB : (r : ℂ) * (trace A * trace B) = ∑ i, ∑ k, A i i * B k k * r := by
        simp only [trace, diag_apply]
        rw [sum_mul_sum, mul_sum]
        refine sum_congr rfl fun i _ => ?_
        rw [mul_sum]
        exact sum_congr rfl fun k _ => by ring
      rw [hAB]
      refine sum_congr rfl fun i _ => ?_
      rw [Finset.sum_comm]
      refine sum_congr rfl fun k _ => ?_
      simp
    · simp only [trace, diag_apply, mul_apply, transpose_apply, mul_ite, mul_one, mul_zero]
      refine sum_congr rfl fun i _ => sum_congr rfl fun j _ => ?_
      simp
  · simp only [trace, diag_apply, mul_apply, mul_ite, mul_one, mul_zero]
    refine sum_congr rfl fun i _ => sum_congr rfl fun j _ => ?_
    simp

theorem redit_trace {N r : Nat} (hN : 0 < N) (hr : 0 < r) (A : Matrix (Fin N) (Fin N) ℂ) :
    Integrable (fun v => trace (A * (reditDraw v).getD 0)) (normals (Fin N × Fin r)) ∧
    ∫ v, trace (A * (reditDraw v).getD 0) ∂normals (Fin N × Fin r) = trace A / N := by
  obtain ⟨-, hi, hm⟩ := C135_redit_mean hN hr
  simp only [trace, diag_apply, mul_apply]
  have hi' : ∀ i j, Integrable (fun v : Fin N × Fin r → ℝ => A i j * ((reditDraw v).getD 0) j i)
      (normals (Fin N × Fin r)) := fun i j => (hi j i).const_mul _
  refine ⟨integrable_finsetSum _ fun i _ => integrable_finsetSum _ fun j _ => hi' i j, ?_⟩
  rw [integral_finsetSum _ fun i _ => integrable_finsetSum _ fun j _ => hi' i j, sum_div]
  refine sum_congr rfl fun i _ => ?_
  rw [integral_finsetSum _ fun j _ => hi' i j]
  simp only [integral_const_mul, hm, Matrix.smul_apply, one_apply, smul_eq_mul, mul_ite, mul_one, mul_zero]
  simp [div_eq_mul_inv]

/-- **C137, covariances.**  The covariance of the expectation values of any two operators decreases as the inverse of
the rank. -/
theorem C137_covariance {N r : Nat} (hN : 0 < N) (hr : 0 < r) (A B : Matrix (Fin N) (Fin N) ℂ) :
    ∫ v, (trace (A * (reditDraw v).getD 0) - trace A / N) * (trace (B * (reditDraw v).getD 0) - trace B / N)
        ∂normals (Fin N × Fin r) =
      (trace (A * B) + trace (A * Bᵀ) - 2 * trace A * trace B / N) / (N * (N * r + 2)) := by
  obtain ⟨i2, m2⟩ := C137_second_moments hN hr A B
  obtain ⟨ia, ma⟩ := redit_trace hN hr A
  obtain ⟨ib, mb⟩ := redit_trace hN hr B
  have e : ∀ v : Fin N × Fin r → ℝ,
      (trace (A * (reditDraw v).getD 0) - trace A / N) * (trace (B * (reditDraw v).getD 0) - trace B / N) =
      trace (A * (reditDraw v).getD 0) * trace (B * (reditDraw v).getD 0) -
        trace B / N * trace (A * (reditDraw v).getD 0) - trace A / N * trace (B * (reditDraw v).getD 0) +
        trace A / N * (trace B / N) := fun v => by ring
  have j1 : Integrable (fun v => trace (A * (reditDraw v).getD 0) * trace (B * (reditDraw v).getD 0) -
        trace B / N * trace (A * (reditDraw v).getD 0)) (normals (Fin N × Fin r)) := i2.sub (ia.const_mul _)
  have j2 : Integrable (fun v => trace (A * (reditDraw v).getD 0) * trace (B * (reditDraw v).getD 0) -
        trace B / N * trace (A * (reditDraw v).getD 0) - trace A / N * trace (B * (reditDraw v).getD 0))
        (normals (Fin N × Fin r)) := j1.sub (ib.const_mul _)
  simp only [e]
  rw [integral_add j2 (integrable_const _), integral_sub j1 (ib.const_mul _), integral_sub i2 (ia.const_mul _),
    integral_const_mul, integral_const_mul, m2, ma, mb]
  have hN' : (N : ℂ) ≠ 0 := by exact_mod_cast hN.ne'
  have hD : (N * r + 2 : ℂ) ≠ 0 := by exact_mod_cast (by positivity : (N * r + 2 : ℝ) ≠ 0)
  simp only [integral_const, probReal_univ, one_smul]
  obtain ⟨D, hD'⟩ : ∃ D, D = (N * r + 2 : ℂ) := ⟨_, rfl⟩
  rw [← hD'] at hD ⊢
  field_simp
  rw [hD']
  ring

/-! ## Purity -/

/-- The purity `tr ρ²`. -/
noncomputable def Spec.purity {N : Nat} (ρ : Matrix (Fin N) (Fin N) ℂ) : ℝ := (trace (ρ * ρ)).re

theorem redit_purity {N r : Nat} (v : Fin N × Fin r → ℝ) :
    Spec.purity ((reditDraw v).getD 0) = ∑ i, ∑ j, reditEntry i j v * reditEntry j i v := by
  unfold Spec.purity
  simp only [trace, diag_apply, mul_apply, redit_entry, Complex.re_sum]
  exact sum_congr rfl fun i _ => sum_congr rfl fun j _ => by rw [← Complex.ofReal_mul, Complex.ofReal_re]

/-- **C137, mean purity.**  The mean of `tr ρ²` is `(N + r + 1) / (N r + 2)`. -/
theorem C137_purity {N r : Nat} (hN : 0 < N) (hr : 0 < r) :
    Integrable (fun v => Spec.purity ((reditDraw v).getD 0)) (normals (Fin N × Fin r)) ∧
    ∫ v, Spec.purity ((reditDraw v).getD 0) ∂normals (Fin N × Fin r) = (N + r + 1) / (N * r + 2) := by
  simp only [redit_purity]
  refine ⟨integrable_finsetSum _ fun i _ => integrable_finsetSum _ fun j _ => reditEntry_mul_integrable i j j i, ?_⟩
  rw [integral_finsetSum _ fun i _ => integrable_finsetSum _ fun j _ => reditEntry_mul_integrable i j j i]
  have e : ∀ i : Fin N, ∫ v, ∑ j, reditEntry (r := r) i j v * reditEntry j i v ∂normals (Fin N × Fin r) =
      ∑ j, ((r + 1) * same i j + 1) / (N * (N * r + 2)) := by
    intro i
    rw [integral_finsetSum _ fun j _ => reditEntry_mul_integrable i j j i]
    refine sum_congr rfl fun j _ => ?_
    rw [reditEntry_second hN hr]
    congr 1
    by_cases h : i = j
    · subst h; simp [same]
    · have h' : ¬ j = i := fun e => h e.symm
      simp [same, h, h']
  have h3 : ∀ p : Fin N, ∑ q, same p q = 1 := fun p => by simp [same]
  simp only [e, ← sum_div, sum_add_distrib, ← mul_sum, h3]
  have hN' : (N : ℝ) ≠ 0 := by positivity
  simp
  field_simp
  ring

/-- **C137, rank and mixture.**  The mean purity strictly decreases with the rank, from one for rank 1 towards `1/N`. -/
theorem C137_purity_rank {N : Nat} (hN : 2 ≤ N) :
    (∀ r s : Nat, 0 < r → r < s → ∫ v, Spec.purity ((reditDraw v).getD 0) ∂normals (Fin N × Fin s) <
      ∫ v, Spec.purity ((reditDraw v).getD 0) ∂normals (Fin N × Fin r)) ∧
    ∫ v, Spec.purity ((reditDraw v).getD 0) ∂normals (Fin N × Fin 1) = 1 ∧
    Tendsto (fun r : Nat => ∫ v, Spec.purity ((reditDraw v).getD 0) ∂normals (Fin N × Fin r)) atTop (𝓝 (1 / N)) := by
  have hN0 : 0 < N := by omega
  have hN2 : (2 : ℝ) ≤ N := by exact_mod_cast hN
  refine ⟨fun r s hr hs => ?_, ?_, ?_⟩
  · rw [(C137_purity hN0 hr).2, (C137_purity hN0 (hr.trans hs)).2]
    have hs' : (r : ℝ) < s := by exact_mod_cast hs
    have h1 : (0 : ℝ) < N * s + 2 := by positivity
    have h2 : (0 : ℝ) < N * r + 2 := by positivity
    rw [div_lt_div_iff₀ h1 h2]
    nlinarith [mul_pos (sub_pos.2 hs') (by nlinarith : (0 : ℝ) < N * N + N - 2)]
  · rw [(C137_purity hN0 one_pos).2]
    rw [div_eq_one_iff_eq (by positivity)]
    push_cast
    ring
  · have h1 : Tendsto (fun r : Nat => 1 / (N : ℝ) + ((N - 1) * (N + 2) / N ^ 2) * (1 / (r + 2 / N : ℝ))) atTop
        (𝓝 (1 / (N : ℝ) + (((N : ℝ) - 1) * (N + 2) / (N : ℝ) ^ 2) * 0)) := by
      refine (Tendsto.const_mul _ ?_).const_add _
      refine tendsto_const_nhds.div_atTop ?_
      exact tendsto_atTop_add_const_right _ _ tendsto_natCast_atTop_atTop
    rw [mul_zero, add_zero] at h1
    refine h1.congr' ?_
    filter_upwards [eventually_gt_atTop 0] with r hr
    rw [(C137_purity hN0 hr).2]
    have hN' : (N : ℝ) ≠ 0 := by positivity
    have hD : (r + 2 / N : ℝ) = (N * r + 2) / N := by field_simp
    rw [hD]
    have : (N * r + 2 : ℝ) ≠ 0 := by positivity
    field_simp
    ring

theorem reditEntry_symm {N r : Nat} (i j : Fin N) (v : Fin N × Fin r → ℝ) : reditEntry i j v = reditEntry j i v := by
  unfold reditEntry
  congr 1
  exact sum_congr rfl fun k _ => mul_comm _ _

theorem reditEntry_diag {N r : Nat} {v : Fin N × Fin r → ℝ} (hv : v ≠ 0) : ∑ i, reditEntry i i v = 1 := by
  unfold reditEntry
  rw [← sum_div, div_eq_one_iff_eq (sumsq_pos hv).ne', Fintype.sum_prod_type]
  exact sum_congr rfl fun i _ => sum_congr rfl fun k _ => by ring

/-- **C137, high rank.**  The purity is at least that of the maximally mixed state, almost surely, and the probability
that it exceeds it by `ε` decreases as the inverse of the rank. -/
theorem C137_high_rank {N r : Nat} (hN : 0 < N) (hr : 0 < r) (ε : ℝ) (hε : 0 < ε) :
    (∀ᵐ v ∂normals (Fin N × Fin r), 1 / (N : ℝ) ≤ Spec.purity ((reditDraw v).getD 0)) ∧
    (normals (Fin N × Fin r)).real {v | 1 / (N : ℝ) + ε ≤ Spec.purity ((reditDraw v).getD 0)} ≤
      (N - 1) * (N + 2) / (N * (N * r + 2) * ε) := by
  have : Nonempty (Fin N × Fin r) := ⟨(⟨0, hN⟩, ⟨0, hr⟩)⟩
  have h1 : ∀ᵐ v ∂normals (Fin N × Fin r), 1 / (N : ℝ) ≤ Spec.purity ((reditDraw v).getD 0) := by
    filter_upwards [normals_ne_zero] with v hv
    rw [redit_purity]
    have hd := reditEntry_diag hv
    have hc := sq_sum_le_card_mul_sum_sq (s := univ) (f := fun i : Fin N => reditEntry i i v)
    rw [hd, card_univ, Fintype.card_fin] at hc
    have hle : ∑ i, reditEntry i i v ^ 2 ≤ ∑ i, ∑ j, reditEntry i j v * reditEntry j i v := by
      refine sum_le_sum fun i _ => ?_
      rw [sq]
      refine single_le_sum (f := fun j => reditEntry i j v * reditEntry j i v) (fun j _ => ?_) (mem_univ i)
      rw [reditEntry_symm j i]
      exact mul_self_nonneg _
    rw [div_le_iff₀ (by positivity)]
    have hN' : (0 : ℝ) < N := by positivity
    nlinarith
  refine ⟨h1, ?_⟩
  obtain ⟨hi, hm⟩ := C137_purity hN hr
  have hmk := mul_meas_ge_le_integral_of_nonneg (μ := normals (Fin N × Fin r))
    (f := fun v => Spec.purity ((reditDraw v).getD 0) - 1 / N) (by
      filter_upwards [h1] with v hv
      simpa using hv) (hi.sub (integrable_const _)) ε
  rw [integral_sub hi (integrable_const _), hm] at hmk
  have hset : {v : Fin N × Fin r → ℝ | 1 / (N : ℝ) + ε ≤ Spec.purity ((reditDraw v).getD 0)} =
      {v | ε ≤ Spec.purity ((reditDraw v).getD 0) - 1 / N} := by
    ext v
    simp only [Set.mem_ofPred_eq]
    constructor <;> intro h <;> linarith
  rw [hset]
  have hN' : (N : ℝ) ≠ 0 := by positivity
  have hD : (0 : ℝ) < N * (N * r + 2) := by positivity
  rw [le_div_iff₀ (by positivity)]
  have e : ((N : ℝ) + r + 1) / (N * r + 2) - 1 / N = (N - 1) * (N + 2) / (N * (N * r + 2)) := by
    have : (N * r + 2 : ℝ) ≠ 0 := by positivity
    field_simp
    ring
  simp only [integral_const, probReal_univ, one_smul] at hmk
  rw [e, le_div_iff₀ hD] at hmk
  linarith

/-! ## Rank -/

/-- **C137, rank.**  Almost every real Ginibre state has the rank that was asked for. -/
theorem C137_rank {N r : Nat} (hN : 0 < N) (hr : 0 < r) :
    ∀ᵐ v ∂normals (Fin N × Fin r), ∃ ρ, reditDraw v = some ρ ∧ ρ.rank = min N r := by
  obtain ⟨m, hm⟩ : ∃ m, m = min N r := ⟨_, rfl⟩
  have hmN : m ≤ N := hm ▸ min_le_left _ _
  have hmr : m ≤ r := hm ▸ min_le_right _ _
  have hp := normals_precomp (fun p : Fin m × Fin m => (Fin.castLE hmN p.1, Fin.castLE hmr p.2)) (by
    rintro ⟨a, b⟩ ⟨c, d⟩ h
    simp only [Prod.mk.injEq, Fin.castLE_inj] at h
    rw [h.1, h.2])
  have hdet := normals_det m
  rw [← hp] at hdet
  have hq : Measurable fun (v : Fin N × Fin r → ℝ) (k : Fin m × Fin m) =>
      v (Fin.castLE hmN k.1, Fin.castLE hmr k.2) := by fun_prop
  have : Nonempty (Fin N × Fin r) := ⟨(⟨0, hN⟩, ⟨0, hr⟩)⟩
  filter_upwards [ae_of_ae_map hq.aemeasurable hdet, normals_ne_zero] with v hv hv0
  obtain ⟨X, hX⟩ : ∃ X, X = (of fun i j => v (i, j) : Matrix (Fin N) (Fin r) ℝ) := ⟨_, rfl⟩
  have ht : trace (X * Xᵀ) ≠ 0 := by
    rw [sumsq_trace, hX]
    have := (sumsq_pos hv0).ne'
    rw [Fintype.sum_prod_type] at this
    exact this
  refine ⟨((trace (X * Xᵀ))⁻¹ • (X * Xᵀ)).map fun x => (x : ℂ), ?_, ?_⟩
  · unfold reditDraw ginibreRedit
    rw [← hX]
    simp only [ht, if_false]
  · obtain ⟨Y, hY⟩ : ∃ Y, Y = X.map (fun x => (x : ℂ)) := ⟨_, rfl⟩
    have e : (((trace (X * Xᵀ))⁻¹ • (X * Xᵀ)).map fun x => (x : ℂ)) =
        (((trace (X * Xᵀ))⁻¹ : ℝ) : ℂ) • (Y * Yᴴ) := by
      ext i j
      simp [hY, mul_apply]
    have hne : (((trace (X * Xᵀ))⁻¹ : ℝ) : ℂ) ≠ 0 := by
      exact_mod_cast inv_ne_zero ht
    have hs : ∀ (c : ℂ) (M : Matrix (Fin N) (Fin N) ℂ), c ≠ 0 → (c • M).rank = M.rank := by
      intro c M hc
      have : c • M = M * (c • (1 : Matrix (Fin N) (Fin N) ℂ)) := by rw [Matrix.mul_smul, Matrix.mul_one]
      rw [this]
      apply rank_mul_eq_left_of_isUnit_det
      rw [det_smul, det_one, mul_one]
      exact (pow_ne_zero _ hc).isUnit
    rw [e, hs _ _ hne, rank_self_mul_conjTranspose, ← hm]
    refine le_antisymm ?_ ?_
    · rw [hm]
      refine le_min ?_ ?_
      · simpa using rank_le_card_height Y
      · simpa using rank_le_card_width Y
    · have hsub : (Y.submatrix (Fin.castLE hmN) (Fin.castLE hmr)).rank = m := by
        have hd : (Y.submatrix (Fin.castLE hmN) (Fin.castLE hmr)).det ≠ 0 := by
          have e2 : Y.submatrix (Fin.castLE hmN) (Fin.castLE hmr) =
              (of fun i j : Fin m => v (Fin.castLE hmN i, Fin.castLE hmr j)).map (algebraMap ℝ ℂ) := by
            ext i j
            simp [hY, hX]
          rw [e2, ← RingHom.mapMatrix_apply, ← RingHom.map_det]
          exact (map_ne_zero _).2 hv
        have := rank_of_isUnit (Y.submatrix (Fin.castLE hmN) (Fin.castLE hmr))
          ((isUnit_iff_isUnit_det _).2 hd.isUnit)
        simpa using this
      rw [← hsub]
      exact rank_submatrix_le _ _ _

/-! ## Bloch vectors -/

/-- **C137, GinibreUniform.**  The mean of the purity `(1 + |x|²) / 2` of the states drawn by `GinibreUniform` is
`(k + 2) / (2 k + 1)`. -/
theorem C137_bloch (k : Nat) (hk : 0 < k) :
    ∫ x, (1 + ‖x‖ ^ 2) / 2 ∂Spec.ginibreLaw k = ((k : ℝ) + 2) / (2 * k + 1) := by
  have hP := (C135_ginibre k).1
  have e : ∀ x : R3, (1 + ‖x‖ ^ 2) / 2 = 1 / 2 + ∑ i : Fin 3, (1 / 2) *
      (inner ℝ (EuclideanSpace.single i (1 : ℝ)) x * inner ℝ (EuclideanSpace.single i (1 : ℝ)) x) := by
    intro x
    rw [EuclideanSpace.norm_sq_eq, ← mul_sum]
    simp only [EuclideanSpace.inner_single_left, Real.norm_eq_abs, sq_abs, map_one, one_mul, ← sq]
    ring
  have hi := fun i : Fin 3 => (C135_moments k hk (EuclideanSpace.single i (1 : ℝ)) (EuclideanSpace.single i 1)).2
  simp only [e]
  rw [integral_add (integrable_const _) (integrable_finsetSum _ fun i _ => (hi i).1.const_mul _),
    integral_finsetSum _ fun i _ => (hi i).1.const_mul _]
  simp only [integral_const_mul, (hi _).2.2]
  have hk' : (2 * k + 1 : ℝ) ≠ 0 := by positivity
  simp
  field_simp
  ring

/-! ## Model parameters -/

/-- **C137, the prior.**  The parameters drawn by `GinibreReditDistribution` in a tomography basis: the first is `1/√N`,
the others have mean zero, and their covariances are known.  The parameters of symmetric elements have the variance
`2 / (N (N r + 2))`, and those of antisymmetric ones, such as `σ_y`, are always zero. -/
theorem C137_prior (b : TomoBasis) (hb : Spec.IsTomoBasis b.side b.data) (hN : 0 < b.side) {r : Nat} (hr : 0 < r) :
    ∃ x : (Fin b.side × Fin r → ℝ) → List ℝ,
      (∀ᵐ v ∂normals (Fin b.side × Fin r), ∃ ρ, reditDraw v = some ρ ∧ dmSample b ρ = .ok (some (x v)) ∧
        (0 < b.data.length → (x v).getD 0 0 = 1 / Real.sqrt b.side)) ∧
      (∀ a < b.data.length, ∫ v, (x v).getD a 0 ∂normals (Fin b.side × Fin r) =
        if a = 0 then 1 / Real.sqrt b.side else 0) ∧
      (∀ a c (ha : a < b.data.length) (hc : c < b.data.length), 0 < a → 0 < c →
        ∫ v, (x v).getD a 0 * (x v).getD c 0 ∂normals (Fin b.side × Fin r) =
          ((if a = c then 1 else 0) +
            (trace (Spec.mat b.side b.data[a] * (Spec.mat b.side b.data[c])ᵀ)).re) /
            (b.side * (b.side * r + 2))) ∧
      (∀ a (ha : a < b.data.length), 0 < a → (Spec.mat b.side b.data[a])ᵀ = Spec.mat b.side b.data[a] →
        ∫ v, (x v).getD a 0 ^ 2 ∂normals (Fin b.side × Fin r) = 2 / (b.side * (b.side * r + 2))) ∧
      ∀ a (ha : a < b.data.length), (Spec.mat b.side b.data[a])ᵀ = -Spec.mat b.side b.data[a] →
        ∀ v, (x v).getD a 0 = 0 := by
  obtain ⟨hρ, -, -⟩ := C135_redit_mean (N := b.side) (r := r) hN hr
  have hN' : (b.side : ℂ) ≠ 0 := by exact_mod_cast hN.ne'
  have hNr : (0 : ℝ) < b.side := by exact_mod_cast hN
  have hsq : Real.sqrt b.side ≠ 0 := (Real.sqrt_pos.2 hNr).ne'
  have hherm : ∀ a (ha : a < b.data.length), (Spec.mat b.side b.data[a])ᴴ = Spec.mat b.side b.data[a] :=
    fun a ha => hb.herm _ (List.getElem_mem ha)
  have htr : ∀ a (ha : a < b.data.length), trace (Spec.mat b.side b.data[a]) =
      if a = 0 then ((Real.sqrt b.side : ℝ) : ℂ) else 0 := by
    intro a ha
    have h0 : 0 < b.data.length := by omega
    have h1 := hb.ortho 0 a h0 ha
    rw [hherm 0 h0, hb.first h0, Matrix.smul_mul, Matrix.one_mul, trace_smul, smul_eq_mul] at h1
    have hc : ((Real.sqrt b.side : ℝ) : ℂ) ≠ 0 := by exact_mod_cast hsq
    have h2 : ((1 / Real.sqrt b.side : ℝ) : ℂ) * ((Real.sqrt b.side : ℝ) : ℂ) = 1 := by
      push_cast
      exact one_div_mul_cancel hc
    by_cases hz : a = 0
    · subst hz
      simp only [if_true] at h1 ⊢
      linear_combination ((Real.sqrt b.side : ℝ) : ℂ) * h1 - trace (Spec.mat b.side b.data[0]) * h2
    · have hz' : ¬ 0 = a := fun e => hz e.symm
      simp only [hz, hz', if_false] at h1 ⊢
      linear_combination ((Real.sqrt b.side : ℝ) : ℂ) * h1 - trace (Spec.mat b.side b.data[a]) * h2
  have him : ∀ a (ha : a < b.data.length) (v : Fin b.side × Fin r → ℝ),
      (trace (Spec.mat b.side b.data[a] * (reditDraw v).getD 0)).im = 0 := by
    intro a ha v
    rw [← Complex.conj_eq_iff_im]
    simp only [trace, diag_apply, mul_apply, map_sum, map_mul, redit_entry, Complex.conj_ofReal]
    rw [Finset.sum_comm]
    refine sum_congr rfl fun i _ => sum_congr rfl fun j _ => ?_
    rw [reditEntry_symm]
    congr 1
    have := congrFun (congrFun (hherm a ha) i) j
    rw [conjTranspose_apply] at this
    exact this
  obtain ⟨x, hx⟩ : ∃ x : (Fin b.side × Fin r → ℝ) → List ℝ, ∀ v, x v = b.data.map fun p =>
      (trace ((Spec.mat b.side p)ᴴ * (reditDraw v).getD 0)).re := ⟨_, fun v => rfl⟩
  have hget : ∀ a (ha : a < b.data.length) v, (x v).getD a 0 =
      (trace (Spec.mat b.side b.data[a] * (reditDraw v).getD 0)).re := by
    intro a ha v
    rw [hx, List.getD_eq_getElem?_getD, List.getElem?_map, List.getElem?_eq_getElem ha]
    simp only [Option.map_some, Option.getD_some]
    rw [hherm a ha]
  have hsecond : ∀ a c (ha : a < b.data.length) (hc : c < b.data.length), 0 < a → 0 < c →
        ∫ v, (x v).getD a 0 * (x v).getD c 0 ∂normals (Fin b.side × Fin r) =
          ((if a = c then 1 else 0) +
            (trace (Spec.mat b.side b.data[a] * (Spec.mat b.side b.data[c])ᵀ)).re) /
            (b.side * (b.side * r + 2)) := by
    intro a c ha hc ha0 hc0
    obtain ⟨hi, hm⟩ := C137_second_moments hN hr (Spec.mat b.side b.data[a]) (Spec.mat b.side b.data[c])
    simp only [hget a ha, hget c hc]
    have e : ∀ v : Fin b.side × Fin r → ℝ, (trace (Spec.mat b.side b.data[a] * (reditDraw v).getD 0)).re *
        (trace (Spec.mat b.side b.data[c] * (reditDraw v).getD 0)).re =
        RCLike.re (trace (Spec.mat b.side b.data[a] * (reditDraw v).getD 0) *
          trace (Spec.mat b.side b.data[c] * (reditDraw v).getD 0)) := by
      intro v
      rw [RCLike.re_to_complex, Complex.mul_re, him a ha, him c hc, mul_zero, sub_zero]
    simp only [e]
    rw [integral_re hi, hm, htr a ha, if_neg ha0.ne', zero_mul, mul_zero, zero_add]
    have h1 := hb.ortho a c ha hc
    rw [hherm a ha] at h1
    rw [h1]
    have h2 : ((b.side : ℂ) * (b.side * r + 2)) = (((b.side : ℝ) * (b.side * r + 2) : ℝ) : ℂ) := by push_cast; rfl
    rw [h2, RCLike.re_to_complex, Complex.div_ofReal_re, Complex.add_re]
    congr 2
    split_ifs <;> simp
  refine ⟨x, ?_, fun a ha => ?_, hsecond, fun a ha ha0 hs => ?_, fun a ha hs v => ?_⟩
  · filter_upwards [hρ] with v hv
    obtain ⟨ρ, h1, h2⟩ := hv
    refine ⟨ρ, h1, ?_, fun h0 => ?_⟩
    rotate_left
    · rw [hget 0 h0, hb.first h0, h1, Option.getD_some, Matrix.smul_mul, Matrix.one_mul, trace_smul, h2.2,
        smul_eq_mul, mul_one, Complex.ofReal_re]
    obtain ⟨y, h3, hy, h4⟩ := C40_params_of_state b (toPlane ρ)
    rw [dmSample, if_neg (by rw [h2.2]; exact one_ne_zero), h2.2, inv_one, one_smul, h3]
    change Except.ok (some y) = _
    congr 2
    refine List.ext_getElem (by rw [hx]; simpa using hy) fun a h5 h6 => ?_
    have ha : a < b.data.length := by omega
    rw [h4 a ha, mat_toPlane]
    simp only [hx, h1, List.getElem_map, Option.getD_some]
  · obtain ⟨hi, hm⟩ := redit_trace hN hr (Spec.mat b.side b.data[a])
    simp only [hget a ha]
    refine (integral_re hi).trans ?_
    rw [hm, htr a ha]
    split_ifs
    · simp only [RCLike.re_to_complex]
      rw [← Complex.ofReal_natCast, ← Complex.ofReal_div, Complex.ofReal_re, div_eq_div_iff hNr.ne' hsq, one_mul]
      exact Real.mul_self_sqrt hNr.le
    · simp
  · have := hsecond a a ha ha ha0 ha0
    have h1 := hb.ortho a a ha ha
    rw [hherm a ha, if_pos rfl] at h1
    rw [hs, h1, if_pos rfl, Complex.one_re, one_add_one_eq_two] at this
    simp only [sq]
    exact this
  · rw [hget a ha]
    have h1 : trace (Spec.mat b.side b.data[a] * (reditDraw v).getD 0) =
        -trace (Spec.mat b.side b.data[a] * (reditDraw v).getD 0) := by
      have hρt : ((reditDraw v).getD 0)ᵀ = (reditDraw v).getD 0 := by
        ext i j
        rw [transpose_apply, redit_entry, redit_entry, reditEntry_symm]
      calc trace (Spec.mat b.side b.data[a] * (reditDraw v).getD 0)
          = trace ((Spec.mat b.side b.data[a] * (reditDraw v).getD 0)ᵀ) := (trace_transpose _).symm
        _ = trace ((Spec.mat b.side b.data[a])ᵀ * (reditDraw v).getD 0) := by
            rw [transpose_mul, hρt, trace_mul_comm]
        _ = _ := by rw [hs, Matrix.neg_mul, trace_neg]
    have h2 : trace (Spec.mat b.side b.data[a] * (reditDraw v).getD 0) = 0 := by linear_combination h1 / 2
    rw [h2, Complex.zero_re]

/-- Case for `C137_purity`: the default real Ginibre states of a qubit have mean purity 5/6, those of rank 2 in
dimension 4 mean purity 7/10. -/
example : ∫ v, Spec.purity ((reditDraw v).getD 0) ∂normals (Fin 2 × Fin (rediRank 2 none)) = 5 / 6 ∧
    ∫ v, Spec.purity ((reditDraw v).getD 0) ∂normals (Fin 4 × Fin 2) = 7 / 10 := by
  constructor
  · rw [(C137_purity (by norm_num) (by decide)).2]; norm_num [rediRank]
  · rw [(C137_purity (by norm_num) (by norm_num)).2]; norm_num

/-- Case for `C137_covariance`: for the default states of a qubit the expectation value of X has the variance 1/3, that
of Y none. -/
example : ∫ v, (trace (!![0, 1; 1, 0] * (reditDraw v).getD 0)) * trace (!![0, 1; 1, 0] * (reditDraw v).getD 0)
      ∂normals (Fin 2 × Fin 2) = 1 / 3 ∧
    ∫ v, (trace (!![0, -Complex.I; Complex.I, 0] * (reditDraw v).getD 0)) *
      trace (!![0, -Complex.I; Complex.I, 0] * (reditDraw v).getD 0) ∂normals (Fin 2 × Fin 2) = 0 := by
  constructor
  · rw [(C137_second_moments (by norm_num) (by norm_num) _ _).2]
    simp [trace_fin_two, vecMul, dotProduct, Fin.sum_univ_two]; norm_num
  · rw [(C137_second_moments (by norm_num) (by norm_num) _ _).2]
    simp [trace_fin_two, vecMul, dotProduct, Fin.sum_univ_two]

/-- Case for `C137_rank`: states of rank 2 in dimension 3. -/
example : ∀ᵐ v ∂normals (Fin 3 × Fin 2), ∃ ρ, reditDraw v = some ρ ∧ ρ.rank = 2 :=
  C137_rank (by norm_num) (by norm_num)

/-- Case for `C137_bloch`: 4/5 for the default `k = 2`, and one for pure states. -/
example : ∫ x, (1 + ‖x‖ ^ 2) / 2 ∂Spec.ginibreLaw 2 = 4 / 5 ∧ ∫ x, (1 + ‖x‖ ^ 2) / 2 ∂Spec.ginibreLaw 1 = 1 := by
  constructor
  · rw [C137_bloch 2 (by norm_num)]; norm_num
  · rw [C137_bloch 1 (by norm_num)]; norm_num

/-- Case for `C137_high_rank`: a qubit state of rank 1000 is almost maximally mixed. -/
example : (normals (Fin 2 × Fin 1000)).real {v | 1 / 2 + 1 / 10 ≤ Spec.purity ((reditDraw v).getD 0)} ≤ 1 / 50 := by
  have := (C137_high_rank (N := 2) (r := 1000) (by norm_num) (by norm_num) (1 / 10) (by norm_num)).2
  norm_num at this ⊢
  linarith

/-- Case for `C137_prior`: the Pauli basis of one qubit. -/
example : ∃ b : TomoBasis, pauliBasis 1 = .ok b ∧ Spec.IsTomoBasis b.side b.data ∧ 0 < b.side := by
  obtain ⟨t, h1, h2, -, h3, -⟩ := C40_pauli 1 one_pos
  refine ⟨t, h1, ?_, ?_⟩ <;> rw [h2]
  · exact h3
  · norm_num

end QInfer
