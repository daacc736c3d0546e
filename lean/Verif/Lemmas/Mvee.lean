import Verif.Model.Estimates
import Verif.Props.Heur
import Mathlib.LinearAlgebra.Matrix.SchurComplement
import Mathlib.Analysis.SpecialFunctions.Log.Basic
import Mathlib.Tactic.Positivity
import Mathlib.Tactic.FieldSimp
import Mathlib.Tactic.Linarith

/-!
# Lemmas about the iteration of `mvee`
-/

namespace QInfer

open Matrix
open scoped BigOperators

section
variable {N d : Nat} (pts : Fin N → Fin d → ℝ)

/-- A point with a one appended. -/
def mveeq (i : Fin N) : Fin d ⊕ Unit → ℝ := fun a => mveeQ pts a i

theorem mveeX_apply (u : Fin N → ℝ) (a b : Fin d ⊕ Unit) :
    mveeX pts u a b = ∑ k, u k * mveeq pts k a * mveeq pts k b := by
  rw [mveeX, Matrix.mul_apply]
  refine Finset.sum_congr rfl fun k _ => ?_
  rw [Matrix.mul_diagonal, Matrix.transpose_apply, mveeq, mveeq]
  ring

theorem mveeX_bilin (u : Fin N → ℝ) (w v : Fin d ⊕ Unit → ℝ) :
    w ⬝ᵥ (mveeX pts u *ᵥ v) = ∑ k, u k * (mveeq pts k ⬝ᵥ w) * (mveeq pts k ⬝ᵥ v) := by
  have : ∀ a, (mveeX pts u *ᵥ v) a = ∑ k, u k * mveeq pts k a * (mveeq pts k ⬝ᵥ v) := by
    intro a
    simp only [Matrix.mulVec, dotProduct, mveeX_apply, Finset.sum_mul, Finset.mul_sum]
    rw [Finset.sum_comm]
    exact Finset.sum_congr rfl fun k _ => Finset.sum_congr rfl fun b _ => by ring
  simp only [dotProduct, this, Finset.mul_sum, Finset.sum_mul]
  rw [Finset.sum_comm]
  refine Finset.sum_congr rfl fun k _ => ?_
  rw [Finset.sum_comm]
  conv_rhs => rw [Finset.sum_comm]
  rw [Finset.sum_comm]
  exact Finset.sum_congr rfl fun a _ => Finset.sum_congr rfl fun b _ => by ring

/-- The solution of `X a = q i`. -/
noncomputable def mveea (u : Fin N → ℝ) (i : Fin N) : Fin d ⊕ Unit → ℝ := (mveeX pts u)⁻¹ *ᵥ mveeq pts i

theorem mveeX_mveea (u : Fin N → ℝ) (h : (mveeX pts u).det ≠ 0) (i : Fin N) :
    mveeX pts u *ᵥ mveea pts u i = mveeq pts i := by
  rw [mveea, Matrix.mulVec_mulVec, Matrix.mul_nonsing_inv _ (isUnit_iff_ne_zero.2 h), Matrix.one_mulVec]

theorem mveeM_eq (u : Fin N → ℝ) (i : Fin N) : mveeM pts u i = mveeq pts i ⬝ᵥ mveea pts u i := by
  rw [mveeM, Matrix.mul_assoc, Matrix.mul_apply]
  rfl

theorem mveeM_of_solves (u : Fin N → ℝ) (h : (mveeX pts u).det ≠ 0) (i : Fin N) (v : Fin d ⊕ Unit → ℝ)
    (hv : mveeX pts u *ᵥ v = mveeq pts i) : mveeM pts u i = mveeq pts i ⬝ᵥ v := by
  rw [mveeM_eq, mveea, ← hv, Matrix.mulVec_mulVec, Matrix.nonsing_inv_mul _ (isUnit_iff_ne_zero.2 h),
    Matrix.one_mulVec]

theorem mveeq_dot (u : Fin N → ℝ) (h : (mveeX pts u).det ≠ 0) (i : Fin N) (v : Fin d ⊕ Unit → ℝ) :
    mveeq pts i ⬝ᵥ v = ∑ k, u k * (mveeq pts k ⬝ᵥ mveea pts u i) * (mveeq pts k ⬝ᵥ v) := by
  have := mveeX_bilin pts u v (mveea pts u i)
  rw [mveeX_mveea pts u h i, dotProduct_comm] at this
  rw [this]
  exact Finset.sum_congr rfl fun k _ => by ring

theorem mveeM_sq (u : Fin N → ℝ) (h : (mveeX pts u).det ≠ 0) (i : Fin N) :
    mveeM pts u i = ∑ k, u k * (mveeq pts k ⬝ᵥ mveea pts u i) ^ 2 := by
  rw [mveeM_eq, mveeq_dot pts u h i]
  exact Finset.sum_congr rfl fun k _ => by ring

theorem mveeM_nonneg (u : Fin N → ℝ) (h0 : ∀ i, 0 ≤ u i) (h : (mveeX pts u).det ≠ 0) (i : Fin N) :
    0 ≤ mveeM pts u i := by
  rw [mveeM_sq pts u h]
  exact Finset.sum_nonneg fun k _ => mul_nonneg (h0 k) (sq_nonneg _)

theorem mveeM_mul_le (u : Fin N → ℝ) (h0 : ∀ i, 0 ≤ u i) (h : (mveeX pts u).det ≠ 0) (i : Fin N) :
    u i * mveeM pts u i ≤ 1 := by
  have hM := mveeM_nonneg pts u h0 h i
  have : u i * mveeM pts u i ^ 2 ≤ mveeM pts u i := by
    conv_rhs => rw [mveeM_sq pts u h]
    rw [mveeM_eq]
    exact Finset.single_le_sum (f := fun k => u k * (mveeq pts k ⬝ᵥ mveea pts u i) ^ 2)
      (fun k _ => mul_nonneg (h0 k) (sq_nonneg _)) (Finset.mem_univ i)
  rcases hM.eq_or_lt with h1 | h1
  · rw [← h1]; simp
  · by_contra hc
    push Not at hc
    have := mul_lt_mul_of_pos_right hc h1
    nlinarith

theorem mveeM_sum (u : Fin N → ℝ) (h : (mveeX pts u).det ≠ 0) :
    ∑ i, u i * mveeM pts u i = d + 1 := by
  have e : ∑ i, u i * mveeM pts u i =
      Matrix.trace (diagonal u * ((mveeQ pts)ᵀ * (mveeX pts u)⁻¹ * mveeQ pts)) := by
    simp only [Matrix.trace, Matrix.diag, Matrix.diagonal_mul, mveeM]
  rw [e, ← Matrix.mul_assoc, Matrix.trace_mul_comm, ← Matrix.mul_assoc, ← Matrix.mul_assoc]
  have : mveeQ pts * diagonal u * (mveeQ pts)ᵀ = mveeX pts u := rfl
  rw [this, Matrix.mul_nonsing_inv _ (isUnit_iff_ne_zero.2 h), Matrix.trace_one]
  simp

theorem mveeX_update (u : Fin N → ℝ) (s : ℝ) (j : Fin N) :
    mveeX pts (fun i => (1 - s) * u i + if i.val = j.val then s else 0) =
      (1 - s) • mveeX pts u + replicateCol Unit (s • mveeq pts j) * replicateRow Unit (mveeq pts j) := by
  ext a b
  rw [mveeX_apply, Matrix.add_apply, Matrix.smul_apply, mveeX_apply, Matrix.mul_apply]
  simp only [Finset.univ_unique, Finset.sum_singleton, replicateCol_apply, replicateRow_apply, Pi.smul_apply,
    smul_eq_mul, Finset.mul_sum]
  have : s * mveeq pts j a * mveeq pts j b =
      ∑ k, (if k.val = j.val then s else 0) * mveeq pts k a * mveeq pts k b := by
    rw [Finset.sum_eq_single j]
    · simp
    · intro k _ hk
      rw [if_neg (fun h => hk (Fin.ext h))]; simp
    · simp
  rw [this, ← Finset.sum_add_distrib]
  exact Finset.sum_congr rfl fun k _ => by ring

theorem mveeX_update_det (u : Fin N → ℝ) (h : (mveeX pts u).det ≠ 0) (s : ℝ) (hs : s ≠ 1) (j : Fin N) :
    (mveeX pts (fun i => (1 - s) * u i + if i.val = j.val then s else 0)).det =
      (1 - s) ^ d * ((1 - s) + s * mveeM pts u j) * (mveeX pts u).det := by
  have h1 : (1 - s) ≠ 0 := sub_ne_zero.2 (Ne.symm hs)
  have hd : ((1 - s) • mveeX pts u).det = (1 - s) ^ (d + 1) * (mveeX pts u).det := by
    rw [Matrix.det_smul]; simp
  have hu : IsUnit ((1 - s) • mveeX pts u).det := by
    rw [hd]; exact isUnit_iff_ne_zero.2 (mul_ne_zero (pow_ne_zero _ h1) h)
  rw [mveeX_update, Matrix.det_add_replicateCol_mul_replicateRow hu, hd]
  have hi : ((1 - s) • mveeX pts u)⁻¹ = (1 - s)⁻¹ • (mveeX pts u)⁻¹ := by
    apply Matrix.inv_eq_left_inv
    rw [Matrix.smul_mul, Matrix.mul_smul, smul_smul, inv_mul_cancel₀ h1, one_smul,
      Matrix.nonsing_inv_mul _ (isUnit_iff_ne_zero.2 h)]
  have hdet : (1 + replicateRow Unit (mveeq pts j) * ((1 - s) • mveeX pts u)⁻¹ *
      replicateCol Unit (s • mveeq pts j)).det = 1 + s / (1 - s) * mveeM pts u j := by
    rw [Matrix.det_unique, hi, Matrix.add_apply, Matrix.one_apply_eq, Matrix.mul_smul, Matrix.smul_mul,
      Matrix.smul_apply, Matrix.mul_assoc, Matrix.mul_apply, mveeM_eq, mveea, dotProduct]
    congr 1
    simp only [replicateRow_apply, Matrix.mul_apply, replicateCol_apply, Matrix.mulVec, dotProduct,
      Pi.smul_apply, smul_eq_mul, Finset.mul_sum]
    refine Finset.sum_congr rfl fun a _ => Finset.sum_congr rfl fun b _ => ?_
    field_simp
  rw [hdet, pow_succ]
  field_simp

/-- What is known of the weights and of the chosen point at each pass. -/
structure MveeOk (u : Fin N → ℝ) : Prop where
  pos : ∀ i, 0 < u i
  sum : ∑ i, u i = 1
  det : 0 < (mveeX pts u).det

theorem MveeOk.nonneg {u : Fin N → ℝ} (h : MveeOk pts u) (i : Fin N) : 0 ≤ u i := (h.pos i).le

theorem MveeOk.exists_index {u : Fin N → ℝ} (h : MveeOk pts u) : 0 < N := by
  rcases Nat.eq_zero_or_pos N with rfl | hN
  · have := h.sum
    simp at this
  · exact hN

/-- The pass of the loop, spelt out: the chosen point, its value, and the size of the step. -/
theorem mveeStep_spec {u : Fin N → ℝ} (hd : 0 < d) (h : MveeOk pts u) :
    ∃ j : Fin N, (∀ i, mveeM pts u i ≤ mveeM pts u j) ∧ (d : ℝ) + 1 ≤ mveeM pts u j ∧
      ∃ s : ℝ, s = (mveeM pts u j - d - 1) / ((d + 1) * (mveeM pts u j - 1)) ∧ 0 ≤ s ∧ s < 1 ∧
      mveeStep pts u = .ok (fun i => (1 - s) * u i + if i.val = j.val then s else 0) := by
  have hN := h.exists_index
  have hne : (List.ofFn (mveeM pts u)) ≠ [] := by
    intro h0
    have := congrArg List.length h0
    simp at this
    omega
  obtain ⟨j, hj, hjeq, hmax⟩ := npArgmax_spec (List.ofFn (mveeM pts u)) hne
  have hjN : j < N := by simpa using hj
  have hval : (List.ofFn (mveeM pts u)).getD j 0 = mveeM pts u ⟨j, hjN⟩ := by
    rw [List.getD_eq_getElem?_getD, List.getElem?_eq_getElem hj, Option.getD_some, List.getElem_ofFn]
  have hM : ∀ i, mveeM pts u i ≤ mveeM pts u ⟨j, hjN⟩ := by
    intro i
    have := (hmax.1 (mveeM pts u i) (by rw [List.mem_ofFn]; exact ⟨i, rfl⟩))
    rwa [List.getElem_ofFn] at this
  have hdet := h.det.ne'
  have hge : (d : ℝ) + 1 ≤ mveeM pts u ⟨j, hjN⟩ := by
    rw [← mveeM_sum pts u hdet]
    calc ∑ i, u i * mveeM pts u i ≤ ∑ i, u i * mveeM pts u ⟨j, hjN⟩ :=
          Finset.sum_le_sum fun i _ => mul_le_mul_of_nonneg_left (hM i) (h.nonneg pts i)
      _ = _ := by rw [← Finset.sum_mul, h.sum, one_mul]
  have hd' : (1 : ℝ) ≤ d := by exact_mod_cast hd
  have hden : 0 < ((d : ℝ) + 1) * (mveeM pts u ⟨j, hjN⟩ - 1) := mul_pos (by linarith) (by linarith)
  refine ⟨⟨j, hjN⟩, hM, hge, _, rfl, div_nonneg (by linarith) hden.le, ?_, ?_⟩
  · rw [div_lt_one hden]; nlinarith
  · unfold mveeStep
    rw [if_neg hdet, hjeq]
    change Except.ok _ = _
    rw [hval]

theorem mveeOk_step {u : Fin N → ℝ} (h : MveeOk pts u) (j : Fin N) (s : ℝ)
    (hs0 : 0 ≤ s) (hs1 : s < 1) :
    MveeOk pts (fun i => (1 - s) * u i + if i.val = j.val then s else 0) := by
  refine ⟨fun i => ?_, ?_, ?_⟩
  · have := mul_pos (sub_pos.2 hs1) (h.pos i)
    split_ifs <;> linarith
  · rw [Finset.sum_add_distrib, ← Finset.mul_sum, h.sum]
    have : (∑ i : Fin N, if i.val = j.val then s else 0) = s := by
      rw [Finset.sum_eq_single j]
      · simp
      · intro k _ hk
        exact if_neg (fun h => hk (Fin.ext h))
      · simp
    rw [this]; ring
  · rw [mveeX_update_det pts u h.det.ne' s hs1.ne j]
    have hM := mveeM_nonneg pts u (h.nonneg pts) h.det.ne' j
    have h1 : 0 < 1 - s := by linarith
    exact mul_pos (mul_pos (pow_pos h1 _) (by nlinarith [mul_nonneg hs0 hM])) h.det

/-- The values after a pass are at most those before, divided by `1 - s`. -/
theorem mveeM_step_le {u : Fin N → ℝ} (h : MveeOk pts u) (j : Fin N) (s : ℝ)
    (hs0 : 0 ≤ s) (hs1 : s < 1) (i : Fin N) :
    mveeM pts (fun i => (1 - s) * u i + if i.val = j.val then s else 0) i ≤ mveeM pts u i / (1 - s) := by
  have h' := mveeOk_step pts h j s hs0 hs1
  set u' : Fin N → ℝ := fun i => (1 - s) * u i + if i.val = j.val then s else 0 with hu'
  have h1 : 0 < 1 - s := by linarith
  set v := mveea pts u' i with hv
  have hle : ∑ k, u k * (mveeq pts k ⬝ᵥ v) ^ 2 ≤ mveeM pts u' i / (1 - s) := by
    rw [le_div_iff₀ h1, mveeM_sq pts u' h'.det.ne', Finset.sum_mul]
    refine Finset.sum_le_sum fun k _ => ?_
    have hsq := sq_nonneg (mveeq pts k ⬝ᵥ v)
    have : (1 - s) * u k ≤ u' k := by
      rw [hu']; dsimp only; split_ifs <;> linarith
    have := mul_le_mul_of_nonneg_right this hsq
    nlinarith
  have hcs : mveeM pts u' i ^ 2 ≤ mveeM pts u i * ∑ k, u k * (mveeq pts k ⬝ᵥ v) ^ 2 := by
    rw [mveeM_sq pts u h.det.ne' i, mveeM_eq pts u' i, mveeq_dot pts u h.det.ne' i (mveea pts u' i), ← hv]
    have := Finset.sum_mul_sq_le_sq_mul_sq Finset.univ
      (fun k => Real.sqrt (u k) * (mveeq pts k ⬝ᵥ mveea pts u i))
      (fun k => Real.sqrt (u k) * (mveeq pts k ⬝ᵥ v))
    simp only [mul_pow, Real.sq_sqrt (h.nonneg pts _)] at this
    refine le_trans (le_of_eq ?_) this
    congr 1
    refine Finset.sum_congr rfl fun k _ => ?_
    have := Real.mul_self_sqrt (h.nonneg pts k)
    linear_combination -(mveeq pts k ⬝ᵥ mveea pts u i) * (mveeq pts k ⬝ᵥ v) * this
  have hM := mveeM_nonneg pts u (h.nonneg pts) h.det.ne' i
  have hM' := mveeM_nonneg pts u' (h'.nonneg pts) h'.det.ne' i
  rcases hM'.eq_or_lt with h0 | h0
  · rw [← h0]; exact div_nonneg hM h1.le
  · have h2 := hcs.trans (mul_le_mul_of_nonneg_left hle hM)
    have h3 : mveeM pts u' i * mveeM pts u' i ≤ (mveeM pts u i / (1 - s)) * mveeM pts u' i := by
      calc _ = mveeM pts u' i ^ 2 := by ring
        _ ≤ _ := h2
        _ = _ := by ring
    exact le_of_mul_le_mul_right h3 h0

/-! ## The ellipsoid -/

/-- The centre. -/
noncomputable def mveec (u : Fin N → ℝ) : Fin d → ℝ := fun a => ∑ i, pts i a * u i

/-- The second moments. -/
noncomputable def mveeP (u : Fin N → ℝ) : Matrix (Fin d) (Fin d) ℝ :=
  Matrix.of fun a b => ∑ i, pts i a * u i * pts i b

theorem mveeX_blocks (u : Fin N → ℝ) (h1 : ∑ i, u i = 1) :
    mveeX pts u = fromBlocks (mveeP pts u)
      (replicateCol Unit (mveec pts u)) (replicateRow Unit (mveec pts u)) 1 := by
  ext a b
  rw [mveeX_apply]
  rcases a with a | a <;> rcases b with b | b <;>
    simp only [mveeq, mveeQ, Sum.elim_inl, Sum.elim_inr, fromBlocks_apply₁₁, fromBlocks_apply₁₂,
      fromBlocks_apply₂₁, fromBlocks_apply₂₂, replicateCol_apply, replicateRow_apply, mveec,
      mveeP, Matrix.of_apply]
  · exact Finset.sum_congr rfl fun k _ => by ring
  · exact Finset.sum_congr rfl fun k _ => by ring
  · exact Finset.sum_congr rfl fun k _ => by ring
  · simp [h1]

theorem mveeX_det (u : Fin N → ℝ) (h1 : ∑ i, u i = 1) : (mveeX pts u).det = (mveeS pts u).det := by
  rw [mveeX_blocks pts u h1, det_fromBlocks_one₂₂]
  congr 1
  ext a b
  simp [mveeS, mveec, mveeP, Matrix.mul_apply]

theorem mveeM_eq_form (u : Fin N → ℝ) (h1 : ∑ i, u i = 1) (h : (mveeX pts u).det ≠ 0) (i : Fin N) :
    mveeM pts u i = 1 + (pts i - mveec pts u) ⬝ᵥ ((mveeS pts u)⁻¹ *ᵥ (pts i - mveec pts u)) := by
  have hS : (mveeS pts u).det ≠ 0 := by rwa [← mveeX_det pts u h1]
  set y := pts i - mveec pts u with hy
  set a := (mveeS pts u)⁻¹ *ᵥ y with ha
  have hSa : mveeS pts u *ᵥ a = y := by
    rw [ha, Matrix.mulVec_mulVec, Matrix.mul_nonsing_inv _ (isUnit_iff_ne_zero.2 hS), Matrix.one_mulVec]
  set v : Fin d ⊕ Unit → ℝ := Sum.elim a (fun _ => 1 - mveec pts u ⬝ᵥ a) with hv
  have hsolve : mveeX pts u *ᵥ v = mveeq pts i := by
    rw [mveeX_blocks pts u h1, hv, fromBlocks_mulVec]
    have e1 : (Sum.elim a fun _ : Unit => 1 - mveec pts u ⬝ᵥ a) ∘ Sum.inl = a := rfl
    have e2 : (Sum.elim a fun _ : Unit => 1 - mveec pts u ⬝ᵥ a) ∘ Sum.inr =
      fun _ => 1 - mveec pts u ⬝ᵥ a := rfl
    funext b
    rcases b with b | b
    · rw [Sum.elim_inl, Pi.add_apply, e1, e2]
      have h2 : (mveeS pts u *ᵥ a) b = y b := congrFun hSa b
      have h3 : (mveeP pts u *ᵥ a) b =
          (mveeS pts u *ᵥ a) b + mveec pts u b * (mveec pts u ⬝ᵥ a) := by
        simp only [Matrix.mulVec, dotProduct, mveeS, mveeP, Matrix.of_apply, mveec, sub_mul, Finset.sum_sub_distrib, Finset.mul_sum]
        rw [eq_comm, sub_add_eq_add_sub, sub_eq_iff_eq_add]
        congr 1
        exact Finset.sum_congr rfl fun k _ => by
          rw [← Finset.mul_sum]
          ring
      rw [h3, h2]
      simp only [Matrix.mulVec, dotProduct, replicateCol_apply, Finset.univ_unique, Finset.sum_singleton, hy,
        Pi.sub_apply, mveeq, mveeQ, Sum.elim_inl]
      ring
    · rw [Sum.elim_inr, Pi.add_apply, e1, e2]
      simp [Matrix.mulVec, dotProduct, mveeq, mveeQ]
  rw [mveeM_of_solves pts u h i v hsolve]
  have : mveeq pts i ⬝ᵥ v = pts i ⬝ᵥ a + (1 - mveec pts u ⬝ᵥ a) := by
    simp [dotProduct, mveeq, mveeQ, hv, Fintype.sum_sum_type]
  rw [this, hy, sub_dotProduct]
  ring

end

end QInfer
