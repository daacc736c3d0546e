import Verif.Lemmas.Mvee
import Mathlib.LinearAlgebra.Matrix.PosDef
import Mathlib.Analysis.Matrix.PosDef
import Mathlib.LinearAlgebra.Matrix.AbsoluteValue

/-!
# Lemmas about the loop of `mvee`
-/

namespace QInfer

open Matrix
open scoped BigOperators

section
variable {N d : Nat} (pts : Fin N → Fin d → ℝ)

theorem mveeX_posSemidef (u : Fin N → ℝ) (h0 : ∀ i, 0 ≤ u i) : (mveeX pts u).PosSemidef := by
  refine Matrix.PosSemidef.of_dotProduct_mulVec_nonneg ?_ ?_
  · ext a b
    simp only [Matrix.conjTranspose_apply, star_trivial, mveeX_apply]
    exact Finset.sum_congr rfl fun k _ => by ring
  · intro v
    rw [star_trivial, mveeX_bilin]
    exact Finset.sum_nonneg fun k _ => by
      have := mul_nonneg (h0 k) (sq_nonneg (mveeq pts k ⬝ᵥ v))
      nlinarith

theorem mveeOk_start (hN : 0 < N) (h : (mveeX pts fun _ => 1 / (N : ℝ)).det ≠ 0) :
    MveeOk pts fun _ => 1 / (N : ℝ) := by
  have hN' : (0 : ℝ) < N := by exact_mod_cast hN
  refine ⟨fun _ => by positivity, ?_, lt_of_le_of_ne (mveeX_posSemidef pts (fun _ => 1 / (N : ℝ)) fun _ => by positivity).det_nonneg
    (Ne.symm h)⟩
  rw [Finset.sum_const, Finset.card_univ, Fintype.card_fin, nsmul_eq_mul]
  field_simp

theorem mvee_err_eq (u : Fin N → ℝ) (j : Fin N) (s : ℝ) :
    ∑ i : Fin N, (((1 - s) * u i + if i.val = j.val then s else 0) - u i) ^ 2 =
      s ^ 2 * ∑ i : Fin N, ((if i.val = j.val then 1 else 0) - u i) ^ 2 := by
  rw [Finset.mul_sum]
  refine Finset.sum_congr rfl fun i _ => ?_
  split_ifs <;> ring

theorem mvee_err_upper {u : Fin N → ℝ} (h : MveeOk pts u) (j : Fin N) (s : ℝ) (hs : 0 ≤ s) :
    Real.sqrt (∑ i : Fin N, (((1 - s) * u i + if i.val = j.val then s else 0) - u i) ^ 2) ≤ 2 * s := by
  apply Real.sqrt_le_iff.2 ⟨by linarith, ?_⟩
  rw [mvee_err_eq]
  have hu1 : ∀ i, u i ≤ 1 := fun i => by
    rw [← h.sum]
    exact Finset.single_le_sum (f := u) (fun k _ => h.nonneg pts k) (Finset.mem_univ i)
  have : ∑ i : Fin N, ((if i.val = j.val then 1 else 0) - u i) ^ 2 ≤
      ∑ i : Fin N, ((if i.val = j.val then 1 else 0) + u i) := by
    refine Finset.sum_le_sum fun i _ => ?_
    have h1 := hu1 i
    have h2 := (h.pos i).le
    split_ifs <;> nlinarith
  rw [Finset.sum_add_distrib, h.sum] at this
  have h3 : (∑ i : Fin N, if i.val = j.val then (1 : ℝ) else 0) = 1 := by
    rw [Finset.sum_eq_single j]
    · simp
    · intro k _ hk
      exact if_neg (fun h => hk (Fin.ext h))
    · simp
  rw [h3] at this
  nlinarith [sq_nonneg s]

theorem mvee_err_lower {u : Fin N → ℝ} (j : Fin N) (s : ℝ) :
    s * (1 - u j) ≤
      Real.sqrt (∑ i : Fin N, (((1 - s) * u i + if i.val = j.val then s else 0) - u i) ^ 2) := by
  apply Real.le_sqrt_of_sq_le
  rw [mvee_err_eq, mul_pow]
  refine mul_le_mul_of_nonneg_left ?_ (sq_nonneg s)
  have := Finset.single_le_sum (f := fun i : Fin N => ((if i.val = j.val then (1 : ℝ) else 0) - u i) ^ 2)
    (fun k _ => sq_nonneg _) (Finset.mem_univ j)
  simpa using this

/-- How much a pass with a step of at least `s₀` raises the determinant. -/
noncomputable def mveeGain (d : Nat) (s₀ : ℝ) : ℝ := (1 + d * s₀) * Real.exp ((1 + d * s₀)⁻¹ - 1)

theorem mveeGain_gt (hd : 0 < d) (s₀ : ℝ) (hs : 0 < s₀) : 1 < mveeGain d s₀ := by
  have hd' : (0 : ℝ) < d := by exact_mod_cast hd
  have hy : 1 < 1 + d * s₀ := by nlinarith [mul_pos hd' hs]
  have h2 : Real.exp (1 - (1 + d * s₀)⁻¹) < 1 + d * s₀ := by
    have h3 : 1 - (1 + d * s₀)⁻¹ < Real.log (1 + d * s₀) := by
      have h4 := Real.log_lt_sub_one_of_pos (x := (1 + d * s₀)⁻¹) (by positivity) (inv_lt_one_of_one_lt₀ hy).ne
      rw [Real.log_inv] at h4
      linarith
    calc Real.exp (1 - (1 + d * s₀)⁻¹) < Real.exp (Real.log (1 + d * s₀)) := Real.exp_lt_exp.2 h3
      _ = _ := Real.exp_log (by linarith)
  have e : Real.exp ((1 + d * s₀)⁻¹ - 1) = (Real.exp (1 - (1 + d * s₀)⁻¹))⁻¹ := by
    rw [← Real.exp_neg]; congr 1; ring
  rw [mveeGain, e, ← div_eq_mul_inv, one_lt_div (Real.exp_pos _)]
  exact h2

theorem mvee_det_gain {u : Fin N → ℝ} (hd : 0 < d) (h : MveeOk pts u) (j : Fin N)
    (hge : (d : ℝ) + 1 ≤ mveeM pts u j) (s s₀ : ℝ)
    (hs : s = (mveeM pts u j - d - 1) / ((d + 1) * (mveeM pts u j - 1))) (hs1 : s < 1) (hs₀ : 0 ≤ s₀)
    (hss : s₀ ≤ s) :
    mveeGain d s₀ * (mveeX pts u).det ≤
      (mveeX pts (fun i => (1 - s) * u i + if i.val = j.val then s else 0)).det := by
  rw [mveeX_update_det pts u h.det.ne' s hs1.ne j]
  refine mul_le_mul_of_nonneg_right ?_ h.det.le
  have hd' : (1 : ℝ) ≤ d := by exact_mod_cast hd
  set m := mveeM pts u j with hm
  have hm1 : 0 < m - 1 := by linarith
  have e1 : 1 - s + s * m = m / (d + 1) := by
    rw [hs]; field_simp; ring
  have e2 : 1 - s = d * m / ((d + 1) * (m - 1)) := by
    rw [hs]; field_simp; ring
  set y := m / ((d : ℝ) + 1) with hy
  have hy1 : 1 ≤ y := by rw [hy, one_le_div (by linarith)]; exact hge
  have hy0 : 0 < y := by linarith
  have hys : 1 + d * s₀ ≤ y := by
    have h1 : s ≤ (y - 1) / d := by
      rw [hs, hy, div_le_div_iff₀ (mul_pos (by linarith) hm1) (by linarith)]
      have e : (m / ((d : ℝ) + 1) - 1) * ((d + 1) * (m - 1)) = (m - d - 1) * (m - 1) := by
        field_simp
        ring
      rw [e]
      exact mul_le_mul_of_nonneg_left (by linarith) (by linarith)
    rw [le_div_iff₀ (by linarith)] at h1
    nlinarith [mul_le_mul_of_nonneg_left hss (show (0 : ℝ) ≤ d by linarith)]
  set t := 1 - y⁻¹ with ht
  have e3 : (1 - s)⁻¹ = 1 + t / d := by
    rw [e2, ht, hy]
    have : m ≠ 0 := by linarith
    field_simp
    ring
  have ht0 : 0 ≤ t := by
    rw [ht, sub_nonneg]; exact inv_le_one_of_one_le₀ hy1
  have h1 : (1 + t / d) ^ d ≤ Real.exp t := by
    calc (1 + t / d) ^ d ≤ (Real.exp (t / d)) ^ d := by
          apply pow_le_pow_left₀ (by positivity)
          rw [add_comm]; exact Real.add_one_le_exp _
      _ = Real.exp t := by
          rw [← Real.exp_nat_mul]
          congr 1
          field_simp
  have h2 : Real.exp (-t) ≤ (1 - s) ^ d := by
    rw [← e3, inv_pow] at h1
    rw [Real.exp_neg]
    have h3 : 0 < (1 - s) ^ d := pow_pos (by linarith) d
    exact inv_le_of_inv_le₀ h3 h1
  rw [e1]
  refine le_trans ?_ (mul_le_mul_of_nonneg_right h2 hy0.le)
  -- y exp(1/y - 1) is nondecreasing for y at least one
  set z := 1 + d * s₀ with hz
  have hz1 : 1 ≤ z := by
    have : 0 ≤ d * s₀ := mul_nonneg (by linarith) hs₀
    linarith
  have hz0 : 0 < z := by linarith
  have hlog : Real.log z + (z⁻¹ - 1) ≤ Real.log y + (y⁻¹ - 1) := by
    have h3 := Real.one_sub_inv_le_log_of_pos (x := y / z) (by positivity)
    rw [Real.log_div hy0.ne' hz0.ne', inv_div] at h3
    have h4 : z⁻¹ - y⁻¹ ≤ 1 - z / y := by
      have h5 : z⁻¹ - y⁻¹ = z⁻¹ * (1 - z / y) := by field_simp
      rw [h5]
      have h6 : z / y ≤ 1 := (div_le_one hy0).2 hys
      have h7 : z⁻¹ ≤ 1 := inv_le_one_of_one_le₀ hz1
      nlinarith
    linarith
  have h5 : z * Real.exp (z⁻¹ - 1) = Real.exp (Real.log z + (z⁻¹ - 1)) := by
    rw [Real.exp_add, Real.exp_log hz0]
  have h6 : Real.exp (-t) * y = Real.exp (Real.log y + (y⁻¹ - 1)) := by
    rw [Real.exp_add, Real.exp_log hy0, ht, neg_sub, mul_comm]
  rw [mveeGain, ← hz, h5, h6]
  exact Real.exp_le_exp.2 hlog

theorem mveeLoop_stop (tol : ℝ) (fuel : Nat) (u : Fin N → ℝ) (err : ℝ) (h : err ≤ tol) :
    mveeLoop pts tol fuel u err = .ok (some u) := by
  unfold mveeLoop
  rw [if_pos h]

theorem mveeLoop_zero (tol : ℝ) (u : Fin N → ℝ) (err : ℝ) (h : ¬ err ≤ tol) :
    mveeLoop pts tol 0 u err = .ok none := by
  unfold mveeLoop
  rw [if_neg h]

theorem mveeLoop_succ (tol : ℝ) (fuel : Nat) (u u' : Fin N → ℝ) (err : ℝ) (h : ¬ err ≤ tol)
    (hu : mveeStep pts u = .ok u') :
    mveeLoop pts tol (fuel + 1) u err =
      mveeLoop pts tol fuel u' (Real.sqrt (∑ i, (u' i - u i) ^ 2)) := by
  conv_lhs => unfold mveeLoop
  rw [if_neg h]
  dsimp only
  rw [hu]
  rfl

theorem mveeLoop_succ_err (tol : ℝ) (fuel : Nat) (u : Fin N → ℝ) (err : ℝ) (h : ¬ err ≤ tol) (e : PyErr)
    (hu : mveeStep pts u = .error e) : mveeLoop pts tol (fuel + 1) u err = .error e := by
  unfold mveeLoop
  rw [if_neg h]
  dsimp only
  rw [hu]
  rfl

/-- The loop never fails, keeps the weights positive, and what it returns is either what it was given or the
outcome of a short step. -/
theorem mveeLoop_spec (hd : 0 < d) (tol : ℝ) (fuel : Nat) (u : Fin N → ℝ) (err : ℝ) (h : MveeOk pts u) :
    (∃ r, mveeLoop pts tol fuel u err = .ok r) ∧
    ∀ v, mveeLoop pts tol fuel u err = .ok (some v) → MveeOk pts v ∧
      ((v = u ∧ err ≤ tol) ∨ ∃ u₀, MveeOk pts u₀ ∧ mveeStep pts u₀ = .ok v ∧
        Real.sqrt (∑ i, (v i - u₀ i) ^ 2) ≤ tol) := by
  induction fuel generalizing u err with
  | zero =>
    by_cases hc : err ≤ tol
    · rw [mveeLoop_stop pts tol 0 u err hc]
      refine ⟨⟨_, rfl⟩, fun v hv => ?_⟩
      have : u = v := Option.some.inj (Except.ok.inj hv)
      exact this ▸ ⟨h, Or.inl ⟨rfl, hc⟩⟩
    · rw [mveeLoop_zero pts tol u err hc]
      exact ⟨⟨_, rfl⟩, fun v hv => by cases hv⟩
  | succ fuel ih =>
    by_cases hc : err ≤ tol
    · rw [mveeLoop_stop pts tol _ u err hc]
      refine ⟨⟨_, rfl⟩, fun v hv => ?_⟩
      have : u = v := Option.some.inj (Except.ok.inj hv)
      exact this ▸ ⟨h, Or.inl ⟨rfl, hc⟩⟩
    · obtain ⟨j, -, -, s, -, hs0, hs1, hstep⟩ := mveeStep_spec pts hd h
      have h' := mveeOk_step pts h j s hs0 hs1
      rw [mveeLoop_succ pts tol fuel u _ err hc hstep]
      obtain ⟨i1, i2⟩ := ih _ (Real.sqrt (∑ i,
        ((fun i : Fin N => (1 - s) * u i + if i.val = j.val then s else 0) i - u i) ^ 2)) h'
      refine ⟨i1, fun v hv => ?_⟩
      obtain ⟨h3, h4⟩ := i2 v hv
      refine ⟨h3, Or.inr ?_⟩
      rcases h4 with ⟨rfl, h5⟩ | h4
      · exact ⟨u, h, hstep, h5⟩
      · exact h4

/-- While the loop runs the determinant grows geometrically. -/
theorem mveeLoop_grows (hd : 0 < d) (tol : ℝ) (htol : 0 < tol) (fuel : Nat) (u : Fin N → ℝ) (err : ℝ)
    (h : MveeOk pts u) (hn : mveeLoop pts tol fuel u err = .ok none) :
    ∃ v, MveeOk pts v ∧ mveeGain d (tol / 2) ^ (fuel - 1) * (mveeX pts u).det ≤ (mveeX pts v).det := by
  have key : ∀ fuel (u : Fin N → ℝ) err, MveeOk pts u → mveeLoop pts tol fuel u err = .ok none →
      ∃ v, MveeOk pts v ∧ mveeGain d (tol / 2) ^ fuel * (mveeX pts u).det ≤ (mveeX pts v).det := by
    intro fuel
    induction fuel with
    | zero => intro u err h _; exact ⟨u, h, by simp⟩
    | succ fuel ih =>
      intro u err h hn
      have hc : ¬ err ≤ tol := by
        intro hc
        rw [mveeLoop_stop pts tol _ u err hc] at hn
        cases hn
      obtain ⟨j, -, hge, s, hs, hs0, hs1, hstep⟩ := mveeStep_spec pts hd h
      rw [mveeLoop_succ pts tol fuel u _ err hc hstep] at hn
      have h' := mveeOk_step pts h j s hs0 hs1
      have herr : ¬ Real.sqrt (∑ i : Fin N,
          (((1 - s) * u i + if i.val = j.val then s else 0) - u i) ^ 2) ≤ tol := by
        intro hc'
        rw [mveeLoop_stop pts tol _ _ _ hc'] at hn
        cases hn
      have hss : tol / 2 ≤ s := by
        have := mvee_err_upper pts h j s hs0
        push Not at herr
        linarith
      have hg := mvee_det_gain pts hd h j hge s (tol / 2) hs hs1 (by linarith) hss
      obtain ⟨v, hv, hle⟩ := ih _ _ h' hn
      refine ⟨v, hv, le_trans ?_ hle⟩
      have hg0 : 0 ≤ mveeGain d (tol / 2) ^ fuel :=
        pow_nonneg (le_trans zero_le_one (mveeGain_gt hd (tol / 2) (by linarith)).le) _
      calc mveeGain d (tol / 2) ^ (fuel + 1) * (mveeX pts u).det
          = mveeGain d (tol / 2) ^ fuel * (mveeGain d (tol / 2) * (mveeX pts u).det) := by ring
        _ ≤ _ := mul_le_mul_of_nonneg_left hg hg0
  obtain ⟨v, hv, hle⟩ := key fuel u err h hn
  refine ⟨v, hv, le_trans (mul_le_mul_of_nonneg_right ?_ h.det.le) hle⟩
  exact pow_le_pow_right₀ (mveeGain_gt hd (tol / 2) (by linarith)).le (by omega)

/-- The determinant is bounded. -/
theorem mveeX_det_bdd : ∃ C : ℝ, ∀ u, MveeOk pts u → (mveeX pts u).det ≤ C := by
  obtain ⟨B, hB⟩ : ∃ B : ℝ, ∀ k a, |mveeq pts k a| ≤ B := by
    refine ⟨∑ p : Fin N × (Fin d ⊕ Unit), |mveeq pts p.1 p.2|, fun k a => ?_⟩
    exact Finset.single_le_sum (f := fun p : Fin N × (Fin d ⊕ Unit) => |mveeq pts p.1 p.2|)
      (fun p _ => abs_nonneg _) (Finset.mem_univ (k, a))
  refine ⟨(Fintype.card (Fin d ⊕ Unit)).factorial • (B * B) ^ Fintype.card (Fin d ⊕ Unit), fun u h => ?_⟩
  refine le_trans (le_abs_self _) ?_
  refine Matrix.det_le (abv := AbsoluteValue.abs) (A := mveeX pts u) (x := B * B) fun a b => ?_
  change |mveeX pts u a b| ≤ B * B
  rw [mveeX_apply]
  calc |∑ k, u k * mveeq pts k a * mveeq pts k b| ≤ ∑ k, |u k * mveeq pts k a * mveeq pts k b| :=
        Finset.abs_sum_le_sum_abs _ _
    _ ≤ ∑ k, u k * (B * B) := Finset.sum_le_sum fun k _ => by
        rw [abs_mul, abs_mul, abs_of_nonneg (h.nonneg pts k), mul_assoc]
        exact mul_le_mul_of_nonneg_left (mul_le_mul (hB k a) (hB k b) (abs_nonneg _)
          ((abs_nonneg _).trans (hB k a))) (h.nonneg pts k)
    _ = B * B := by rw [← Finset.sum_mul, h.sum, one_mul]

/-- The loop ends. -/
theorem mveeLoop_ends (hd : 0 < d) (tol : ℝ) (htol : 0 < tol) (u : Fin N → ℝ) (err : ℝ)
    (h : MveeOk pts u) : ∃ fuel v, mveeLoop pts tol fuel u err = .ok (some v) := by
  obtain ⟨C, hC⟩ := mveeX_det_bdd pts
  obtain ⟨n, hn⟩ := pow_unbounded_of_one_lt (C / (mveeX pts u).det) (mveeGain_gt hd (tol / 2) (by linarith))
  obtain ⟨r, hr⟩ := (mveeLoop_spec pts hd tol (n + 1) u err h).1
  cases r with
  | some v => exact ⟨n + 1, v, hr⟩
  | none =>
    exfalso
    obtain ⟨v, hv, hle⟩ := mveeLoop_grows pts hd tol htol (n + 1) u err h hr
    rw [Nat.add_sub_cancel] at hle
    rw [div_lt_iff₀ h.det] at hn
    linarith [hC v hv]

end

end QInfer
