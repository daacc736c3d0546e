import Verif.Model.Score
import Mathlib.Analysis.Calculus.MeanValue
import Mathlib.Analysis.Calculus.Deriv.Add
import Mathlib.Analysis.Calculus.Deriv.Mul
import Mathlib.Analysis.Calculus.Deriv.Pow
import Mathlib.Analysis.Calculus.Deriv.Comp
import Mathlib.Analysis.SpecialFunctions.Log.Deriv
import Mathlib.Analysis.SpecialFunctions.Trigonometric.Deriv
import Mathlib.Analysis.SpecialFunctions.ExpDeriv
import Mathlib.Tactic.FieldSimp
import Mathlib.Tactic.Ring
import Mathlib.Tactic.NormNum
import Mathlib.Tactic.Positivity
import Mathlib.Tactic.LinearCombination

/-!
# C64, C65: Fisher information and numerical gradients
-/

set_option linter.unusedSectionVars false

namespace QInfer

open scoped BigOperators

/-! ## C64: Fisher information -/

/-- Covariance under the distribution `p` on `n` outcomes. -/
def Spec.covOver (n : Nat) (p a b : Nat → ℝ) : ℝ :=
  ∑ o ∈ Finset.range n, p o * ((a o - ∑ k ∈ Finset.range n, p k * a k) *
    (b o - ∑ k ∈ Finset.range n, p k * b k))

/-- C64: with a constant number of outcomes, the Fisher information of every model and experiment is
symmetric and positive semidefinite whenever the likelihoods are nonnegative. -/
theorem C64_psd {nM nE : Nat} (nP nAll : Nat) (nOut : Fin nE → Nat)
    (s : Nat → Nat → Fin nM → Fin nE → ℝ) (L : Nat → Fin nM → Fin nE → ℝ)
    (hL : ∀ o m e, 0 ≤ L o m e) :
    ∃ F, fisherInformation true nP nAll nOut (.four nP s) L = .ok (nP, F) ∧
      ∀ m e, (∀ i j, F i j m e = F j i m e) ∧
        ∀ v : Nat → ℝ, 0 ≤ ∑ i ∈ Finset.range nP, ∑ j ∈ Finset.range nP, v i * F i j m e * v j := by
  refine ⟨_, rfl, fun m e => ⟨fun i j => ?_, fun v => ?_⟩⟩
  · exact Finset.sum_congr rfl fun o _ => by ring
  · have : ∑ i ∈ Finset.range nP, ∑ j ∈ Finset.range nP, v i * fisherSum nAll L s i j m e * v j =
        ∑ o ∈ Finset.range nAll, L o m e * (∑ i ∈ Finset.range nP, v i * s i o m e) ^ 2 := by
      simp only [fisherSum, Finset.mul_sum, Finset.sum_mul, sq]
      have h1 : ∀ i ∈ Finset.range nP, (∑ j ∈ Finset.range nP, ∑ o ∈ Finset.range nAll,
          v i * (L o m e * s i o m e * s j o m e) * v j) = ∑ o ∈ Finset.range nAll,
          ∑ j ∈ Finset.range nP, v i * (L o m e * s i o m e * s j o m e) * v j :=
        fun i _ => Finset.sum_comm
      rw [Finset.sum_congr rfl h1, Finset.sum_comm]
      refine Finset.sum_congr rfl fun o _ => ?_
      rw [Finset.sum_comm]
      exact Finset.sum_congr rfl fun i _ => Finset.sum_congr rfl fun j _ => by ring
    rw [this]
    exact Finset.sum_nonneg fun o _ => mul_nonneg (hL o m e) (sq_nonneg _)

/-- C64: the Fisher information is the covariance of the score.  Here the likelihoods are positive,
sum to one for all parameters, and `s` is the gradient of their logarithm. -/
theorem C64_covariance {nP nM nE : Nat} (nAll : Nat) (nOut : Fin nE → Nat)
    (Pr : Nat → (Fin nP → ℝ) → Fin nE → ℝ) (hsum : ∀ x e, ∑ o ∈ Finset.range nAll, Pr o x e = 1)
    (hpos : ∀ o < nAll, ∀ x e, 0 < Pr o x e)
    (x : Fin nM → Fin nP → ℝ) (s : Nat → Nat → Fin nM → Fin nE → ℝ)
    (hs : ∀ (i : Fin nP), ∀ o < nAll, ∀ m e,
      HasDerivAt (fun t => Real.log (Pr o (Function.update (x m) i t) e)) (s i o m e) (x m i)) :
    ∃ F, fisherInformation true nP nAll nOut (.four nP s) (fun o m e => Pr o (x m) e) =
        .ok (nP, F) ∧
      ∀ (i j : Fin nP) m e, F i j m e =
        Spec.covOver nAll (fun o => Pr o (x m) e) (fun o => s i o m e) fun o => s j o m e := by
  refine ⟨_, rfl, fun i j m e => ?_⟩
  have hzero : ∀ i : Fin nP, ∑ o ∈ Finset.range nAll, Pr o (x m) e * s i o m e = 0 := by
    intro i
    have h1 : ∀ o ∈ Finset.range nAll,
        HasDerivAt (fun t => Pr o (Function.update (x m) i t) e) (Pr o (x m) e * s i o m e) (x m i) := by
      intro o ho
      have ho' := Finset.mem_range.1 ho
      have h2 := (hs i o ho' m e).exp
      have h3 : (fun t => Real.exp (Real.log (Pr o (Function.update (x m) i t) e))) =
          fun t => Pr o (Function.update (x m) i t) e := by
        funext t; exact Real.exp_log (hpos o ho' _ e)
      rw [h3, Real.exp_log (hpos o ho' _ e), Function.update_eq_self] at h2
      exact h2
    have h4 := HasDerivAt.fun_sum h1
    have h5 : (fun t => ∑ o ∈ Finset.range nAll, Pr o (Function.update (x m) i t) e) = fun _ => 1 := by
      funext t; exact hsum _ e
    rw [h5] at h4
    exact h4.unique (hasDerivAt_const _ _)
  unfold Spec.covOver
  simp only [hzero, sub_zero]
  exact Finset.sum_congr rfl fun o _ => by ring

/-- C64: a model with one parameter may leave out the parameter axis of its scores. -/
theorem C64_one_parameter {nM nE : Nat} (nAll : Nat) (nOut : Fin nE → Nat)
    (s : Nat → Fin nM → Fin nE → ℝ) (L : Nat → Fin nM → Fin nE → ℝ) :
    ∃ F, fisherInformation true 1 nAll nOut (.three s) L = .ok (1, F) ∧
      fisherInformation true 1 nAll nOut (.four 1 fun _ => s) L = .ok (1, F) :=
  ⟨_, rfl, rfl⟩

/-- C64: with a varying number of outcomes the call fails for every model with several parameters or
several parameter vectors, and for scores without parameter axis: the `einsum` keeps an experiment
axis which the assignment has no place for. -/
theorem C64_varying_outcomes_fail {nM nE : Nat} (hE : 0 < nE) (nP nAll : Nat) (nOut : Fin nE → Nat)
    (L : Nat → Fin nM → Fin nE → ℝ) :
    (∀ s, 1 < nP → fisherInformation false nP nAll nOut (.four nP s) L = .error .valueError) ∧
    (∀ s, 1 < nM → fisherInformation false nP nAll nOut (.four nP s) L = .error .valueError) ∧
    (∀ s, fisherInformation false nP nAll nOut (.three s) L = .error .valueError) := by
  have h0 : nE ≠ 0 := by omega
  refine ⟨fun s h => ?_, fun s h => ?_, fun s => ?_⟩
  · simp only [fisherInformation, Bool.false_eq_true, if_false, h0, fisherAssignable]
    rw [if_neg]
    simp; omega
  · simp only [fisherInformation, Bool.false_eq_true, if_false, h0, fisherAssignable]
    rw [if_neg]
    simp; omega
  · simp only [fisherInformation, Bool.false_eq_true, if_false, h0]

/-- C64: what remains for a varying number of outcomes: one parameter and one parameter vector.
Every experiment is then summed over its own outcomes.  The intended claim is this for any number
of parameters and vectors. -/
theorem C64_varying_outcomes_partial {nE : Nat} (hE : 0 < nE) (nAll : Nat) (nOut : Fin nE → Nat)
    (s : Nat → Nat → Fin 1 → Fin nE → ℝ) (L : Nat → Fin 1 → Fin nE → ℝ) :
    ∃ F, fisherInformation false 1 nAll nOut (.four 1 s) L = .ok (1, F) ∧
      ∀ e, F 0 0 0 e = ∑ o ∈ Finset.range (nOut e), L o 0 e * s 0 o 0 e ^ 2 := by
  have h0 : nE ≠ 0 := by omega
  refine ⟨fun _ _ m e => fisherSum (nOut e) L s 0 0 m e, ?_, fun e => ?_⟩
  · simp [fisherInformation, h0, fisherAssignable]
  · exact Finset.sum_congr rfl fun o _ => by ring

/-- Case for C64: a coin with probability `p = 1/4` of outcome 0 has Fisher information
`1/(p (1 - p)) = 16/3`. -/
example : (match fisherInformation (K := ℚ) (nM := 1) (nE := 1) true 1 2 (fun _ => 2)
      (.three fun o _ _ => if o = 0 then 4 else -4/3) (fun o _ _ => if o = 0 then 1/4 else 3/4) with
    | .ok (_, F) => F 0 0 0 0
    | .error _ => 0) = 16/3 := by decide +kernel

/-- Case for `C64_covariance`: the coin with `p = 1/(1 + exp(-x))`. -/
example : ∃ (Pr : Nat → (Fin 1 → ℝ) → Fin 1 → ℝ) (s : Nat → Nat → Fin 1 → Fin 1 → ℝ),
    (∀ x e, ∑ o ∈ Finset.range 2, Pr o x e = 1) ∧ (∀ o < 2, ∀ x e, 0 < Pr o x e) ∧
    (Pr 0 (fun _ => 1) 0 ≠ Pr 0 (fun _ => 2) 0) ∧
    ∀ (i : Fin 1), ∀ o < 2, ∀ (m e : Fin 1), HasDerivAt
      (fun t => Real.log (Pr o (Function.update (fun _ => (0 : ℝ)) i t) e)) (s i o m e) 0 := by
  have hpos : ∀ x : ℝ, 0 < 1 / (1 + Real.exp (-x)) ∧ 0 < 1 - 1 / (1 + Real.exp (-x)) := by
    intro x
    have := Real.exp_pos (-x)
    refine ⟨by positivity, ?_⟩
    rw [sub_pos, div_lt_one (by positivity)]
    linarith
  have hdiff : Differentiable ℝ fun x : ℝ => 1 / (1 + Real.exp (-x)) := by
    intro x
    have := Real.exp_pos (-x)
    refine DifferentiableAt.div (by fun_prop) (by fun_prop) (by positivity)
  refine ⟨fun o x _ => if o = 0 then 1 / (1 + Real.exp (-(x 0))) else 1 - 1 / (1 + Real.exp (-(x 0))),
    fun _ o _ _ => deriv (fun t => Real.log
      (if o = 0 then 1 / (1 + Real.exp (-t)) else 1 - 1 / (1 + Real.exp (-t)))) 0, ?_, ?_, ?_, ?_⟩
  · intro x e
    simp [Finset.sum_range_succ]
  · intro o _ x e
    dsimp only
    split_ifs
    · exact (hpos _).1
    · exact (hpos _).2
  · simp only [if_true]
    have h1 := Real.exp_pos (-1)
    have h2 : Real.exp (-2) < Real.exp (-1) := Real.exp_lt_exp.2 (by norm_num)
    have h3 := Real.exp_pos (-2)
    intro h
    rw [div_eq_div_iff (by positivity) (by positivity)] at h
    linarith
  · intro i o _ m e
    obtain rfl : i = 0 := Subsingleton.elim _ _
    simp only [Function.update_self]
    apply DifferentiableAt.hasDerivAt
    by_cases ho : o = 0
    · simp only [ho, if_true]
      exact (hdiff 0).log (hpos 0).1.ne'
    · simp only [ho, if_false]
      exact ((differentiableAt_const _).sub (hdiff 0)).log (hpos 0).2.ne'

/-! ## C65: numerical gradients -/

/-- The third-order bound for central differences, one side. -/
theorem central_upper (f f1 f2 f3 : ℝ → ℝ) (x M : ℝ) (h1 : ∀ t, HasDerivAt f (f1 t) t)
    (h2 : ∀ t, HasDerivAt f1 (f2 t) t) (h3 : ∀ t, HasDerivAt f2 (f3 t) t) (hM : ∀ t, |f3 t| ≤ M)
    (h : ℝ) (hh : 0 ≤ h) : f (x + h) - f (x - h) - 2 * h * f1 x ≤ M * h ^ 3 / 3 := by
  have a2 : ∀ t, 0 ≤ t → f2 (x + t) - f2 (x - t) ≤ 2 * M * t := by
    intro t ht
    have := Convex.norm_image_sub_le_of_norm_hasDerivWithin_le (f := f2) (f' := f3) (C := M)
      (s := Set.univ) (x := x - t) (y := x + t) (fun y _ => (h3 y).hasDerivWithinAt)
      (fun y _ => hM y) convex_univ trivial trivial
    rw [Real.norm_eq_abs, Real.norm_eq_abs] at this
    have e : x + t - (x - t) = 2 * t := by ring
    rw [e, abs_of_nonneg (by linarith : (0 : ℝ) ≤ 2 * t)] at this
    have := le_abs_self (f2 (x + t) - f2 (x - t))
    linarith
  have dp : ∀ (g g' : ℝ → ℝ), (∀ t, HasDerivAt g (g' t) t) → ∀ t,
      HasDerivAt (fun t => g (x + t)) (g' (x + t)) t := fun g g' hg t => by
    exact (hg (x + t)).comp_const_add x t
  have dm : ∀ (g g' : ℝ → ℝ), (∀ t, HasDerivAt g (g' t) t) → ∀ t,
      HasDerivAt (fun t => g (x - t)) (-g' (x - t)) t := fun g g' hg t => by
    exact (hg (x - t)).comp_const_sub x t
  have a1 : ∀ t, 0 ≤ t → f1 (x + t) + f1 (x - t) - 2 * f1 x ≤ M * t ^ 2 := by
    have hd : ∀ t, HasDerivAt (fun t => M * t ^ 2 - (f1 (x + t) + f1 (x - t) - 2 * f1 x))
        (M * (2 * t) - (f2 (x + t) + -f2 (x - t) - 0)) t := fun t => by
      have e1 : HasDerivAt (fun t : ℝ => M * t ^ 2) (M * (2 * t)) t := by
        simpa using (hasDerivAt_pow 2 t).const_mul M
      exact e1.sub (((dp f1 f2 h2 t).add (dm f1 f2 h2 t)).sub (hasDerivAt_const _ _))
    have hmono : MonotoneOn (fun t => M * t ^ 2 - (f1 (x + t) + f1 (x - t) - 2 * f1 x)) (Set.Ici 0) := by
      apply monotoneOn_of_deriv_nonneg (convex_Ici 0)
      · exact fun t _ => (hd t).continuousAt.continuousWithinAt
      · exact fun t _ => (hd t).differentiableAt.differentiableWithinAt
      · intro t ht
        rw [interior_Ici] at ht
        rw [(hd t).deriv]
        have := a2 t (le_of_lt ht)
        linarith
    intro t ht
    have := hmono (Set.mem_Ici.2 le_rfl) (Set.mem_Ici.2 ht) ht
    simp only [ne_eq, OfNat.ofNat_ne_zero, not_false_eq_true, zero_pow, mul_zero, add_zero, sub_zero] at this
    linarith
  have hd : ∀ t, HasDerivAt (fun t => M * t ^ 3 / 3 - (f (x + t) - f (x - t) - 2 * t * f1 x))
      (M * t ^ 2 - (f1 (x + t) - -f1 (x - t) - 2 * f1 x)) t := fun t => by
    have e1 : HasDerivAt (fun t : ℝ => M * t ^ 3 / 3) (M * t ^ 2) t := by
      have := ((hasDerivAt_pow 3 t).const_mul M).div_const 3
      convert! this using 1
      push_cast
      ring
    have e2 : HasDerivAt (fun t : ℝ => 2 * t * f1 x) (2 * f1 x) t := by
      have := ((hasDerivAt_id t).const_mul 2).mul_const (f1 x)
      simpa using this
    exact e1.sub (((dp f f1 h1 t).sub (dm f f1 h1 t)).sub e2)
  have hmono : MonotoneOn (fun t => M * t ^ 3 / 3 - (f (x + t) - f (x - t) - 2 * t * f1 x))
      (Set.Ici 0) := by
    apply monotoneOn_of_deriv_nonneg (convex_Ici 0)
    · exact fun t _ => (hd t).continuousAt.continuousWithinAt
    · exact fun t _ => (hd t).differentiableAt.differentiableWithinAt
    · intro t ht
      rw [interior_Ici] at ht
      rw [(hd t).deriv]
      have := a1 t (le_of_lt ht)
      linarith
  have := hmono (Set.mem_Ici.2 le_rfl) (Set.mem_Ici.2 hh) hh
  simp only [ne_eq, OfNat.ofNat_ne_zero, not_false_eq_true, zero_pow, mul_zero, add_zero, sub_zero,
    zero_div, zero_mul, sub_self] at this
  linarith

theorem central_bound (f f1 f2 f3 : ℝ → ℝ) (x M : ℝ) (h1 : ∀ t, HasDerivAt f (f1 t) t)
    (h2 : ∀ t, HasDerivAt f1 (f2 t) t) (h3 : ∀ t, HasDerivAt f2 (f3 t) t) (hM : ∀ t, |f3 t| ≤ M)
    (h : ℝ) (hh : 0 < h) : |(f (x + h) - f (x - h)) / (2 * h) - f1 x| ≤ M * h ^ 2 / 6 := by
  have u := central_upper f f1 f2 f3 x M h1 h2 h3 hM h hh.le
  have l := central_upper (fun t => -f t) (fun t => -f1 t) (fun t => -f2 t) (fun t => -f3 t) x M
    (fun t => (h1 t).neg) (fun t => (h2 t).neg) (fun t => (h3 t).neg)
    (fun t => by rw [abs_neg]; exact hM t) h hh.le
  have e : (f (x + h) - f (x - h)) / (2 * h) - f1 x =
      (f (x + h) - f (x - h) - 2 * h * f1 x) / (2 * h) := by field_simp
  rw [e, abs_div, abs_of_pos (by linarith : (0 : ℝ) < 2 * h), div_le_iff₀ (by linarith), abs_le]
  constructor <;> linarith [show M * h ^ 2 / 6 * (2 * h) = M * h ^ 3 / 3 by ring]

section
variable {d : Nat}

theorem perturb_eq (x : Fin d → ℝ) (i : Fin d) (h : ℝ) :
    perturb x i h = Function.update x i (x i + h) := by
  funext j
  unfold perturb Function.update
  by_cases hj : j = i
  · subst hj; simp
  · simp [hj]

theorem perturb_neg_eq (x : Fin d → ℝ) (i : Fin d) (h : ℝ) :
    (fun j => x j - if j = i then h else 0) = Function.update x i (x i - h) := by
  funext j
  unfold Function.update
  by_cases hj : j = i
  · subst hj; simp
  · simp [hj]

theorem numScore_eq (L : (Fin d → ℝ) → ℝ) (x : Fin d → ℝ) (i : Fin d) (h : ℝ) (hh : h ≠ 0)
    (hL : L x ≠ 0) : numScore L x i h = some ((L (Function.update x i (x i + h)) -
      L (Function.update x i (x i - h))) / (2 * h) / L x) := by
  unfold numScore
  rw [if_neg (by simp [hh, hL]), perturb_eq, perturb_neg_eq, div_div]

/-- C65: the numerical score is exactly the derivative of the log-likelihood if the likelihood is
quadratic in the parameter. -/
theorem C65_score_quadratic (L : (Fin d → ℝ) → ℝ) (x : Fin d → ℝ) (i : Fin d) (h : ℝ) (hh : h ≠ 0)
    (hL : L x ≠ 0) (a b c : ℝ) (hq : ∀ t, L (Function.update x i t) = a + b * t + c * t ^ 2) :
    ∃ q, numScore L x i h = some q ∧
      HasDerivAt (fun t => Real.log (L (Function.update x i t))) q (x i) := by
  refine ⟨_, numScore_eq L x i h hh hL, ?_⟩
  have hx : L x = a + b * x i + c * x i ^ 2 := by rw [← hq, Function.update_eq_self]
  have e : (L (Function.update x i (x i + h)) - L (Function.update x i (x i - h))) / (2 * h) / L x =
      (b + c * (2 * x i)) / (a + b * x i + c * x i ^ 2) := by
    rw [hq, hq, ← hx]
    congr 1
    field_simp
    ring
  rw [e]
  simp only [hq]
  apply HasDerivAt.log _ (hx ▸ hL)
  have h1 : HasDerivAt (fun t : ℝ => a + b * t) b (x i) := by
    simpa using ((hasDerivAt_id (x i)).const_mul b).const_add a
  have h2 : HasDerivAt (fun t : ℝ => c * t ^ 2) (c * (2 * x i)) (x i) := by
    simpa using (hasDerivAt_pow 2 (x i)).const_mul c
  exact h1.add h2

/-- C65: for a likelihood with third derivative bounded by `M` along the parameter, the numerical
score is within `M h² / (6 L)` of the derivative of the log-likelihood. -/
theorem C65_score_error (L : (Fin d → ℝ) → ℝ) (x : Fin d → ℝ) (i : Fin d) (h : ℝ) (hh : 0 < h)
    (hL : 0 < L x) (f1 f2 f3 : ℝ → ℝ) (M : ℝ)
    (h1 : ∀ t, HasDerivAt (fun t => L (Function.update x i t)) (f1 t) t)
    (h2 : ∀ t, HasDerivAt f1 (f2 t) t) (h3 : ∀ t, HasDerivAt f2 (f3 t) t) (hM : ∀ t, |f3 t| ≤ M) :
    ∃ q, numScore L x i h = some q ∧
      ∃ g, HasDerivAt (fun t => Real.log (L (Function.update x i t))) g (x i) ∧
        |q - g| ≤ M * h ^ 2 / (6 * L x) := by
  refine ⟨_, numScore_eq L x i h hh.ne' hL.ne', f1 (x i) / L x, ?_, ?_⟩
  · have := (h1 (x i)).log (by rw [Function.update_eq_self]; exact hL.ne')
    rwa [Function.update_eq_self] at this
  · have hb := central_bound (fun t => L (Function.update x i t)) f1 f2 f3 (x i) M h1 h2 h3 hM h hh
    rw [← sub_div, abs_div, abs_of_pos hL, ← div_div (M * h ^ 2)]
    exact div_le_div_of_nonneg_right hb hL.le

/-- C65: the numerical score tends to the derivative of the log-likelihood as the step shrinks. -/
theorem C65_score_limit (L : (Fin d → ℝ) → ℝ) (x : Fin d → ℝ) (i : Fin d) (hL : L x ≠ 0) (g : ℝ)
    (hg : HasDerivAt (fun t => L (Function.update x i t)) g (x i)) :
    HasDerivAt (fun t => Real.log (L (Function.update x i t))) (g / L x) (x i) ∧
    Filter.Tendsto (fun h => (numScore L x i h).getD 0) (nhdsWithin 0 {0}ᶜ) (nhds (g / L x)) := by
  constructor
  · have := hg.log (by rw [Function.update_eq_self]; exact hL)
    rwa [Function.update_eq_self] at this
  · have t1 := hg.tendsto_slope_zero
    have t2 : Filter.Tendsto (fun h : ℝ => -h) (nhdsWithin 0 {0}ᶜ) (nhdsWithin 0 {0}ᶜ) := by
      apply tendsto_nhdsWithin_of_tendsto_nhds_of_eventually_within
      · have : Filter.Tendsto (fun h : ℝ => -h) (nhds 0) (nhds (-0)) := continuous_neg.tendsto 0
        rw [neg_zero] at this
        exact this.mono_left nhdsWithin_le_nhds
      · filter_upwards [self_mem_nhdsWithin] with h hh
        simpa using hh
    have t3 := t1.comp t2
    have t4 := ((t1.add t3).div_const 2).div_const (L x)
    rw [show (g + g) / 2 = g by ring] at t4
    refine t4.congr' ?_
    filter_upwards [self_mem_nhdsWithin] with h hh
    have hh' : h ≠ 0 := hh
    rw [numScore_eq L x i h hh' hL, Option.getD_some]
    simp only [Function.comp, smul_eq_mul]
    congr 1
    rw [← sub_eq_add_neg]
    field_simp
    ring

/-- C65: no score is produced at parameters of likelihood zero. -/
theorem C65_zero_likelihood (L : (Fin d → ℝ) → ℝ) (x : Fin d → ℝ) (i : Fin d) (h : ℝ)
    (hL : L x = 0) : numScore L x i h = none := by
  unfold numScore
  rw [if_pos (by simp [hL])]

/-- C65: one step size is used for all parameters, or one per parameter; any other number is an
`AssertionError`. -/
theorem C65_steps (h : List ℝ) (n : Nat) :
    (∀ x, h = [x] → scoreSteps h n = .ok (List.replicate n x)) ∧
    (1 < h.length → h.length = n → scoreSteps h n = .ok h) ∧
    (1 < h.length → h.length ≠ n → scoreSteps h n = .error .assertionError) := by
  refine ⟨?_, ?_, ?_⟩
  · rintro x rfl
    simp [scoreSteps]
  · intro h1 h2
    unfold scoreSteps; rw [if_pos h1, if_pos h2]
  · intro h1 h2
    unfold scoreSteps; rw [if_pos h1, if_neg h2]

theorem fdDiff_eq (f : (Fin d → ℝ) → ℝ) (x : Fin d → ℝ) (i : Fin d) (h : ℝ) :
    fdDiff f x i h = f (Function.update x i (x i + h / 2)) - f (Function.update x i (x i - h / 2)) := by
  unfold fdDiff
  rw [← perturb_neg_eq, ← perturb_eq]
  unfold perturb
  congr 2 <;> (funext j; by_cases hj : j = i <;> simp [hj])

theorem fdCentral_eq (f : (Fin d → ℝ) → ℝ) (h x : Fin d → ℝ) (hh : ∀ i, h i ≠ 0) :
    fdCentral f (List.ofFn h) x = .ok (List.ofFn fun i => some (fdDiff f x i (h i) / h i)) := by
  unfold fdCentral
  rw [if_neg (by simp)]
  dsimp only
  rw [if_pos (by simp)]
  congr 1
  apply List.ext_getElem
  · simp
  · intro n h1 h2
    simp [hh]

/-- C65: `FiniteDifference.central` gives a gradient with one entry per argument, each within
`M hᵢ² / 24` of the partial derivative; `M` bounds the third partial derivatives. -/
theorem C65_gradient_error (f : (Fin d → ℝ) → ℝ) (h x : Fin d → ℝ) (hh : ∀ i, 0 < h i)
    (f1 f2 f3 : Fin d → ℝ → ℝ) (M : ℝ)
    (h1 : ∀ i t, HasDerivAt (fun t => f (Function.update x i t)) (f1 i t) t)
    (h2 : ∀ i t, HasDerivAt (f1 i) (f2 i t) t) (h3 : ∀ i t, HasDerivAt (f2 i) (f3 i t) t)
    (hM : ∀ i t, |f3 i t| ≤ M) :
    ∃ g : Fin d → ℝ, fdCentral f (List.ofFn h) x = .ok (List.ofFn fun i => some (g i)) ∧
      ∀ i, |g i - f1 i (x i)| ≤ M * h i ^ 2 / 24 := by
  refine ⟨_, fdCentral_eq f h x fun i => (hh i).ne', fun i => ?_⟩
  have := central_bound (fun t => f (Function.update x i t)) (f1 i) (f2 i) (f3 i) (x i) M (h1 i) (h2 i)
    (h3 i) (hM i) (h i / 2) (by have := hh i; linarith)
  rw [fdDiff_eq]
  rw [show 2 * (h i / 2) = h i by ring] at this
  refine this.trans (le_of_eq (by ring))

/-- C65: it is exact on functions quadratic in each argument. -/
theorem C65_gradient_quadratic (f : (Fin d → ℝ) → ℝ) (h x : Fin d → ℝ) (hh : ∀ i, h i ≠ 0)
    (a b c : Fin d → ℝ) (hq : ∀ i t, f (Function.update x i t) = a i + b i * t + c i * t ^ 2) :
    fdCentral f (List.ofFn h) x = .ok (List.ofFn fun i => some (b i + 2 * c i * x i)) := by
  rw [fdCentral_eq f h x hh]
  congr 2
  funext i
  congr 1
  rw [fdDiff_eq, hq, hq]
  have := hh i
  field_simp
  ring

/-- C65: a scalar step is used for every argument; too few steps raise `IndexError`, too many raise
`ValueError`, except that with a single argument the one difference is divided by every step given. -/
theorem C65_gradient_steps (f : (Fin d → ℝ) → ℝ) (x : Fin d → ℝ) :
    (∀ h : ℝ, fdSteps d (.inl h) = List.ofFn fun _ : Fin d => h) ∧
    (∀ hs : List ℝ, hs.length < d →
      fdCentral f (fdSteps (K := ℝ) d (.inr hs)) x = .error .indexError) ∧
    (∀ hs : List ℝ, 1 < d → d < hs.length →
      fdCentral f (fdSteps (K := ℝ) d (.inr hs)) x = .error .valueError) ∧
    (∀ hs : List ℝ, ∀ hd : d = 1, 1 < hs.length → (∀ h ∈ hs, h ≠ 0) →
      fdCentral f (fdSteps (K := ℝ) d (.inr hs)) x =
        .ok (hs.map fun h => some (fdDiff f x ⟨0, by omega⟩ (hs.getD 0 0) / h))) := by
  refine ⟨fun h => ?_, fun hs hl => ?_, fun hs h1 hl => ?_, fun hs hd hl h0 => ?_⟩
  · simp [fdSteps]
  · change fdCentral f hs x = _
    unfold fdCentral; rw [if_pos hl]
  · change fdCentral f hs x = _
    obtain ⟨d, rfl⟩ : ∃ e, d = e + 2 := ⟨d - 2, by omega⟩
    unfold fdCentral
    rw [if_neg (by omega)]
    dsimp only
    rw [if_neg (by omega)]
    simp [List.ofFn_succ]
  · change fdCentral f hs x = _
    subst hd
    unfold fdCentral
    rw [if_neg (by omega)]
    dsimp only
    rw [if_neg (by omega)]
    simp only [List.ofFn_succ, List.ofFn_zero]
    congr 1
    refine List.map_congr_left fun h hh => ?_
    rw [if_neg (h0 h hh)]
    rfl

/-- Case for `C65_gradient_steps`: two arguments and three steps. -/
example (f : (Fin 2 → ℝ) → ℝ) (x : Fin 2 → ℝ) :
    fdCentral f (fdSteps (K := ℝ) 2 (.inr [1, 2, 3])) x = .error .valueError :=
  (C65_gradient_steps f x).2.2.1 _ (by norm_num) (by simp)

/-- Case for `C65_score_error`: the precession likelihood `cos²(t/2) = (1 + cos t)/2` at `t = 1`. -/
example : ∃ q, numScore (K := ℝ) (d := 1) (fun x : Fin 1 → ℝ => (1 + Real.cos (x 0)) / 2) (fun _ => 1) 0
    (1/10) = some q ∧
    ∃ g, HasDerivAt (fun t => Real.log ((1 + Real.cos (Function.update (fun _ : Fin 1 => (1 : ℝ)) 0 t 0)) / 2))
      g 1 ∧ |q - g| ≤ (1/2) * (1/10) ^ 2 / (6 * ((1 + Real.cos 1) / 2)) := by
  have hc : 0 < (1 + Real.cos 1) / 2 := by
    have := Real.cos_one_pos
    positivity
  apply C65_score_error (d := 1) (fun x : Fin 1 → ℝ => (1 + Real.cos (x 0)) / 2) (fun _ => 1) 0 (1/10) (by norm_num)
    hc (fun t => -Real.sin t / 2) (fun t => -Real.cos t / 2) (fun t => Real.sin t / 2)
  · intro t
    simp only [Function.update_self]
    exact ((Real.hasDerivAt_cos t).const_add 1).div_const 2
  · intro t; exact (Real.hasDerivAt_sin t).neg.div_const 2
  · intro t
    have := (Real.hasDerivAt_cos t).neg.div_const 2
    simpa using this
  · intro t
    rw [abs_div, abs_two]
    have := Real.abs_sin_le_one t
    linarith

end

end QInfer
