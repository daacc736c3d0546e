import Verif.Props.RootStable
import Verif.Props.RoundMove

/-!
# C161: new locations of the Liu-West resampler, with covariance and square root computed
-/

namespace QInfer

open Matrix
open scoped BigOperators ComplexOrder

section

variable {d : ℕ}

/-- **C161, new locations.**  The whole computation in rounded arithmetic: mean and covariance of the cloud, the square root of the
covariance, with entries off by at most `ρ`, of which the real part is taken, and the new location.  Each
entry of the new location is off by the relative error of `D + 5` operations, plus `|h|` times the errors of the square root: `ρ` times the size of the kernel draw, and the effect of the rounded covariance. -/
theorem C161_location {n : ℕ} {u : ℝ} {rnd : ℝ → ℝ} {radd : ℝ → ℝ → ℝ} (h : Spec.Relative u rnd radd)
    (t : Fin d → Fin d → SumTree (Fin n)) (tm : Fin d → SumTree (Fin n)) (tz : SumTree (Fin d)) (D : ℕ)
    (ht : ∀ i j, (t i j).leaves.Perm (List.finRange n) ∧ (t i j).depth ≤ D)
    (htm : ∀ i, (tm i).leaves.Perm (List.finRange n) ∧ (tm i).depth ≤ D)
    (htz : tz.leaves.Perm (List.finRange d) ∧ tz.depth ≤ D) (p : Fin n → ℝ) (hp : ∀ i, 0 ≤ p i)
    (hp1 : ∑ i, p i = 1) (x : Fin d → Fin n → ℝ) (M : ℝ) (hM : ∀ i, ∑ k, p k * x i k ^ 2 ≤ M)
    {w w' : Fin d → ℝ} {v v' : Matrix (Fin d) (Fin d) ℂ}
    (hE : hermLower (Matrix.of fun i j => ((covRound rnd radd (t i j) (tm i) (tm j) p (x i) (x j) : ℝ) : ℂ)) * v =
      v * diagonal fun k => (w k : ℂ)) (hu : vᴴ * v = 1)
    (hE' : hermLower (Matrix.of fun i j => ((Spec.centred p (x i) (x j) : ℝ) : ℂ)) * v' = v' * diagonal fun k => (w' k : ℂ))
    (hu' : v'ᴴ * v' = 1) (e e' : Bool) {a : ℝ} (ha : 0 ≤ a) (ha1 : a ≤ 1) (b : ℝ) (S : Fin d → Fin d → ℝ) (ρ : ℝ)
    (hS : ∀ i j, |S i j - ((sqrtmPsd (Matrix.of fun i j =>
      ((covRound rnd radd (t i j) (tm i) (tm j) p (x i) (x j) : ℝ) : ℂ)) w v e).1 i j).re| ≤ ρ)
    (parent : Fin n) (z : Fin d → ℝ) (i : Fin d) :
    |lwMoveRound rnd radd tz a b (x i parent) (meanRound rnd radd (tm i) p (x i)) (S i) z -
        Spec.lwMove a b (x i parent) p (x i) (fun j => ((sqrtmPsd (Matrix.of fun i j =>
          ((Spec.centred p (x i) (x j) : ℝ) : ℂ)) w' v' e').1 i j).re) z| ≤
      ((1 + u) ^ (D + 5) - 1) * Spec.lwSize a b (x i parent) p (x i) (S i) z +
        |b| * (ρ * ∑ j, |z j| + Real.sqrt (2 * (d * (((1 + u) ^ (2 * D + 4) - 1) * (2 * M))) * ∑ j, z j ^ 2)) := by
  have h1 := C160_move h htz.1 (htm i).1 htz.2 (htm i).2 ha ha1 b (x i parent) p (x i) hp (S i) z
  have h2 := C161_rounded h t tm D ht htm p hp hp1 x M hM hE hu hE' hu' e e' fun k => (z k : ℂ)
  generalize (sqrtmPsd (Matrix.of fun i j =>
      ((covRound rnd radd (t i j) (tm i) (tm j) p (x i) (x j) : ℝ) : ℂ)) w v e).1 = X at *
  generalize (sqrtmPsd (Matrix.of fun i j => ((Spec.centred p (x i) (x j) : ℝ) : ℂ)) w' v' e').1 = Y at *
  simp only [Complex.norm_real, Real.norm_eq_abs, sq_abs] at h2
  have hre : ∀ Z : Matrix (Fin d) (Fin d) ℂ, ((Z *ᵥ fun k => (z k : ℂ)) i).re = ∑ j, (Z i j).re * z j := by
    intro Z
    simp [Matrix.mulVec, dotProduct, Complex.re_sum]
  have h3 : |∑ j, (X i j).re * z j - ∑ j, (Y i j).re * z j| ≤
      Real.sqrt (2 * (d * (((1 + u) ^ (2 * D + 4) - 1) * (2 * M))) * ∑ j, z j ^ 2) := by
    rw [← hre, ← hre, ← Complex.sub_re]
    refine (Complex.abs_re_le_norm _).trans (Real.le_sqrt_of_sq_le (le_trans ?_ h2))
    exact Finset.single_le_sum (f := fun i => ‖(X *ᵥ fun k => (z k : ℂ)) i - (Y *ᵥ fun k => (z k : ℂ)) i‖ ^ 2)
      (fun _ _ => sq_nonneg _) (Finset.mem_univ i)
  have h4 : |∑ j, S i j * z j - ∑ j, (X i j).re * z j| ≤ ρ * ∑ j, |z j| := by
    rw [← Finset.sum_sub_distrib, Finset.mul_sum]
    refine (Finset.abs_sum_le_sum_abs _ _).trans (Finset.sum_le_sum fun j _ => ?_)
    rw [← sub_mul, abs_mul]
    exact mul_le_mul_of_nonneg_right (hS i j) (abs_nonneg _)
  have h5 : |Spec.lwMove a b (x i parent) p (x i) (S i) z - Spec.lwMove a b (x i parent) p (x i) (fun j => (Y i j).re) z| ≤
      |b| * (ρ * ∑ j, |z j| + Real.sqrt (2 * (d * (((1 + u) ^ (2 * D + 4) - 1) * (2 * M))) * ∑ j, z j ^ 2)) := by
    have : Spec.lwMove a b (x i parent) p (x i) (S i) z - Spec.lwMove a b (x i parent) p (x i) (fun j => (Y i j).re) z =
        b * (∑ j, S i j * z j - ∑ j, (Y i j).re * z j) := by
      simp only [Spec.lwMove]; ring
    rw [this, abs_mul]
    exact mul_le_mul_of_nonneg_left ((abs_sub_le _ _ _).trans (add_le_add h4 h3)) (abs_nonneg _)
  exact (abs_sub_le _ _ _).trans (add_le_add h1 h5)

end

/-- Case: two particles at 1/4 and 3/4 with equal weights, `a = 0.98`, in binary64, for every kernel draw.  The exact square root is
1/4. -/
example (z : Fin 1 → ℝ) :
    let add := fun x y => Spec.nearest 53 (x + y)
    let t : SumTree (Fin 2) := .node (.leaf 0) (.leaf 1)
    let p : Fin 2 → ℝ := fun _ => 1 / 2
    let x : Fin 2 → ℝ := ![1 / 4, 3 / 4]
    let S : Fin 1 → ℝ := fun _ => Real.sqrt (covRound (Spec.nearest 53) add t t t p x x)
    |lwMoveRound (Spec.nearest 53) add (.leaf (0 : Fin 1)) (49 / 50) (199 / 1000) (x 1) (meanRound (Spec.nearest 53) add t p x) S z -
        Spec.lwMove (49 / 50) (199 / 1000) (x 1) p x (fun _ => 1 / 4) z| ≤
      ((1 + 1 / 2 ^ 53) ^ (1 + 5) - 1) * Spec.lwSize (49 / 50) (199 / 1000) (x 1) p x S z +
        |(199 / 1000 : ℝ)| * (0 * ∑ j, |z j| +
          Real.sqrt (2 * ((1 : ℕ) * (((1 + 1 / 2 ^ 53) ^ (2 * 1 + 4) - 1) * (2 * (5 / 16)))) * ∑ j, z j ^ 2)) := by
  intro add t p x S
  have hone : ∀ f : Fin 1 → Fin 1 → ℝ, hermLower (Matrix.of fun i j => (f i j : ℂ)) * 1 =
      1 * diagonal fun k : Fin 1 => (f k k : ℂ) := fun f => by
    rw [Matrix.mul_one, Matrix.one_mul]
    have hd : (Matrix.of fun i j => (f i j : ℂ)) = diagonal fun k : Fin 1 => (f k k : ℂ) := by
      ext i j
      fin_cases i; fin_cases j; simp
    rw [hd, hermLower_eq _ (isHermitian_diagonal_of_self_adjoint _ (by ext i; simp))]
  have hroot : ∀ (f : Fin 1 → Fin 1 → ℝ) (i j : Fin 1),
      ((sqrtmPsd (Matrix.of fun i j => (f i j : ℂ)) (fun k => f k k) 1 false).1 i j).re = Real.sqrt (f 0 0) := fun f i j => by
    fin_cases i; fin_cases j
    by_cases hf : f 0 0 ≤ 0
    · simp [sqrtmPsd, hf, Real.sqrt_eq_zero_of_nonpos hf]
    · simp [sqrtmPsd, hf]
  have hR : ∀ j : Fin 1, (1 / 4 : ℝ) = ((sqrtmPsd (Matrix.of fun i j => ((Spec.centred p x x : ℝ) : ℂ))
      (fun k => Spec.centred p x x) 1 false).1 0 j).re := fun j => by
    rw [hroot (fun _ _ => Spec.centred p x x)]
    have : Spec.centred p x x = (1 / 4) ^ 2 := by
      norm_num [Spec.centred, Spec.avg, p, x, Fin.sum_univ_two]
    rw [this, Real.sqrt_sq (by norm_num)]
  have := C161_location (d := 1) (C154_nearest 53 (by norm_num)) (fun _ _ => t) (fun _ => t) (.leaf 0) 1
    (fun _ _ => by decide) (fun _ => by decide) (by decide) p (fun _ => by norm_num [p]) (by norm_num [p]) (fun _ => x) (5 / 16)
    (fun _ => by norm_num [Fin.sum_univ_two, p, x]) (hone _) (by simp) (hone _) (by simp) false false (a := 49 / 50) (by norm_num)
    (by norm_num) (199 / 1000) (fun _ => S) 0 (fun i j => le_of_eq (by rw [hroot (fun _ _ => _), sub_self, abs_zero])) 1 z 0
  rw [show (fun _ : Fin 1 => (1 / 4 : ℝ)) = _ from funext hR]
  exact this

end QInfer
