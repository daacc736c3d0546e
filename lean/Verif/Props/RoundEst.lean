import Verif.Model.RoundEst
import Verif.Props.RoundSmc
import Verif.Model.Particle
import Mathlib.Data.Int.Log
import Mathlib.Algebra.Order.Round

/-!
# C154: estimates in rounded arithmetic
-/

namespace QInfer

open scoped BigOperators

/-- The standard model of rounded arithmetic: every result has a relative error of at most `u`. -/
structure Spec.Relative (u : ℝ) (rnd : ℝ → ℝ) (radd : ℝ → ℝ → ℝ) : Prop where
  nonneg : 0 ≤ u
  small : u < 1
  rnd : ∀ x, |rnd x - x| ≤ u * |x|
  add : ∀ x y, |radd x y - (x + y)| ≤ u * |x + y|

/-- Rounding to the nearest number with `p` binary digits (halves upwards), without bound on the exponent. -/
noncomputable def Spec.nearest (p : ℕ) (x : ℝ) : ℝ :=
  if x = 0 then 0 else round (x / 2 ^ (Int.log 2 |x| - (p - 1 : ℤ))) * 2 ^ (Int.log 2 |x| - (p - 1 : ℤ))

/-- Mean. -/
def Spec.avg {n : Nat} (w x : Fin n → ℝ) : ℝ := ∑ i, w i * x i

/-- Covariance: mean product of the deviations from the means. -/
def Spec.centred {n : Nat} (w x y : Fin n → ℝ) : ℝ :=
  ∑ i, w i * ((x i - Spec.avg w x) * (y i - Spec.avg w y))

section
variable {u : ℝ} {rnd : ℝ → ℝ} {radd : ℝ → ℝ → ℝ} {n : Nat}

theorem one_le_gam (h : Spec.Relative u rnd radd) (k : ℕ) : 1 ≤ (1 + u) ^ k :=
  one_le_pow₀ (by linarith [h.nonneg])

/-- Products of rounded numbers. -/
theorem off_rnd (h : Spec.Relative u rnd radd) {k : ℕ} {x y S : ℝ} (hx : |x| ≤ S)
    (hy : |y - x| ≤ ((1 + u) ^ k - 1) * S) : |rnd y - x| ≤ ((1 + u) ^ (k + 1) - 1) * S := by
  have hu := h.nonneg
  have h1 := h.rnd y
  have h2 : |y| ≤ (1 + u) ^ k * S := by
    have := abs_add_le (y - x) x
    rw [sub_add_cancel] at this
    linarith
  have h3 : |rnd y - x| ≤ |rnd y - y| + |y - x| := by
    have := abs_add_le (rnd y - y) (y - x)
    rwa [sub_add_sub_cancel] at this
  calc |rnd y - x| ≤ u * ((1 + u) ^ k * S) + ((1 + u) ^ k - 1) * S :=
        h3.trans (add_le_add (h1.trans (mul_le_mul_of_nonneg_left h2 hu)) hy)
    _ = _ := by ring

/-- Sums of signed numbers in any order. -/
theorem off_tree (h : Spec.Relative u rnd radd) {ι : Type} (k : ℕ) (f g : ι → ℝ)
    (hg : ∀ i, |g i - f i| ≤ ((1 + u) ^ k - 1) * |f i|) (t : SumTree ι) :
    |t.sum radd g - (t.leaves.map f).sum| ≤
      ((1 + u) ^ (k + t.depth) - 1) * (t.leaves.map fun i => |f i|).sum := by
  have hu := h.nonneg
  induction t with
  | leaf i => simpa [SumTree.sum, SumTree.leaves, SumTree.depth] using hg i
  | node l r ihl ihr =>
    have hs0 : ∀ t : SumTree ι, 0 ≤ (t.leaves.map fun i => |f i|).sum := fun t =>
      List.sum_nonneg (by simp)
    have habs : ∀ t : SumTree ι, |(t.leaves.map f).sum| ≤ (t.leaves.map fun i => |f i|).sum := fun t => by
      induction t.leaves with
      | nil => simp
      | cons a l ih =>
        simp only [List.map_cons, List.sum_cons]
        exact (abs_add_le _ _).trans (add_le_add le_rfl ih)
    have hpow : ∀ m, m ≤ max l.depth r.depth → (1 + u) ^ (k + m) ≤ (1 + u) ^ (k + max l.depth r.depth) :=
      fun m hm => pow_le_pow_right₀ (by linarith) (by omega)
    have hl := ihl.trans (mul_le_mul_of_nonneg_right (sub_le_sub_right (hpow _ (le_max_left _ _)) 1) (hs0 l))
    have hr := ihr.trans (mul_le_mul_of_nonneg_right (sub_le_sub_right (hpow _ (le_max_right _ _)) 1) (hs0 r))
    simp only [SumTree.sum, SumTree.leaves, SumTree.depth, List.map_append, List.sum_append]
    have hb := abs_add_le (l.sum radd g - (l.leaves.map f).sum) (r.sum radd g - (r.leaves.map f).sum)
    have he : l.sum radd g - (l.leaves.map f).sum + (r.sum radd g - (r.leaves.map f).sum) =
        (l.sum radd g + r.sum radd g) - ((l.leaves.map f).sum + (r.leaves.map f).sum) := by ring
    rw [he] at hb
    have hx : |(l.leaves.map f).sum + (r.leaves.map f).sum| ≤
        (l.leaves.map fun i => |f i|).sum + (r.leaves.map fun i => |f i|).sum :=
      (abs_add_le _ _).trans (add_le_add (habs l) (habs r))
    obtain ⟨γ, hγ⟩ : ∃ γ, γ = (1 + u) ^ (k + max l.depth r.depth) := ⟨_, rfl⟩
    obtain ⟨S, hS⟩ : ∃ S, S = (l.leaves.map fun i => |f i|).sum + (r.leaves.map fun i => |f i|).sum := ⟨_, rfl⟩
    rw [← hγ] at hl hr
    have h1 := h.add (l.sum radd g) (r.sum radd g)
    have h2 : |l.sum radd g + r.sum radd g - ((l.leaves.map f).sum + (r.leaves.map f).sum)| ≤ (γ - 1) * S := by
      rw [hS]; linarith
    have h3 : |l.sum radd g + r.sum radd g| ≤ γ * S := by
      have := abs_add_le (l.sum radd g + r.sum radd g - ((l.leaves.map f).sum + (r.leaves.map f).sum))
        ((l.leaves.map f).sum + (r.leaves.map f).sum)
      rw [sub_add_cancel] at this
      rw [← hS] at hx
      linarith
    have h4 := abs_add_le (radd (l.sum radd g) (r.sum radd g) - (l.sum radd g + r.sum radd g))
      (l.sum radd g + r.sum radd g - ((l.leaves.map f).sum + (r.leaves.map f).sum))
    rw [sub_add_sub_cancel] at h4
    rw [← add_assoc, pow_succ, ← hγ, ← hS]
    calc _ ≤ u * (γ * S) + (γ - 1) * S :=
          h4.trans (add_le_add (h1.trans (mul_le_mul_of_nonneg_left h3 hu)) h2)
      _ = _ := by ring

/-- **C154, the mean.**  Every entry of `est_mean` is off by at most the relative error of its products and
sums, relative to the mean of the moduli; with positive parameters, relative to itself. -/
theorem C154_mean (h : Spec.Relative u rnd radd) (t : SumTree (Fin n)) (ht : t.leaves.Perm (List.finRange n))
    (w x : Fin n → ℝ) (hw : ∀ i, 0 ≤ w i) :
    |meanRound rnd radd t w x - Spec.avg w x| ≤ ((1 + u) ^ (t.depth + 1) - 1) * Spec.avg w fun i => |x i| := by
  have := off_tree h 1 (fun i => w i * x i) (fun i => rnd (w i * x i)) (fun i => by
    rw [pow_one, add_sub_cancel_left]; exact h.rnd _) t
  rw [leaves_sum t ht, leaves_sum t ht, add_comm 1 t.depth] at this
  refine this.trans (le_of_eq ?_)
  congr 1
  exact Finset.sum_congr rfl fun i _ => by rw [abs_mul, abs_of_nonneg (hw i)]

theorem avg_abs_le (w x : Fin n → ℝ) (hw : ∀ i, 0 ≤ w i) : |Spec.avg w x| ≤ Spec.avg w fun i => |x i| := by
  refine (Finset.abs_sum_le_sum_abs _ _).trans (le_of_eq ?_)
  exact Finset.sum_congr rfl fun i _ => by rw [abs_mul, abs_of_nonneg (hw i)]

theorem centred_eq (w x y : Fin n → ℝ) (hw1 : ∑ i, w i = 1) :
    Spec.centred w x y = Spec.avg w (fun i => x i * y i) - Spec.avg w x * Spec.avg w y := by
  unfold Spec.centred
  have : ∀ i, w i * ((x i - Spec.avg w x) * (y i - Spec.avg w y)) = w i * (x i * y i) -
      Spec.avg w y * (w i * x i) - Spec.avg w x * (w i * y i) + Spec.avg w x * Spec.avg w y * w i :=
    fun i => by ring
  simp only [this, Finset.sum_add_distrib, Finset.sum_sub_distrib, ← Finset.mul_sum, hw1]
  unfold Spec.avg
  ring

/-- **C154, the covariance.**  An entry of `est_covariance_mtx` is off by at most the relative error of its
products and sums, relative to the *second moments*, not to the covariance. -/
theorem C154_covariance (h : Spec.Relative u rnd radd) (t tx ty : SumTree (Fin n)) (D : ℕ)
    (ht : t.leaves.Perm (List.finRange n)) (htx : tx.leaves.Perm (List.finRange n))
    (hty : ty.leaves.Perm (List.finRange n)) (hD : t.depth ≤ D) (hDx : tx.depth ≤ D) (hDy : ty.depth ≤ D)
    (w x y : Fin n → ℝ) (hw : ∀ i, 0 ≤ w i) (hw1 : ∑ i, w i = 1) :
    |covRound rnd radd t tx ty w x y - Spec.centred w x y| ≤ ((1 + u) ^ (2 * D + 4) - 1) *
      (Spec.avg w (fun i => |x i * y i|) + (Spec.avg w fun i => |x i|) * Spec.avg w fun i => |y i|) := by
  have hu := h.nonneg
  have hpow : ∀ {a b : ℕ}, a ≤ b → (1 + u) ^ a ≤ (1 + u) ^ b := fun hab =>
    pow_le_pow_right₀ (by linarith) hab
  have hnn : ∀ z : Fin n → ℝ, 0 ≤ Spec.avg w fun i => |z i| := fun z =>
    Finset.sum_nonneg fun i _ => mul_nonneg (hw i) (abs_nonneg _)
  obtain ⟨A, hA⟩ : ∃ A, A = Spec.avg w fun i => |x i * y i| := ⟨_, rfl⟩
  obtain ⟨X, hX⟩ : ∃ X, X = Spec.avg w fun i => |x i| := ⟨_, rfl⟩
  obtain ⟨Y, hY⟩ : ∃ Y, Y = Spec.avg w fun i => |y i| := ⟨_, rfl⟩
  have hA0 : 0 ≤ A := by rw [hA]; exact hnn _
  have hX0 : 0 ≤ X := by rw [hX]; exact hnn _
  have hY0 : 0 ≤ Y := by rw [hY]; exact hnn _
  rw [← hA, ← hX, ← hY]
  -- the second moment
  have h1 : |(t.sum radd fun i => rnd (rnd (w i * x i) * y i)) - Spec.avg w fun i => x i * y i| ≤
      ((1 + u) ^ (2 * D + 3) - 1) * A := by
    have hi : ∀ i, |rnd (rnd (w i * x i) * y i) - w i * (x i * y i)| ≤
        ((1 + u) ^ 2 - 1) * |w i * (x i * y i)| := fun i => by
      refine off_rnd h le_rfl ?_
      rw [pow_one, add_sub_cancel_left, ← mul_assoc, ← sub_mul, abs_mul, abs_mul (w i * x i), ← mul_assoc]
      exact mul_le_mul_of_nonneg_right (h.rnd _) (abs_nonneg _)
    have := off_tree h 2 (fun i => w i * (x i * y i)) (fun i => rnd (rnd (w i * x i) * y i)) hi t
    rw [leaves_sum t ht, leaves_sum t ht] at this
    refine this.trans ?_
    have e : ∑ i, |w i * (x i * y i)| = A := by
      rw [hA]
      exact Finset.sum_congr rfl fun i _ => by rw [abs_mul (w i), abs_of_nonneg (hw i)]
    rw [e]
    exact mul_le_mul_of_nonneg_right (sub_le_sub_right (hpow (by omega)) 1) hA0
  -- the product of the means
  have hm : ∀ (tz : SumTree (Fin n)) (z : Fin n → ℝ), tz.leaves.Perm (List.finRange n) → tz.depth ≤ D →
      |meanRound rnd radd tz w z - Spec.avg w z| ≤ ((1 + u) ^ (D + 1) - 1) * Spec.avg w fun i => |z i| :=
    fun tz z htz hDz => (C154_mean h tz htz w z hw).trans
      (mul_le_mul_of_nonneg_right (sub_le_sub_right (hpow (by omega)) 1) (hnn z))
  have h2 : |rnd (meanRound rnd radd tx w x * meanRound rnd radd ty w y) - Spec.avg w x * Spec.avg w y| ≤
      ((1 + u) ^ (2 * D + 3) - 1) * (X * Y) := by
    have hx := hm tx x htx hDx
    have hy := hm ty y hty hDy
    rw [← hX] at hx
    rw [← hY] at hy
    have hax := avg_abs_le w x hw
    have hay := avg_abs_le w y hw
    rw [← hX] at hax
    rw [← hY] at hay
    obtain ⟨γ, hγ⟩ : ∃ γ, γ = (1 + u) ^ (D + 1) := ⟨_, rfl⟩
    have hγ1 : 1 ≤ γ := by rw [hγ]; exact one_le_gam h _
    rw [← hγ] at hx hy
    have key : |meanRound rnd radd tx w x * meanRound rnd radd ty w y - Spec.avg w x * Spec.avg w y| ≤
        ((1 + u) ^ (2 * D + 2) - 1) * (X * Y) := by
      have e : meanRound rnd radd tx w x * meanRound rnd radd ty w y - Spec.avg w x * Spec.avg w y =
          (meanRound rnd radd tx w x - Spec.avg w x) * (meanRound rnd radd ty w y - Spec.avg w y) +
          (meanRound rnd radd tx w x - Spec.avg w x) * Spec.avg w y +
          Spec.avg w x * (meanRound rnd radd ty w y - Spec.avg w y) := by ring
      have e2 : (1 + u) ^ (2 * D + 2) = γ * γ := by rw [hγ]; ring
      rw [e, e2]
      refine (abs_add_le _ _).trans ((add_le_add (abs_add_le _ _) le_rfl).trans ?_)
      rw [abs_mul, abs_mul, abs_mul]
      have hγX : 0 ≤ (γ - 1) * X := mul_nonneg (by linarith) hX0
      have hγY : 0 ≤ (γ - 1) * Y := mul_nonneg (by linarith) hY0
      have b1 := mul_le_mul hx hy (abs_nonneg _) hγX
      have b2 := mul_le_mul hx hay (abs_nonneg _) hγX
      have b3 := mul_le_mul hax hy (abs_nonneg _) hX0
      refine (add_le_add (add_le_add b1 b2) b3).trans (le_of_eq ?_)
      ring
    refine off_rnd h ?_ key
    rw [abs_mul]
    exact mul_le_mul hax hay (abs_nonneg _) hX0
  -- the difference
  obtain ⟨s, hs⟩ : ∃ s, s = t.sum radd fun i => rnd (rnd (w i * x i) * y i) := ⟨_, rfl⟩
  obtain ⟨m, hmm⟩ : ∃ m, m = rnd (meanRound rnd radd tx w x * meanRound rnd radd ty w y) := ⟨_, rfl⟩
  rw [centred_eq w x y hw1]
  unfold covRound
  rw [← hs] at h1 ⊢
  rw [← hmm] at h2 ⊢
  obtain ⟨a, ha⟩ : ∃ a, a = Spec.avg w fun i => x i * y i := ⟨_, rfl⟩
  obtain ⟨b, hb⟩ : ∃ b, b = Spec.avg w x * Spec.avg w y := ⟨_, rfl⟩
  rw [← ha] at h1 ⊢
  rw [← hb] at h2 ⊢
  have ha' : |a| ≤ A := by rw [ha, hA]; exact avg_abs_le w _ hw
  have hb' : |b| ≤ X * Y := by
    rw [hb, hX, hY, abs_mul]
    exact mul_le_mul (avg_abs_le w x hw) (avg_abs_le w y hw) (abs_nonneg _) (hnn x)
  have h3 : |(s + -m) - (a - b)| ≤ ((1 + u) ^ (2 * D + 3) - 1) * (A + X * Y) := by
    have e : (s + -m) - (a - b) = (s - a) - (m - b) := by ring
    rw [e, mul_add]
    exact (abs_sub _ _).trans (add_le_add h1 h2)
  have h4 : |a - b| ≤ A + X * Y := (abs_sub _ _).trans (add_le_add ha' hb')
  have h5 : |s + -m| ≤ (1 + u) ^ (2 * D + 3) * (A + X * Y) := by
    have := abs_add_le ((s + -m) - (a - b)) (a - b)
    rw [sub_add_cancel] at this
    linarith
  have h6 := abs_add_le (radd s (-m) - (s + -m)) ((s + -m) - (a - b))
  rw [sub_add_sub_cancel] at h6
  calc |radd s (-m) - (a - b)| ≤ u * ((1 + u) ^ (2 * D + 3) * (A + X * Y)) +
        ((1 + u) ^ (2 * D + 3) - 1) * (A + X * Y) :=
      h6.trans (add_le_add ((h.add _ _).trans (mul_le_mul_of_nonneg_left h5 hu)) h3)
    _ = _ := by ring

/-- **C154, variances.**  The reported variance of a parameter is off by at most twice the relative error times
the mean square of the parameter; so it is positive if the variance is larger than that. -/
theorem C154_variance (h : Spec.Relative u rnd radd) (t tx ty : SumTree (Fin n)) (D : ℕ)
    (ht : t.leaves.Perm (List.finRange n)) (htx : tx.leaves.Perm (List.finRange n))
    (hty : ty.leaves.Perm (List.finRange n)) (hD : t.depth ≤ D) (hDx : tx.depth ≤ D) (hDy : ty.depth ≤ D)
    (w x : Fin n → ℝ) (hw : ∀ i, 0 ≤ w i) (hw1 : ∑ i, w i = 1) :
    |covRound rnd radd t tx ty w x x - Spec.centred w x x| ≤
      2 * ((1 + u) ^ (2 * D + 4) - 1) * Spec.avg w (fun i => x i ^ 2) ∧
    (2 * ((1 + u) ^ (2 * D + 4) - 1) * Spec.avg w (fun i => x i ^ 2) < Spec.centred w x x →
      0 < covRound rnd radd t tx ty w x x) := by
  have h1 := C154_covariance h t tx ty D ht htx hty hD hDx hDy w x x hw hw1
  have h2 : (Spec.avg w fun i => |x i|) * (Spec.avg w fun i => |x i|) ≤ Spec.avg w (fun i => x i ^ 2) := by
    have h3 : 0 ≤ Spec.centred w (fun i => |x i|) (fun i => |x i|) :=
      Finset.sum_nonneg fun i _ => mul_nonneg (hw i) (mul_self_nonneg _)
    rw [centred_eq _ _ _ hw1] at h3
    simp only [← sq, sq_abs] at h3 ⊢
    linarith
  have h4 : (Spec.avg w fun i => |x i * x i|) = Spec.avg w (fun i => x i ^ 2) := by
    simp only [abs_mul_self, sq]
  rw [h4] at h1
  have hg : 0 ≤ (1 + u) ^ (2 * D + 4) - 1 := by linarith [one_le_gam h (2 * D + 4)]
  have h5 : |covRound rnd radd t tx ty w x x - Spec.centred w x x| ≤
      2 * ((1 + u) ^ (2 * D + 4) - 1) * Spec.avg w (fun i => x i ^ 2) := by
    refine h1.trans ?_
    have := mul_le_mul_of_nonneg_left (add_le_add_right h2 (Spec.avg w (fun i => x i ^ 2))) hg
    linarith
  refine ⟨h5, fun h6 => ?_⟩
  have := (abs_le.1 h5).1
  linarith

theorem near_rnd (h : Spec.Relative u rnd radd) {x : ℝ} (hx : 0 ≤ x) : Spec.Near (1 / (1 - u)) x (rnd x) := by
  have hu := h.nonneg
  have h1 : 0 < 1 - u := by linarith [h.small]
  have h2 := abs_le.1 (h.rnd x)
  rw [abs_of_nonneg hx] at h2
  constructor
  · rw [one_div, ← div_eq_inv_mul, le_div_iff₀ h1]
    nlinarith [mul_nonneg (mul_nonneg hu hu) hx]
  · rw [one_div, ← div_eq_inv_mul, le_div_iff₀ h1]
    nlinarith

theorem near_add (h : Spec.Relative u rnd radd) (x y : ℝ) (hx : 0 ≤ x) (hy : 0 ≤ y) :
    Spec.Near (1 / (1 - u)) (x + y) (radd x y) := by
  have hu := h.nonneg
  have h1 : 0 < 1 - u := by linarith [h.small]
  have h2 := abs_le.1 (h.add x y)
  rw [abs_of_nonneg (add_nonneg hx hy)] at h2
  have hxy := add_nonneg hx hy
  constructor
  · rw [one_div, ← div_eq_inv_mul, le_div_iff₀ h1]
    nlinarith [mul_nonneg (mul_nonneg hu hu) hxy]
  · rw [one_div, ← div_eq_inv_mul, le_div_iff₀ h1]
    nlinarith

theorem near_inv {c x y : ℝ} (hx : 0 < x) (hy : 0 < y) (h : Spec.Near c x y) : Spec.Near c (1 / x) (1 / y) := by
  constructor
  · rw [mul_one_div, div_le_div_iff₀ hy hx, one_mul]; exact h.2
  · rw [mul_one_div, div_le_div_iff₀ hx hy, one_mul]; exact h.1

/-- **C154, the effective sample size.**  `n_ess` is right up to a factor, so it lies between one and the number
of particles up to that factor, and the decision whether to resample is right unless the effective sample size
is within that factor of the threshold. -/
theorem C154_ess (h : Spec.Relative u rnd radd) (t : SumTree (Fin n)) (ht : t.leaves.Perm (List.finRange n))
    (w : Fin n → ℝ) (hw : ∀ i, 0 ≤ w i) (hw1 : ∑ i, w i = 1) :
    Spec.Near ((1 / (1 - u)) ^ (t.depth + 2)) (1 / ∑ i, w i ^ 2) (essRound rnd radd t w) ∧
    1 ≤ (1 / (1 - u)) ^ (t.depth + 2) * essRound rnd radd t w ∧
    essRound rnd radd t w ≤ (1 / (1 - u)) ^ (t.depth + 2) * n ∧
    ∀ T : ℝ, ((1 / (1 - u)) ^ (t.depth + 2) * (1 / ∑ i, w i ^ 2) < T → essRound rnd radd t w < T) ∧
      ((1 / (1 - u)) ^ (t.depth + 2) * T ≤ 1 / ∑ i, w i ^ 2 → ¬essRound rnd radd t w < T) := by
  have hu := h.nonneg
  have h1u : 0 < 1 - u := by linarith [h.small]
  obtain ⟨c, hc⟩ : ∃ c, c = 1 / (1 - u) := ⟨_, rfl⟩
  have hc1 : 1 ≤ c := by rw [hc, le_div_iff₀ h1u]; linarith
  have hc0 : 0 < c := by linarith
  have hn0 : ∀ i, 0 ≤ rnd (w i ^ 2) := fun i => by
    have := (near_rnd h (sq_nonneg (w i))).2
    rw [← hc] at this
    by_contra hneg
    push Not at hneg
    nlinarith [sq_nonneg (w i)]
  obtain ⟨hs0, hs⟩ := sumTree_near (c := c) hc1 (by rw [hc]; exact near_add h) (fun i => rnd (w i ^ 2)) hn0 t
  rw [leaves_sum t ht] at hs
  have hsq : Spec.Near c (∑ i, w i ^ 2) (∑ i, rnd (w i ^ 2)) :=
    Spec.Near.sum _ fun i _ => by rw [hc]; exact near_rnd h (sq_nonneg _)
  have hS := hsq.trans hs hc0.le (by positivity)
  obtain ⟨S, hSd⟩ : ∃ S, S = ∑ i, w i ^ 2 := ⟨_, rfl⟩
  have hSpos : 0 < S := by
    rw [hSd]
    by_contra hneg
    push Not at hneg
    have h0 : ∑ i, w i ^ 2 = 0 := le_antisymm hneg (Finset.sum_nonneg fun i _ => sq_nonneg _)
    rw [Finset.sum_eq_zero_iff_of_nonneg fun i _ => sq_nonneg _] at h0
    have : ∑ i, w i = 0 := Finset.sum_eq_zero fun i hi => by
      have := h0 i hi
      exact pow_eq_zero_iff (two_ne_zero) |>.1 this
    rw [hw1] at this
    exact one_ne_zero this
  obtain ⟨N, hN⟩ : ∃ N, N = t.sum radd fun i => rnd (w i ^ 2) := ⟨_, rfl⟩
  rw [← hSd, ← hN] at hS
  rw [← hN] at hs0
  have hNpos : 0 < N := by
    refine lt_of_le_of_ne hs0 fun h0 => ?_
    have := hS.2
    rw [← h0, mul_zero] at this
    linarith
  have hinv := near_inv hSpos hNpos hS
  have hr := near_rnd h (x := 1 / N) (by positivity)
  rw [← hc] at hr
  have hmain : Spec.Near (c ^ (t.depth + 2)) (1 / S) (essRound rnd radd t w) := by
    have := hinv.trans hr (by positivity) hc0.le
    unfold essRound
    rw [← hN]
    convert this using 1
    ring
  rw [← hc, ← hSd]
  have hSle : S ≤ 1 := by
    rw [hSd, ← hw1]
    refine Finset.sum_le_sum fun i _ => ?_
    have : w i ≤ 1 := by
      rw [← hw1]; exact Finset.single_le_sum (fun j _ => hw j) (Finset.mem_univ i)
    nlinarith [hw i]
  have hSn : 1 ≤ n * S := by
    have := Finset.sum_mul_sq_le_sq_mul_sq Finset.univ w (fun _ => (1 : ℝ))
    simp only [mul_one, one_pow, Finset.sum_const, Finset.card_univ, Fintype.card_fin, nsmul_eq_mul] at this
    rw [hw1, ← hSd] at this
    linarith
  have hp : 0 < c ^ (t.depth + 2) := by positivity
  refine ⟨hmain, ?_, ?_, fun T => ⟨fun hT => lt_of_le_of_lt hmain.1 hT, fun hT => ?_⟩⟩
  · refine le_trans ?_ hmain.2
    rw [le_div_iff₀ hSpos]; linarith
  · refine hmain.1.trans (mul_le_mul_of_nonneg_left ?_ hp.le)
    rw [div_le_iff₀ hSpos]; exact hSn
  · rw [not_lt]
    exact le_of_mul_le_mul_left (hT.trans hmain.2) hp

end

/-- Rounding to `p ≥ 1` binary digits has a relative error of at most `2⁻ᵖ`. -/
theorem C154_nearest (p : ℕ) (hp : 0 < p) :
    Spec.Relative (1 / 2 ^ p) (Spec.nearest p) fun x y => Spec.nearest p (x + y) := by
  have key : ∀ x, |Spec.nearest p x - x| ≤ 1 / 2 ^ p * |x| := by
    intro x
    unfold Spec.nearest
    by_cases hx : x = 0
    · simp [hx]
    rw [if_neg hx]
    obtain ⟨e, he⟩ : ∃ e : ℤ, e = Int.log 2 |x| - (p - 1 : ℤ) := ⟨_, rfl⟩
    rw [← he]
    have h2 : (0 : ℝ) < 2 ^ e := zpow_pos two_pos e
    have h1 : (2 : ℝ) ^ (Int.log 2 |x|) ≤ |x| := Int.zpow_log_le_self (b := 2) one_lt_two (abs_pos.2 hx)
    have h3 : (2 : ℝ) ^ e * 2 ^ p = 2 * 2 ^ (Int.log 2 |x|) := by
      rw [← zpow_natCast, ← zpow_add₀ two_ne_zero, he, ← zpow_one_add₀ two_ne_zero]
      congr 1
      ring
    have h4 := abs_sub_round (x / 2 ^ e)
    have h5 : (round (x / 2 ^ e) : ℝ) * 2 ^ e - x = -((x / 2 ^ e - round (x / 2 ^ e)) * 2 ^ e) := by
      rw [sub_mul, div_mul_cancel₀ _ h2.ne']; ring
    rw [h5, abs_neg, abs_mul, abs_of_pos h2, one_div, ← div_eq_inv_mul, le_div_iff₀ (by positivity)]
    calc |x / 2 ^ e - round (x / 2 ^ e)| * 2 ^ e * 2 ^ p ≤ 1 / 2 * 2 ^ e * 2 ^ p := by gcongr
      _ = 2 ^ (Int.log 2 |x|) := by rw [mul_assoc, h3]; ring
      _ ≤ |x| := h1
  refine ⟨by positivity, ?_, key, fun x y => key _⟩
  rw [div_lt_one (by positivity)]
  exact one_lt_pow₀ one_lt_two hp.ne'

theorem nearest_eq (p : ℕ) (k m : ℤ) (x : ℝ) (h1 : 2 ^ k ≤ x) (h2 : x < 2 ^ (k + 1))
    (h3 : (m : ℝ) - 1 / 2 ≤ x / 2 ^ (k - (p - 1 : ℤ))) (h4 : x / 2 ^ (k - (p - 1 : ℤ)) < (m : ℝ) + 1 / 2) :
    Spec.nearest p x = m * 2 ^ (k - (p - 1 : ℤ)) := by
  have hx : 0 < x := lt_of_lt_of_le (zpow_pos two_pos k) h1
  have hlog : Int.log 2 |x| = k := by
    rw [abs_of_pos hx]
    refine le_antisymm ?_ ?_
    · have := (Int.lt_zpow_iff_log_lt (b := 2) one_lt_two hx (x := k + 1)).1 (by exact_mod_cast h2)
      omega
    · exact (Int.zpow_le_iff_le_log (b := 2) one_lt_two hx).1 (by exact_mod_cast h1)
  unfold Spec.nearest
  rw [if_neg hx.ne', hlog]
  congr 2
  rw [round_eq, Int.floor_eq_iff]
  constructor <;> linarith

/-- **C154, finding.**  In binary64, for two particles at `2³⁰ + 19` and `2³⁰ + 20` with the weights 1/4 and 3/4,
`est_covariance_mtx` is -256.  The variance is 3/16.  No half has to be rounded on the way, so the rule for halves
does not matter. -/
theorem C154_variance_lost :
    let t : SumTree (Fin 2) := .node (.leaf 0) (.leaf 1)
    let w : Fin 2 → ℝ := ![1 / 4, 3 / 4]
    let x : Fin 2 → ℝ := ![2 ^ 30 + 19, 2 ^ 30 + 20]
    covRound (Spec.nearest 53) (fun a b => Spec.nearest 53 (a + b)) t t t w x x = -256 ∧
      Spec.centred w x x = 3 / 16 := by
  intro t w x
  have e1 : Spec.nearest 53 (1 / 4 * (2 ^ 30 + 19)) = 1 / 4 * (2 ^ 30 + 19) := by
    rw [nearest_eq 53 28 4503599707062272] <;> norm_num
  have e2 : Spec.nearest 53 (3 / 4 * (2 ^ 30 + 20)) = 3 / 4 * (2 ^ 30 + 20) := by
    rw [nearest_eq 53 29 6755399566884864] <;> norm_num
  have e3 : Spec.nearest 53 (1 / 4 * (2 ^ 30 + 19) * (2 ^ 30 + 19)) = 288230386352259136 := by
    rw [nearest_eq 53 58 4503599786754049] <;> norm_num
  have e4 : Spec.nearest 53 (3 / 4 * (2 ^ 30 + 20) * (2 ^ 30 + 20)) = 864691160667390208 := by
    rw [nearest_eq 53 59 6755399692713986] <;> norm_num
  have e5 : Spec.nearest 53 (288230386352259136 + 864691160667390208) = 1152921547019649280 := by
    rw [nearest_eq 53 60 4503599793045505] <;> norm_num
  have e6 : Spec.nearest 53 (1 / 4 * (2 ^ 30 + 19) + 3 / 4 * (2 ^ 30 + 20)) = 4294967375 / 4 := by
    rw [nearest_eq 53 30 4503599710208000] <;> norm_num
  have e7 : Spec.nearest 53 (4294967375 / 4 * (4294967375 / 4)) = 1152921547019649536 := by
    rw [nearest_eq 53 60 4503599793045506] <;> norm_num
  have e8 : Spec.nearest 53 (1152921547019649280 + -1152921547019649536) = -256 := by
    have hlog : Int.log 2 (256 : ℝ) = 8 := by
      have : (256 : ℝ) = ((2 : ℕ) : ℝ) ^ (8 : ℤ) := by norm_num
      rw [this, Int.log_zpow one_lt_two]
    have : (1152921547019649280 + -1152921547019649536 : ℝ) = -256 := by norm_num
    rw [this]
    unfold Spec.nearest
    rw [if_neg (by norm_num), abs_neg, abs_of_pos (by norm_num), hlog]
    have : (-256 / 2 ^ ((8 : ℤ) - ((53 : ℕ) - 1 : ℤ)) : ℝ) = ((-4503599627370496 : ℤ) : ℝ) := by norm_num
    rw [this, round_intCast]
    norm_num
  constructor
  · simp only [covRound, meanRound, SumTree.sum, t, w, x, Matrix.cons_val_zero, Matrix.cons_val_one, e1, e2, e3, e4,
      e5, e6, e7, e8]
  · simp only [Spec.centred, Spec.avg, Fin.sum_univ_two, w, x, Matrix.cons_val_zero, Matrix.cons_val_one]
    norm_num

/-- **C154, the model.**  Without rounding these are the estimates of the exact model. -/
theorem C154_exact {n d : ℕ} (t tx ty : SumTree (Fin n)) (ht : t.leaves.Perm (List.finRange n))
    (htx : tx.leaves.Perm (List.finRange n)) (hty : ty.leaves.Perm (List.finRange n)) (w : Fin n → ℝ)
    (x : Fin n → Fin d → ℝ) (a b : Fin d) :
    meanRound id (· + ·) t w (fun i => x i a) = pmean w x a ∧
    covRound id (· + ·) t tx ty w (fun i => x i a) (fun i => x i b) = pcov w x a b ∧
    (∑ i, w i ^ 2 ≠ 0 → nEss (List.ofFn w) = (essRound id (· + ·) t w : WithTop ℝ)) := by
  have hsum : ∀ (t : SumTree (Fin n)) (f : Fin n → ℝ), t.leaves.Perm (List.finRange n) →
      t.sum (· + ·) f = ∑ i, f i := by
    intro t f ht
    rw [← leaves_sum t ht]
    clear ht
    induction t with
    | leaf i => simp [SumTree.sum, SumTree.leaves]
    | node l r ihl ihr => simp [SumTree.sum, SumTree.leaves, ihl, ihr]
  have hm : ∀ (t : SumTree (Fin n)) (a : Fin d), t.leaves.Perm (List.finRange n) →
      meanRound id (· + ·) t w (fun i => x i a) = pmean w x a := by
    intro t a ht
    unfold meanRound pmean
    rw [hsum t _ ht]
    rfl
  refine ⟨hm t a ht, ?_, fun hne => ?_⟩
  · unfold covRound pcov
    rw [hm tx a htx, hm ty b hty, hsum t _ ht, sub_eq_add_neg]
    rfl
  · unfold nEss recip essRound
    rw [hsum t _ ht, List.map_ofFn, List.sum_ofFn]
    simp only [id, Function.comp_def]
    rw [if_neg hne]

/-- Case for C154: in binary64, for three particles at 1, 2 and 3 of equal weight, whatever the order of the
additions, the reported variance is positive. -/
example (t tx ty : SumTree (Fin 3)) (ht : t.leaves.Perm (List.finRange 3))
    (htx : tx.leaves.Perm (List.finRange 3)) (hty : ty.leaves.Perm (List.finRange 3)) (hD : t.depth ≤ 2)
    (hDx : tx.depth ≤ 2) (hDy : ty.depth ≤ 2) :
    0 < covRound (Spec.nearest 53) (fun a b => Spec.nearest 53 (a + b)) t tx ty (fun _ => 1 / 3) ![1, 2, 3]
      ![1, 2, 3] := by
  refine (C154_variance (C154_nearest 53 (by norm_num)) t tx ty 2 ht htx hty hD hDx hDy (fun _ => 1 / 3) ![1, 2, 3]
    (fun _ => by norm_num) (by norm_num)).2 ?_
  simp only [Spec.centred, Spec.avg, Fin.sum_univ_three, Matrix.cons_val_zero, Matrix.cons_val_one, Matrix.cons_val]
  norm_num

end QInfer
