import Verif.Model.RoundMove
import Verif.Model.LwSmc
import Verif.Props.RoundEst

/-!
# C160: Liu-West moves in rounded arithmetic
-/

namespace QInfer

open scoped BigOperators

/-! ## Specification -/

/-- The location Liu and West prescribe: between parent and mean, plus a kernel of width `h`. -/
noncomputable def Spec.lwMove {n d : ℕ} (a h l : ℝ) (w x : Fin n → ℝ) (S z : Fin d → ℝ) : ℝ :=
  a * l + (1 - a) * (∑ i, w i * x i) + h * ∑ i, S i * z i

/-- What errors are measured by: the same with moduli. -/
noncomputable def Spec.lwSize {n d : ℕ} (a h l : ℝ) (w x : Fin n → ℝ) (S z : Fin d → ℝ) : ℝ :=
  a * |l| + (1 - a) * (∑ i, w i * |x i|) + |h| * ∑ i, |S i * z i|

/-! ## Helper lemmas -/

section

variable {u : ℝ} {rnd : ℝ → ℝ} {radd : ℝ → ℝ → ℝ}

/-- `y` stands for `x` after `k` operations, relative to the size `B`. -/
structure Off (u : ℝ) (k : ℕ) (B x y : ℝ) : Prop where
  size : |x| ≤ B
  err : |y - x| ≤ ((1 + u) ^ k - 1) * B

theorem Off.exact (u x : ℝ) : Off u 0 |x| x x := ⟨le_rfl, by simp⟩

theorem Off.bound {k : ℕ} {B x y : ℝ} (o : Off u k B x y) : |y| ≤ (1 + u) ^ k * B := by
  have := abs_add_le (y - x) x
  rw [sub_add_cancel] at this
  nlinarith [o.size, o.err]

theorem Off.mono (hu : 0 ≤ u) {j k : ℕ} {B x y : ℝ} (o : Off u j B x y) (hjk : j ≤ k) : Off u k B x y := by
  refine ⟨o.size, o.err.trans (mul_le_mul_of_nonneg_right ?_ ((abs_nonneg _).trans o.size))⟩
  linarith [pow_le_pow_right₀ (by linarith : 1 ≤ 1 + u) hjk]

theorem Off.round (h : Spec.Relative u rnd radd) {k : ℕ} {B x y : ℝ} (o : Off u k B x y) : Off u (k + 1) B x (rnd y) := by
  refine ⟨o.size, ?_⟩
  have h1 := h.rnd y
  have h2 := abs_sub_le (rnd y) y x
  have h3 := mul_le_mul_of_nonneg_left o.bound h.nonneg
  rw [pow_succ]
  nlinarith [o.err]

theorem Off.add (h : Spec.Relative u rnd radd) {k : ℕ} {B x y B' x' y' : ℝ} (o : Off u k B x y) (o' : Off u k B' x' y') :
    Off u (k + 1) (B + B') (x + x') (radd y y') := by
  refine ⟨(abs_add_le _ _).trans (add_le_add o.size o'.size), ?_⟩
  have h1 := h.add y y'
  have h2 := abs_sub_le (radd y y') (y + y') (x + x')
  have h3 := mul_le_mul_of_nonneg_left ((abs_add_le y y').trans (add_le_add o.bound o'.bound)) h.nonneg
  have h4 : |y + y' - (x + x')| ≤ |y - x| + |y' - x'| := by
    rw [show y + y' - (x + x') = (y - x) + (y' - x') by ring]
    exact abs_add_le _ _
  rw [pow_succ]
  nlinarith [o.err, o'.err]

theorem Off.mul {j k : ℕ} {B x y B' x' y' : ℝ} (o : Off u j B x y) (o' : Off u k B' x' y') :
    Off u (j + k) (B * B') (x * x') (y * y') := by
  have hB : 0 ≤ B := (abs_nonneg _).trans o.size
  have hB' : 0 ≤ B' := (abs_nonneg _).trans o'.size
  refine ⟨by rw [abs_mul]; exact mul_le_mul o.size o'.size (abs_nonneg _) hB, ?_⟩
  have h1 : |y * y' - x * x'| ≤ |y - x| * |y'| + |x| * |y' - x'| := by
    rw [show y * y' - x * x' = (y - x) * y' + x * (y' - x') by ring]
    refine (abs_add_le _ _).trans (le_of_eq ?_)
    rw [abs_mul, abs_mul]
  have hg : 0 ≤ ((1 + u) ^ j - 1) * B := (abs_nonneg _).trans o.err
  have h2 := mul_le_mul o.err o'.bound (abs_nonneg _) hg
  have h3 := mul_le_mul o.size o'.err (abs_nonneg _) hB
  rw [pow_add]
  nlinarith

end

/-! ## Theorems -/

section

variable {n d : ℕ} {u : ℝ} {rnd : ℝ → ℝ} {radd : ℝ → ℝ → ℝ}

/-- **C160, a new location.**  Given its parent, the estimated mean, the square root of the covariance and the kernel, every
entry of a new location is off by at most the relative error of `D + 5` operations, where `D` bounds the depths of the sums
in the mean and in the product with the kernel. -/
theorem C160_move (h : Spec.Relative u rnd radd) {D : ℕ} {t : SumTree (Fin d)} {tm : SumTree (Fin n)}
    (ht : t.leaves.Perm (List.finRange d)) (htm : tm.leaves.Perm (List.finRange n)) (hD : t.depth ≤ D) (hDm : tm.depth ≤ D)
    {a : ℝ} (ha : 0 ≤ a) (ha1 : a ≤ 1) (b l : ℝ) (w x : Fin n → ℝ) (hw : ∀ i, 0 ≤ w i) (S z : Fin d → ℝ) :
    |lwMoveRound rnd radd t a b l (meanRound rnd radd tm w x) S z - Spec.lwMove a b l w x S z| ≤
      ((1 + u) ^ (D + 5) - 1) * Spec.lwSize a b l w x S z := by
  have hu := h.nonneg
  -- the mean
  have o1 : Off u (D + 1) (∑ i, w i * |x i|) (∑ i, w i * x i) (meanRound rnd radd tm w x) :=
    Off.mono hu ⟨avg_abs_le w x hw, C154_mean h tm htm w x hw⟩ (by omega : tm.depth + 1 ≤ D + 1)
  -- one minus a
  have o2 : Off u 1 (1 - a) (1 - a) (radd 1 (-a)) := by
    refine ⟨by rw [abs_of_nonneg (by linarith)], ?_⟩
    have := h.add 1 (-a)
    rw [← sub_eq_add_neg, abs_of_nonneg (by linarith : 0 ≤ 1 - a)] at this
    rwa [pow_one, add_sub_cancel_left]
  have o3 := ((o2.mul o1).round h).mono hu (by omega : 1 + (D + 1) + 1 ≤ D + 3)
  have o4 : Off u (D + 3) (a * |l|) (a * l) (rnd (a * l)) := by
    have := ((Off.exact u (a * l)).round h).mono hu (by omega : 0 + 1 ≤ D + 3)
    rwa [abs_mul, abs_of_nonneg ha] at this
  have o5 := o4.add h o3
  -- the kernel
  have o6 : Off u (D + 3 + 1) (|b| * ∑ i, |S i * z i|) (b * ∑ i, S i * z i)
      (t.sum radd fun i => rnd (rnd (b * S i) * z i)) := by
    have := off_tree h 2 (fun i => b * S i * z i) (fun i => rnd (rnd (b * S i) * z i)) (fun i => by
      have := ((((Off.exact u (b * S i)).round h).mul (Off.exact u (z i))).round h).err
      rwa [← abs_mul] at this) t
    rw [leaves_sum t ht, leaves_sum t ht] at this
    have e1 : ∑ i, b * S i * z i = b * ∑ i, S i * z i := by
      rw [Finset.mul_sum]; exact Finset.sum_congr rfl fun i _ => by ring
    have e2 : ∑ i, |b * S i * z i| = |b| * ∑ i, |S i * z i| := by
      rw [Finset.mul_sum]; exact Finset.sum_congr rfl fun i _ => by rw [mul_assoc, abs_mul]
    rw [e1, e2] at this
    refine Off.mono hu (j := 2 + t.depth) ⟨?_, this⟩ (by omega)
    rw [abs_mul]
    exact mul_le_mul_of_nonneg_left (Finset.abs_sum_le_sum_abs _ _) (abs_nonneg _)
  exact (o5.add h o6).err

/-- **C160, the resampler.**  The exact location is the one `LiuWestResampler` computes in exact arithmetic, as the updater
calls it: with the mean of the cloud and with `R` as the square root of its covariance, each entry of the location it assigns to
the parent `x` and the kernel draw `z` is approximated by the rounded one. -/
theorem C160_resampler (h : Spec.Relative u rnd radd) {D : ℕ} {t : SumTree (Fin d)} {tm : SumTree (Fin n)}
    (ht : t.leaves.Perm (List.finRange d)) (htm : tm.leaves.Perm (List.finRange n)) (hD : t.depth ≤ D) (hDm : tm.depth ≤ D)
    (p : LwSetup) (ha : 0 ≤ p.a) (ha1 : p.a ≤ 1) (w : Fin n → ℝ) (hw : ∀ i, 0 ≤ w i) (l : Fin n → Fin d → ℝ)
    (R : Fin d → Fin d → ℝ) (hmean : p.mean (List.ofFn w) (List.ofFn fun i => List.ofFn (l i)) = List.ofFn fun j => ∑ i, w i * l i j)
    (z : Fin d → ℝ) (hroot : p.root (List.ofFn w) (List.ofFn fun i => List.ofFn (l i)) (List.ofFn z) =
      List.ofFn fun j => ∑ k, R j k * z k) (parent : Fin n) (j : Fin d) :
    ∃ y, ((p.env (List.ofFn w) (List.ofFn fun i => List.ofFn (l i))).disp
        (p.centre (List.ofFn w) (List.ofFn fun i => List.ofFn (l i)) (List.ofFn (l parent))) (List.ofFn z))[(j : ℕ)]? = some y ∧
      |lwMoveRound rnd radd t p.a p.h (l parent j) (meanRound rnd radd tm w fun i => l i j) (R j) z - y| ≤
        ((1 + u) ^ (D + 5) - 1) * Spec.lwSize p.a p.h (l parent j) w (fun i => l i j) (R j) z := by
  refine ⟨Spec.lwMove p.a p.h (l parent j) w (fun i => l i j) (R j) z, ?_,
    C160_move h ht htm hD hDm ha ha1 p.h _ w _ hw _ _⟩
  simp only [LwSetup.env, LwSetup.centre, hmean, hroot, Spec.lwMove]
  simp [List.getD_eq_getElem?_getD]

/-- **C160, validity.**  Whether a new location satisfies a bound on a parameter is decided as in exact arithmetic unless
the exact location is within the error of the bound. -/
theorem C160_valid (h : Spec.Relative u rnd radd) {D : ℕ} {t : SumTree (Fin d)} {tm : SumTree (Fin n)}
    (ht : t.leaves.Perm (List.finRange d)) (htm : tm.leaves.Perm (List.finRange n)) (hD : t.depth ≤ D) (hDm : tm.depth ≤ D)
    {a : ℝ} (ha : 0 ≤ a) (ha1 : a ≤ 1) (b l : ℝ) (w x : Fin n → ℝ) (hw : ∀ i, 0 ≤ w i) (S z : Fin d → ℝ) (bound : ℝ)
    (hfar : ((1 + u) ^ (D + 5) - 1) * Spec.lwSize a b l w x S z < |Spec.lwMove a b l w x S z - bound|) :
    (bound ≤ lwMoveRound rnd radd t a b l (meanRound rnd radd tm w x) S z ↔ bound ≤ Spec.lwMove a b l w x S z) ∧
    (lwMoveRound rnd radd t a b l (meanRound rnd radd tm w x) S z ≤ bound ↔ Spec.lwMove a b l w x S z ≤ bound) := by
  have h1 := lt_of_le_of_lt (C160_move h ht htm hD hDm ha ha1 b l w x hw S z) hfar
  generalize lwMoveRound rnd radd t a b l (meanRound rnd radd tm w x) S z = y at *
  generalize Spec.lwMove a b l w x S z = y' at *
  rw [abs_lt] at h1
  rcases abs_cases (y' - bound) with ⟨e, hp⟩ | ⟨e, hp⟩ <;> rw [e] at h1 <;>
    constructor <;> constructor <;> intro _ <;> linarith

/-- **C160, the whole cloud.**  With the same parents, the mean of the new cloud is off by at most the average of the
errors of its particles. -/
theorem C160_cloud (h : Spec.Relative u rnd radd) {D m : ℕ} {t : Fin m → SumTree (Fin d)} {tm : SumTree (Fin n)}
    (ht : ∀ j, (t j).leaves.Perm (List.finRange d) ∧ (t j).depth ≤ D) (htm : tm.leaves.Perm (List.finRange n))
    (hDm : tm.depth ≤ D) {a : ℝ} (ha : 0 ≤ a) (ha1 : a ≤ 1) (b : ℝ) (w x : Fin n → ℝ) (hw : ∀ i, 0 ≤ w i)
    (parent : Fin m → Fin n) (S : Fin d → ℝ) (z : Fin m → Fin d → ℝ) :
    |∑ j, lwMoveRound rnd radd (t j) a b (x (parent j)) (meanRound rnd radd tm w x) S (z j) / m -
        ∑ j, Spec.lwMove a b (x (parent j)) w x S (z j) / m| ≤
      ((1 + u) ^ (D + 5) - 1) * ∑ j, Spec.lwSize a b (x (parent j)) w x S (z j) / m := by
  rw [← Finset.sum_sub_distrib, Finset.mul_sum]
  refine (Finset.abs_sum_le_sum_abs _ _).trans (Finset.sum_le_sum fun j _ => ?_)
  rw [← sub_div, abs_div, Nat.abs_cast, ← mul_div_assoc]
  exact div_le_div_of_nonneg_right (C160_move h (ht j).1 htm (ht j).2 hDm ha ha1 b _ w x hw S (z j)) (Nat.cast_nonneg _)

end

/-- **C160, copies.**  With `a = 1` and `h = 0` the new location is exactly its parent, in arithmetic with `p` digits whose
results are rounded to the nearest: this is why C156 may take new locations to be copies. -/
theorem C160_copy {d : ℕ} (p : ℕ) (hp : 0 < p) {t : SumTree (Fin d)} (ht : t.leaves.Perm (List.finRange d)) (l mean : ℝ)
    (hl : Spec.nearest p l = l) (S z : Fin d → ℝ) :
    lwMoveRound (Spec.nearest p) (fun x y => Spec.nearest p (x + y)) t 1 0 l mean S z = l := by
  have h := C154_nearest p hp
  have h0 : Spec.nearest p 0 = 0 := by simp [Spec.nearest]
  have hs : (t.sum (fun x y => Spec.nearest p (x + y)) fun i => Spec.nearest p (Spec.nearest p (0 * S i) * z i)) = 0 := by
    have := off_tree h 1 (fun _ => (0 : ℝ)) (fun i => Spec.nearest p (Spec.nearest p (0 * S i) * z i))
      (fun i => by simp [h0]) t
    rw [leaves_sum t ht, leaves_sum t ht] at this
    simpa using this
  simp only [lwMoveRound, lwCentreRound]
  rw [hs]
  simp [h0, hl]

/-- Case: two particles at 1/4 and 3/4 with equal weights, default `a = 0.98`, in binary64: the new location of a parent at 3/4
with kernel value 1 is within `2⁻⁴⁹` of `0.745 + 0.199 / 4`, so it is valid for the bound 1. -/
example : lwMoveRound (Spec.nearest 53) (fun x y => Spec.nearest 53 (x + y)) (.leaf (0 : Fin 1)) (49 / 50) (199 / 1000) (3 / 4)
    (meanRound (Spec.nearest 53) (fun x y => Spec.nearest 53 (x + y)) (.node (.leaf 0) (.leaf 1)) (fun _ : Fin 2 => 1 / 2)
      ![1 / 4, 3 / 4]) (fun _ => 1 / 4) (fun _ => 1) ≤ 1 := by
  refine ((C160_valid (C154_nearest 53 (by norm_num)) (D := 1) (by decide) (by decide) (by decide) (by decide) (by norm_num)
    (by norm_num) _ _ _ _ (fun _ => by norm_num) _ _ 1 ?_).2).2 ?_
  · norm_num [Spec.lwSize, Spec.lwMove, Fin.sum_univ_two, abs_of_pos, abs_of_neg]
  · norm_num [Spec.lwMove, Fin.sum_univ_two]

/-- Case: a copy of 3/4 in binary64. -/
example (mean z : ℝ) : lwMoveRound (Spec.nearest 53) (fun x y => Spec.nearest 53 (x + y)) (.leaf (0 : Fin 1)) 1 0 (3 / 4) mean
    (fun _ => 1 / 4) (fun _ => z) = 3 / 4 := by
  refine C160_copy 53 (by norm_num) (by decide) _ _ ?_ _ _
  have hlog : Int.log 2 |(3 / 4 : ℝ)| = -1 := by
    rw [abs_of_pos (by norm_num)]
    refine le_antisymm (Int.lt_add_one_iff.1 ?_) ?_
    · exact (Int.lt_zpow_iff_log_lt (b := 2) one_lt_two (by norm_num)).1 (by norm_num)
    · exact (Int.zpow_le_iff_le_log (b := 2) one_lt_two (by norm_num)).1 (by norm_num)
  rw [Spec.nearest, if_neg (by norm_num), hlog]
  have : (3 / 4 : ℝ) / 2 ^ (-1 - (((53 : ℕ) : ℤ) - 1)) = ((3 * 2 ^ 51 : ℤ) : ℝ) := by
    push_cast
    norm_num [zpow_neg]
  rw [this, round_intCast]
  push_cast
  norm_num [zpow_neg]

/-- Case for `C160_resampler`: one parameter, the square root 1/4, the mean as a sum over the cloud. -/
noncomputable def moveSetup : LwSetup where
  a := 49 / 50
  h := 199 / 1000
  maxiter := 10
  kernel m := List.replicate m [1]
  mean w l := [(List.zipWith (fun v x => v * x.getD 0 0) w l).sum]
  covZero _ _ := false
  root _ _ z := z.map fun y => 1 / 4 * y

example : ∃ y, ((moveSetup.env [1 / 2, 1 / 2] [[1 / 4], [3 / 4]]).disp
      (moveSetup.centre [1 / 2, 1 / 2] [[1 / 4], [3 / 4]] [3 / 4]) [1])[0]? = some y ∧
    |lwMoveRound (Spec.nearest 53) (fun x y => Spec.nearest 53 (x + y)) (.leaf (0 : Fin 1)) (49 / 50) (199 / 1000) (3 / 4)
      (meanRound (Spec.nearest 53) (fun x y => Spec.nearest 53 (x + y)) (.node (.leaf 0) (.leaf 1)) (fun _ : Fin 2 => 1 / 2)
        ![1 / 4, 3 / 4]) (fun _ => 1 / 4) (fun _ => 1) - y| ≤ 1 / 2 ^ 50 := by
  obtain ⟨y, h1, h2⟩ := C160_resampler (C154_nearest 53 (by norm_num)) (D := 1) (t := .leaf (0 : Fin 1))
    (tm := .node (.leaf 0) (.leaf 1)) (by decide) (by decide) (by decide) (by decide) moveSetup (by norm_num [moveSetup])
    (by norm_num [moveSetup]) (fun _ : Fin 2 => 1 / 2) (fun _ => by norm_num) ![![1 / 4], ![3 / 4]] (fun _ _ => 1 / 4)
    (by simp [moveSetup, List.ofFn_succ, Fin.sum_univ_two]) (fun _ => 1) (by simp [moveSetup, List.ofFn_succ]) 1 0
  refine ⟨y, ?_, ?_⟩
  · simpa [List.ofFn_succ] using h1
  · have e : (fun i : Fin 2 => (![![1 / 4], ![3 / 4]] : Fin 2 → Fin 1 → ℝ) i 0) = ![1 / 4, 3 / 4] := by
      funext i
      fin_cases i <;> rfl
    rw [e] at h2
    refine h2.trans ?_
    norm_num [Spec.lwSize, moveSetup, Fin.sum_univ_two, abs_of_pos]

end QInfer
