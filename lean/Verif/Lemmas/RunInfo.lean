import Verif.Lemmas.VanTrees
import Verif.Lemmas.Adapt

/-!
# Information of a sequence of experiments

The experiments may be chosen by looking at the outcomes so far.  The outcomes of a whole run are again
the outcome of a smooth model, and its Fisher information is the mean of the sum of the informations of
the experiments performed.
-/

namespace QInfer
open MeasureTheory

variable {d : Nat} {O E : Type} [Fintype O]

/-- Probability of the outcomes `os` after the outcomes `h`, when each experiment is chosen from the
outcomes before it. -/
def Spec.runProb (L : O → (Fin d → ℝ) → E → ℝ) (design : List O → E) :
    List O → List O → (Fin d → ℝ) → ℝ
  | _, [], _ => 1
  | h, o :: os, x => L o x (design h) * Spec.runProb L design (h ++ [o]) os x

/-- Sum of a quantity over the experiments performed. -/
def Spec.overRun (I : E → ℝ) (design : List O → E) : List O → List O → ℝ
  | _, [] => 0
  | h, o :: os => I (design h) + Spec.overRun I design (h ++ [o]) os

/-- Fisher information in the directions `v` and `w`: the mean of the product of the relative changes
of the probabilities. -/
noncomputable def Spec.fisherAt {D : Type*} [Fintype D] (p : D → (Fin d → ℝ) → ℝ)
    (x v w : Fin d → ℝ) : ℝ :=
  ∑ o, fderiv ℝ (p o) x v * fderiv ℝ (p o) x w / p o x

/-- Mean, over the outcomes of a run with true parameters `x`, of the summed Fisher information of the
experiments performed. -/
noncomputable def Spec.meanInfo (L : O → (Fin d → ℝ) → E → ℝ) (design : List O → E) (h : List O)
    (T : Nat) (x v w : Fin d → ℝ) : ℝ :=
  ∑ os : Fin T → O, Spec.runProb L design h (List.ofFn os) x *
    Spec.overRun (fun e => Spec.fisherAt (fun o y => L o y e) x v w) design h (List.ofFn os)

namespace RunInfo

variable {L : O → (Fin d → ℝ) → E → ℝ} {design : List O → E}

theorem runProb_total (hL : ∀ e, Spec.SmoothModel fun o y => L o y e) (T : Nat) (h : List O)
    (x : Fin d → ℝ) : ∑ os : Fin T → O, Spec.runProb L design h (List.ofFn os) x = 1 := by
  induction T generalizing h with
  | zero => simp [Spec.runProb]
  | succ T ih =>
    rw [sum_fin_succ _ (fun os => Spec.runProb L design h os x)]
    simp only [Spec.runProb]
    simp_rw [← Finset.mul_sum, ih, mul_one]
    exact (hL (design h)).total x

theorem runProb_nonneg (hL : ∀ e, Spec.SmoothModel fun o y => L o y e) (os : List O) (h : List O)
    (x : Fin d → ℝ) : 0 ≤ Spec.runProb L design h os x := by
  induction os generalizing h with
  | nil => simp [Spec.runProb]
  | cons o os ih => exact mul_nonneg ((hL _).nonneg o x) (ih _)

theorem runProb_le_one (hL : ∀ e, Spec.SmoothModel fun o y => L o y e) (os : List O) (h : List O)
    (x : Fin d → ℝ) : Spec.runProb L design h os x ≤ 1 := by
  induction os generalizing h with
  | nil => simp [Spec.runProb]
  | cons o os ih =>
    exact mul_le_one₀ (VanTrees.le_one (hL (design h)) o x) (runProb_nonneg hL os _ x) (ih _)

theorem runProb_diff (hL : ∀ e, Spec.SmoothModel fun o y => L o y e) (os : List O) (h : List O) :
    Differentiable ℝ (Spec.runProb L design h os) := by
  induction os generalizing h with
  | nil => exact differentiable_const 1
  | cons o os ih => exact ((hL (design h)).diff o).mul (ih _)

theorem fderiv_runProb (hL : ∀ e, Spec.SmoothModel fun o y => L o y e) (o : O) (os : List O)
    (h : List O) (x v : Fin d → ℝ) :
    fderiv ℝ (Spec.runProb L design h (o :: os)) x v =
      L o x (design h) * fderiv ℝ (Spec.runProb L design (h ++ [o]) os) x v +
        Spec.runProb L design (h ++ [o]) os x * fderiv ℝ (fun y => L o y (design h)) x v := by
  have : Spec.runProb L design h (o :: os) =
      fun y => L o y (design h) * Spec.runProb L design (h ++ [o]) os y := rfl
  rw [this, fderiv_fun_mul ((hL (design h)).diff o x) (runProb_diff hL os _ x)]
  simp

theorem runProb_bound (hL : ∀ e, Spec.SmoothModel fun o y => L o y e) (os : List O) (h : List O) :
    ∃ C, 0 ≤ C ∧ ∀ x v, (fderiv ℝ (Spec.runProb L design h os) x v) ^ 2 ≤
      C * ‖v‖ ^ 2 * Spec.runProb L design h os x := by
  induction os generalizing h with
  | nil =>
    refine ⟨0, le_rfl, fun x v => ?_⟩
    have : Spec.runProb L design h [] = fun _ => 1 := rfl
    rw [this]
    simp
  | cons o os ih =>
    obtain ⟨C, hC0, hC⟩ := ih (h ++ [o])
    obtain ⟨B, hB0, hB⟩ := VanTrees.bound' (hL (design h)) o
    refine ⟨2 * (C + B), by positivity, fun x v => ?_⟩
    rw [fderiv_runProb hL]
    have h1 := hC x v
    have h2 := hB x v
    have p0 := runProb_nonneg (design := design) hL os (h ++ [o]) x
    have p1 := runProb_le_one (design := design) hL os (h ++ [o]) x
    have l0 := (hL (design h)).nonneg o x
    have l1 := VanTrees.le_one (hL (design h)) o x
    show _ ≤ _ * (L o x (design h) * Spec.runProb L design (h ++ [o]) os x)
    obtain ⟨q, hq⟩ : ∃ q, q = Spec.runProb L design (h ++ [o]) os x := ⟨_, rfl⟩
    obtain ⟨l, hl⟩ : ∃ l, l = L o x (design h) := ⟨_, rfl⟩
    obtain ⟨a, ha⟩ : ∃ a, a = fderiv ℝ (Spec.runProb L design (h ++ [o]) os) x v := ⟨_, rfl⟩
    obtain ⟨b, hb⟩ : ∃ b, b = fderiv ℝ (fun y => L o y (design h)) x v := ⟨_, rfl⟩
    simp only [← hq, ← hl, ← ha, ← hb] at *
    obtain ⟨n, hn⟩ : ∃ n, n = ‖v‖ ^ 2 := ⟨_, rfl⟩
    have n0 : 0 ≤ n := by rw [hn]; positivity
    simp only [← hn] at *
    have s1 : (l * a + q * b) ^ 2 ≤ 2 * (l ^ 2 * a ^ 2) + 2 * (q ^ 2 * b ^ 2) := by
      nlinarith [sq_nonneg (l * a - q * b)]
    have s2 : l ^ 2 * a ^ 2 ≤ l * (C * n * q) := by
      have : l ^ 2 * a ^ 2 ≤ l * a ^ 2 := by
        have : l ^ 2 ≤ l := by nlinarith
        exact mul_le_mul_of_nonneg_right this (sq_nonneg a)
      exact this.trans (mul_le_mul_of_nonneg_left h1 l0)
    have s3 : q ^ 2 * b ^ 2 ≤ q * (B * n * l) := by
      have : q ^ 2 * b ^ 2 ≤ q * b ^ 2 := by
        have : q ^ 2 ≤ q := by nlinarith
        exact mul_le_mul_of_nonneg_right this (sq_nonneg b)
      exact this.trans (mul_le_mul_of_nonneg_left h2 p0)
    nlinarith

/-- The outcomes of a whole run are a smooth model. -/
theorem runProb_smooth (hL : ∀ e, Spec.SmoothModel fun o y => L o y e) (T : Nat) (h : List O) :
    Spec.SmoothModel fun (os : Fin T → O) x => Spec.runProb L design h (List.ofFn os) x where
  diff os := runProb_diff hL _ h
  nonneg os x := runProb_nonneg hL _ h x
  total x := runProb_total hL T h x
  bound os := by
    obtain ⟨C, -, hC⟩ := runProb_bound (design := design) hL (List.ofFn os) h
    exact ⟨C, hC⟩

/-- One term of the information of a product. -/
theorem product_term (l q lv lw qv qw : ℝ) (h0 : l = 0 → lv = 0 ∧ lw = 0)
    (h1 : q = 0 → qv = 0 ∧ qw = 0) :
    (l * qv + q * lv) * (l * qw + q * lw) / (l * q) =
      lv * lw / l * q + lv * qw + qv * lw + l * (qv * qw / q) := by
  by_cases hl : l = 0
  · obtain ⟨a, b⟩ := h0 hl
    simp [hl, a, b]
  by_cases hq : q = 0
  · obtain ⟨a, b⟩ := h1 hq
    simp [hq, a, b]
  field_simp
  ring

/-- The Fisher information of a run is the mean of the summed informations. -/
theorem fisher_run (hL : ∀ e, Spec.SmoothModel fun o y => L o y e) (T : Nat) (h : List O)
    (x v w : Fin d → ℝ) :
    Spec.fisherAt (fun (os : Fin T → O) y => Spec.runProb L design h (List.ofFn os) y) x v w =
      Spec.meanInfo L design h T x v w := by
  induction T generalizing h with
  | zero =>
    have : (fun y => Spec.runProb L design h [] y) = fun _ => (1 : ℝ) := rfl
    simp [Spec.fisherAt, Spec.meanInfo, Spec.overRun, this]
  | succ T ih =>
    have e1 : Spec.fisherAt (fun (os : Fin (T + 1) → O) y => Spec.runProb L design h (List.ofFn os) y)
        x v w = ∑ o, ∑ os : Fin T → O,
          fderiv ℝ (Spec.runProb L design h (o :: List.ofFn os)) x v *
            fderiv ℝ (Spec.runProb L design h (o :: List.ofFn os)) x w /
              Spec.runProb L design h (o :: List.ofFn os) x :=
      sum_fin_succ _ (fun os => fderiv ℝ (Spec.runProb L design h os) x v *
        fderiv ℝ (Spec.runProb L design h os) x w / Spec.runProb L design h os x)
    have e2 : Spec.meanInfo L design h (T + 1) x v w = ∑ o, ∑ os : Fin T → O,
        Spec.runProb L design h (o :: List.ofFn os) x *
          Spec.overRun (fun e => Spec.fisherAt (fun o y => L o y e) x v w) design h
            (o :: List.ofFn os) :=
      sum_fin_succ _ (fun os => Spec.runProb L design h os x *
        Spec.overRun (fun e => Spec.fisherAt (fun o y => L o y e) x v w) design h os)
    rw [e1, e2]
    have hz : ∀ o, L o x (design h) = 0 → ∀ v, fderiv ℝ (fun y => L o y (design h)) x v = 0 := by
      intro o ho v
      rw [VanTrees.fderiv_of_zero (f := fun y => L o y (design h)) ((hL (design h)).nonneg o) x ho]
      rfl
    have hz' : ∀ o (os : List O), Spec.runProb L design (h ++ [o]) os x = 0 → ∀ v,
        fderiv ℝ (Spec.runProb L design (h ++ [o]) os) x v = 0 := by
      intro o os ho v
      rw [VanTrees.fderiv_of_zero (fun y => runProb_nonneg hL os _ y) x ho]
      rfl
    have e3 : ∀ o, ∑ os : Fin T → O, fderiv ℝ (Spec.runProb L design h (o :: List.ofFn os)) x v *
            fderiv ℝ (Spec.runProb L design h (o :: List.ofFn os)) x w /
              Spec.runProb L design h (o :: List.ofFn os) x =
        fderiv ℝ (fun y => L o y (design h)) x v * fderiv ℝ (fun y => L o y (design h)) x w /
            L o x (design h) +
          L o x (design h) * Spec.meanInfo L design (h ++ [o]) T x v w := by
      intro o
      have hsm := runProb_smooth (design := design) hL T (h ++ [o])
      have t : ∀ os : Fin T → O, fderiv ℝ (Spec.runProb L design h (o :: List.ofFn os)) x v *
            fderiv ℝ (Spec.runProb L design h (o :: List.ofFn os)) x w /
              Spec.runProb L design h (o :: List.ofFn os) x =
          fderiv ℝ (fun y => L o y (design h)) x v * fderiv ℝ (fun y => L o y (design h)) x w /
            L o x (design h) * Spec.runProb L design (h ++ [o]) (List.ofFn os) x +
          fderiv ℝ (fun y => L o y (design h)) x v *
            fderiv ℝ (fun y => Spec.runProb L design (h ++ [o]) (List.ofFn os) y) x w +
          fderiv ℝ (fun y => Spec.runProb L design (h ++ [o]) (List.ofFn os) y) x v *
            fderiv ℝ (fun y => L o y (design h)) x w +
          L o x (design h) * (fderiv ℝ (fun y => Spec.runProb L design (h ++ [o]) (List.ofFn os) y) x v *
            fderiv ℝ (fun y => Spec.runProb L design (h ++ [o]) (List.ofFn os) y) x w /
              Spec.runProb L design (h ++ [o]) (List.ofFn os) x) := by
        intro os
        rw [fderiv_runProb hL, fderiv_runProb hL]
        exact product_term _ _ _ _ _ _ (fun h0 => ⟨hz o h0 v, hz o h0 w⟩)
          (fun h0 => ⟨hz' o _ h0 v, hz' o _ h0 w⟩)
      rw [Finset.sum_congr rfl fun os _ => t os]
      rw [Finset.sum_add_distrib, Finset.sum_add_distrib, Finset.sum_add_distrib,
        ← Finset.mul_sum, ← Finset.mul_sum, ← Finset.sum_mul, ← Finset.mul_sum,
        VanTrees.sum_deriv hsm x v, VanTrees.sum_deriv hsm x w, runProb_total hL T, ← ih (h ++ [o])]
      simp [Spec.fisherAt]
    have e4 : ∀ o, ∑ os : Fin T → O, Spec.runProb L design h (o :: List.ofFn os) x *
          Spec.overRun (fun e => Spec.fisherAt (fun o y => L o y e) x v w) design h
            (o :: List.ofFn os) =
        L o x (design h) * Spec.fisherAt (fun o y => L o y (design h)) x v w +
          L o x (design h) * Spec.meanInfo L design (h ++ [o]) T x v w := by
      intro o
      simp only [Spec.runProb, Spec.overRun, Spec.meanInfo, mul_add]
      rw [Finset.sum_add_distrib]
      congr 1
      · have : ∀ os : Fin T → O, L o x (design h) * Spec.runProb L design (h ++ [o]) (List.ofFn os) x *
            Spec.fisherAt (fun o y => L o y (design h)) x v w =
            (L o x (design h) * Spec.fisherAt (fun o y => L o y (design h)) x v w) *
              Spec.runProb L design (h ++ [o]) (List.ofFn os) x := fun os => by ring
        simp_rw [this]
        rw [← Finset.mul_sum, runProb_total hL T, mul_one]
      · rw [Finset.mul_sum]
        exact Finset.sum_congr rfl fun os _ => by ring
    rw [Finset.sum_congr rfl fun o _ => e3 o, Finset.sum_congr rfl fun o _ => e4 o,
      Finset.sum_add_distrib, Finset.sum_add_distrib, ← Finset.sum_mul,
      show ∑ o, L o x (design h) = 1 from (hL (design h)).total x, one_mul]
    rfl

end RunInfo
end QInfer
