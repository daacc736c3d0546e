import Verif.Props.Promise
import Verif.Props.Batched
import Verif.Lemmas.Moments

/-!
# C134: noise never helps, repetitions never hurt

What `bayes_risk` and `expected_information_gain` say about an experiment, and what an updater achieves,
when outcomes are read through a noisy channel, and when a measurement is repeated more often.
-/

set_option linter.unusedSectionVars false

namespace QInfer

open Finset

namespace Spec

/-- One experiment is a noisy version of another: its outcome can be had by performing the other one
and reporting `o'` in place of `o` with a probability that does not depend on the hypothesis. -/
def NoisyVersion {K O O' I : Type*} [Field K] [LinearOrder K] [Fintype O] [Fintype O']
    (l : O → I → K) (l' : O' → I → K) : Prop :=
  ∃ M : O → O' → K, (∀ o o', 0 ≤ M o o') ∧ (∀ o, ∑ o', M o o' = 1) ∧
    ∀ o' i, l' o' i = ∑ o, M o o' * l o i

/-- The likelihoods of all outcomes; the last one takes what is left. -/
def allOutcomes {K : Type*} [Field K] {n k : Nat} (L : Fin k → Fin n → Fin 1 → K) :
    Option (Fin k) → Fin n → K
  | some o, i => L o i 0
  | none, i => 1 - ∑ o, L o i 0

/-- Likelihoods that are neither negative nor exceed one in total. -/
def Probabilities {K : Type*} [Field K] [LinearOrder K] {n k : Nat} (L : Fin k → Fin n → Fin 1 → K) : Prop :=
  (∀ o i, 0 ≤ L o i 0) ∧ ∀ i, ∑ o, L o i 0 ≤ 1

/-- Every outcome but the last has a total probability that is zero or not below the float spacing; the
last one is possible. -/
def Resolved {K : Type*} [Field K] [LinearOrder K] {n k : Nat} (w : Fin n → K)
    (L : Fin k → Fin n → Fin 1 → K) : Prop :=
  (∀ o, (∑ i, w i * allOutcomes L (some o) i = 0 ∨ eps ≤ ∑ i, w i * allOutcomes L (some o) i)) ∧
    ∑ i, w i * allOutcomes L none i ≠ 0

end Spec

namespace Noise

section
variable {K : Type*} [Field K] [LinearOrder K] [IsStrictOrderedRing K] {n d k k' : Nat}
variable {O O' : Type*} [Fintype O] [Fintype O']

/-- Squared error of the estimate `m`, the truth being particle `i` with weight `u i`. -/
def sqErr (Q : Fin d → K) (u : Fin n → K) (x : Fin n → Fin d → K) (m : Fin d → K) : K :=
  ∑ i, u i * ∑ j, Q j * (x i j - m j) ^ 2

/-- The squared error of the weighted mean. -/
def minErr (Q : Fin d → K) (u : Fin n → K) (x : Fin n → Fin d → K) : K :=
  sqErr Q u x fun j => (∑ i, u i * x i j) / ∑ i, u i

theorem sqErr_zero (Q : Fin d → K) (u : Fin n → K) (x : Fin n → Fin d → K) (m : Fin d → K)
    (h : ∀ i, u i = 0) : sqErr Q u x m = 0 := by
  simp [sqErr, h]

theorem sqErr_sum (Q : Fin d → K) (u : O → Fin n → K) (x : Fin n → Fin d → K) (m : Fin d → K) :
    sqErr Q (fun i => ∑ o, u o i) x m = ∑ o, sqErr Q (u o) x m := by
  unfold sqErr
  rw [sum_comm]
  exact sum_congr rfl fun i _ => by rw [sum_mul]

theorem sqErr_smul (Q : Fin d → K) (c : K) (u : Fin n → K) (x : Fin n → Fin d → K) (m : Fin d → K) :
    sqErr Q (fun i => c * u i) x m = c * sqErr Q u x m := by
  unfold sqErr
  rw [mul_sum]
  exact sum_congr rfl fun i _ => by ring

theorem minErr_le (Q : Fin d → K) (hQ : ∀ j, 0 ≤ Q j) (u : Fin n → K) (hu : ∀ i, 0 ≤ u i)
    (x : Fin n → Fin d → K) (m : Fin d → K) : minErr Q u x ≤ sqErr Q u x m := by
  by_cases h0 : ∑ i, u i = 0
  · have hz : ∀ i, u i = 0 := fun i => (sum_eq_zero_iff_of_nonneg fun i _ => hu i).1 h0 i (mem_univ i)
    unfold minErr
    rw [sqErr_zero _ _ _ _ hz, sqErr_zero _ _ _ _ hz]
  · unfold minErr sqErr
    have hsw : ∀ m' : Fin d → K, ∑ i, u i * ∑ j, Q j * (x i j - m' j) ^ 2 =
        ∑ j, Q j * ∑ i, u i * (x i j - m' j) ^ 2 := by
      intro m'
      simp_rw [mul_sum]
      rw [sum_comm]
      exact sum_congr rfl fun j _ => sum_congr rfl fun i _ => by ring
    rw [hsw, hsw]
    refine sum_le_sum fun j _ => mul_le_mul_of_nonneg_left ?_ (hQ j)
    set N := ∑ i, u i with hN
    set A := ∑ i, u i * x i j with hA
    have e : ∀ c : K, ∑ i, u i * (x i j - c) ^ 2 = ∑ i, u i * x i j ^ 2 - 2 * c * A + c ^ 2 * N := by
      intro c
      have : ∀ i, u i * (x i j - c) ^ 2 = u i * x i j ^ 2 - 2 * c * (u i * x i j) + c ^ 2 * u i :=
        fun i => by ring
      simp only [this, sum_add_distrib, sum_sub_distrib, ← mul_sum, hN, hA]
    rw [e, e]
    have hNp : 0 < N := lt_of_le_of_ne (sum_nonneg fun i _ => hu i) (Ne.symm h0)
    have : -(2 * m j * A) + m j ^ 2 * N - (-(2 * (A / N) * A) + (A / N) ^ 2 * N) =
        N * (m j - A / N) ^ 2 := by
      field_simp
      ring
    nlinarith [mul_nonneg hNp.le (sq_nonneg (m j - A / N))]

theorem minErr_smul (Q : Fin d → K) (c : K) (u : Fin n → K) (x : Fin n → Fin d → K) :
    minErr Q (fun i => c * u i) x = c * minErr Q u x := by
  by_cases hc : c = 0
  · subst hc
    unfold minErr
    rw [zero_mul]
    exact sqErr_zero _ _ _ _ fun i => by ring
  · unfold minErr
    rw [sqErr_smul]
    congr 2
    funext j
    rw [← mul_sum]
    have : ∑ i, c * u i * x i j = c * ∑ i, u i * x i j := by
      rw [mul_sum]; exact sum_congr rfl fun i _ => by ring
    rw [this, mul_div_mul_left _ _ hc]

/-- Knowing which part is present does not increase the error. -/
theorem minErr_split (Q : Fin d → K) (hQ : ∀ j, 0 ≤ Q j) (u : O → Fin n → K) (hu : ∀ o i, 0 ≤ u o i)
    (x : Fin n → Fin d → K) : ∑ o, minErr Q (u o) x ≤ minErr Q (fun i => ∑ o, u o i) x := by
  rw [minErr, sqErr_sum]
  exact sum_le_sum fun o _ => minErr_le Q hQ _ (hu o) x _

/-- The mean error after an experiment with the likelihoods `l`. -/
def meanErr (Q : Fin d → K) (w : Fin n → K) (x : Fin n → Fin d → K) (l : O → Fin n → K) : K :=
  ∑ o, minErr Q (fun i => w i * l o i) x

theorem meanErr_noisy (Q : Fin d → K) (hQ : ∀ j, 0 ≤ Q j) (w : Fin n → K) (hw : ∀ i, 0 ≤ w i)
    (x : Fin n → Fin d → K) (l : O → Fin n → K) (hl : ∀ o i, 0 ≤ l o i) (l' : O' → Fin n → K)
    (h : Spec.NoisyVersion l l') : meanErr Q w x l ≤ meanErr Q w x l' := by
  obtain ⟨M, hM, hM1, hl'⟩ := h
  unfold meanErr
  calc ∑ o, minErr Q (fun i => w i * l o i) x
      = ∑ o, ∑ o', minErr Q (fun i => M o o' * (w i * l o i)) x := by
        refine sum_congr rfl fun o _ => ?_
        simp_rw [minErr_smul]
        rw [← sum_mul, hM1, one_mul]
    _ = ∑ o', ∑ o, minErr Q (fun i => M o o' * (w i * l o i)) x := sum_comm
    _ ≤ ∑ o', minErr Q (fun i => ∑ o, M o o' * (w i * l o i)) x :=
        sum_le_sum fun o' _ => minErr_split Q hQ (fun o i => M o o' * (w i * l o i))
          (fun o i => mul_nonneg (hM _ _) (mul_nonneg (hw i) (hl o i))) x
    _ = ∑ o', minErr Q (fun i => w i * l' o' i) x := by
        refine sum_congr rfl fun o' _ => ?_
        congr 1
        funext i
        rw [hl', mul_sum]
        exact sum_congr rfl fun o _ => by ring

theorem scaled_minErr (Q : Fin d → K) (u : Fin n → K) (x : Fin n → Fin d → K) (N : K)
    (hN : ∑ i, u i = N) (h0 : N ≠ 0) : N * qvar Q (fun i => u i / N) x = minErr Q u x := by
  unfold qvar minErr sqErr pmean
  rw [mul_sum]
  refine sum_congr rfl fun i _ => ?_
  rw [← mul_assoc, mul_div_cancel₀ _ h0]
  congr 1
  refine sum_congr rfl fun j _ => ?_
  congr 3
  dsimp only
  rw [hN, sum_div]
  exact sum_congr rfl fun i _ => by ring

/-- `bayes_risk` is the mean error of the posterior mean. -/
theorem bayesRisk_meanErr (Q : Fin d → K) (w : Fin n → K) (hw : ∀ i, 0 ≤ w i) (x : Fin n → Fin d → K)
    (L : Fin k → Fin n → Fin 1 → K) (hL : ∀ o i, 0 ≤ L o i 0) (hr : Spec.Resolved w L) :
    bayesRisk Q w x L 0 = some (meanErr Q w x (Spec.allOutcomes L)) := by
  have hlast : lastN w L 0 = ∑ i, w i * Spec.allOutcomes L none i := by
    unfold lastN lastRaw Spec.allOutcomes
    exact sum_congr rfl fun i _ => by ring
  unfold bayesRisk
  rw [if_neg (by rw [hlast]; exact hr.2)]
  congr 1
  unfold meanErr
  rw [Fintype.sum_option, add_comm]
  congr 1
  · rw [scaled_minErr Q (lastRaw w L 0) x (lastN w L 0) rfl (by rw [hlast]; exact hr.2)]
    congr 1
    funext i
    unfold lastRaw Spec.allOutcomes
    ring
  · refine sum_congr rfl fun o _ => ?_
    have hN : hypN w L o 0 = ∑ i, w i * Spec.allOutcomes L (some o) i := rfl
    rcases hr.1 o with h | h
    · rw [hN, h, zero_mul]
      symm
      exact sqErr_zero _ _ _ _ fun i =>
        (sum_eq_zero_iff_of_nonneg fun i _ => mul_nonneg (hw i) (hL o i)).1 h i (mem_univ i)
    · rw [hypW_eq w L o 0 (by rw [hN]; exact h)]
      exact scaled_minErr Q (fun i => w i * L o i 0) x _ rfl (by rw [hN]; exact (eps_pos.trans_le h).ne')

theorem allOutcomes_nonneg (L : Fin k → Fin n → Fin 1 → K) (hL : Spec.Probabilities L)
    (o : Option (Fin k)) (i : Fin n) : 0 ≤ Spec.allOutcomes L o i := by
  cases o with
  | some o => exact hL.1 o i
  | none => exact sub_nonneg.2 (hL.2 i)

end

end Noise

section
variable {K : Type*} [Field K] [LinearOrder K] [IsStrictOrderedRing K] {n d k k' : Nat}

/-- **C134, risk.**  The Bayes risk of a noisy version of an experiment is not lower than that of the
experiment. -/
theorem C134_risk (Q : Fin d → K) (hQ : ∀ j, 0 ≤ Q j) (w : Fin n → K) (hw : ∀ i, 0 ≤ w i)
    (x : Fin n → Fin d → K) (L : Fin k → Fin n → Fin 1 → K) (L' : Fin k' → Fin n → Fin 1 → K)
    (hL : Spec.Probabilities L) (hL' : Spec.Probabilities L') (hr : Spec.Resolved w L)
    (hr' : Spec.Resolved w L')
    (h : Spec.NoisyVersion (Spec.allOutcomes L) (Spec.allOutcomes L')) :
    ∃ r r', bayesRisk Q w x L 0 = some r ∧ bayesRisk Q w x L' 0 = some r' ∧ r ≤ r' :=
  ⟨_, _, Noise.bayesRisk_meanErr Q w hw x L hL.1 hr, Noise.bayesRisk_meanErr Q w hw x L' hL'.1 hr',
    Noise.meanErr_noisy Q hQ w hw x _ (Noise.allOutcomes_nonneg L hL) _ h⟩

end

/-! ### Information -/

namespace Noise

section
variable {n : Nat} {O O' : Type*} [Fintype O] [Fintype O']

/-- Probability of an outcome. -/
def prob (w : Fin n → ℝ) (l : O → Fin n → ℝ) (o : O) : ℝ := ∑ i, w i * l o i

/-- Mutual information of particle and outcome. -/
noncomputable def info (w : Fin n → ℝ) (l : O → Fin n → ℝ) : ℝ :=
  ∑ i, w i * ∑ o, l o i * Real.log (l o i / prob w l o)

theorem infoGain_info {k : Nat} (w : Fin n → ℝ) (L : Fin k → Fin n → Fin 1 → ℝ) (hn : 0 < n)
    (hw : ∀ i, 0 < w i) (h1 : ∑ i, w i = 1) (hL : ∀ o i, 0 < Spec.allOutcomes L o i)
    (hne : ∀ o, eps ≤ ∑ i, w i * L o i 0) : infoGain w L 0 = some (info w (Spec.allOutcomes L)) := by
  obtain ⟨v, hv, -, hv'⟩ := C15_info_gain_nonneg w L 0 hn hw h1 (fun o i => hL (some o) i)
    (fun i => by have := hL none i; simp only [Spec.allOutcomes] at this; linarith) hne
  rw [hv, hv']
  congr 1
  unfold info
  simp_rw [mul_sum]
  rw [sum_comm (s := univ) (t := univ) (f := fun i (o : Option (Fin k)) => w i * (Spec.allOutcomes L o i *
    Real.log (Spec.allOutcomes L o i / prob w (Spec.allOutcomes L) o))), Fintype.sum_option, add_comm]
  congr 1
  · exact sum_congr rfl fun i _ => by simp only [Spec.allOutcomes, prob, hypProb]; ring
  · exact sum_congr rfl fun o _ => sum_congr rfl fun i _ => by
      simp only [Spec.allOutcomes, prob, hypProb]; ring

/-- The log sum inequality for a mixture of outcomes. -/
theorem log_sum (M a b : O → ℝ) (hM : ∀ o, 0 ≤ M o) (ha : ∀ o, 0 < a o) (hb : ∀ o, 0 < b o)
    (hA : 0 < ∑ o, M o * a o) :
    (∑ o, M o * a o) * Real.log ((∑ o, M o * a o) / ∑ o, M o * b o) ≤
      ∑ o, M o * (a o * Real.log (a o / b o)) := by
  have hB : 0 < ∑ o, M o * b o := by
    obtain ⟨o, -, ho⟩ := exists_lt_of_sum_lt (s := univ) (f := fun _ : O => (0 : ℝ)) (by simpa using hA)
    have hMo : 0 < M o := by
      rcases (hM o).lt_or_eq with h | h
      · exact h
      · rw [← h, zero_mul] at ho; exact absurd ho (lt_irrefl _)
    exact sum_pos' (fun o _ => mul_nonneg (hM o) (hb o).le) ⟨o, mem_univ o, mul_pos hMo (hb o)⟩
  obtain ⟨A, hAd⟩ : ∃ A, A = ∑ o, M o * a o := ⟨_, rfl⟩
  obtain ⟨B, hBd⟩ : ∃ B, B = ∑ o, M o * b o := ⟨_, rfl⟩
  rw [← hAd] at hA ⊢
  rw [← hBd] at hB ⊢
  have key : ∀ o, M o * a o - M o * b o * (A / B) ≤
      M o * (a o * Real.log (a o / b o)) - M o * a o * Real.log (A / B) := by
    intro o
    have h := Real.log_le_sub_one_of_pos (div_pos (mul_pos (hb o) hA) (mul_pos (ha o) hB))
    have e : Real.log (b o * A / (a o * B)) = -(Real.log (a o / b o) - Real.log (A / B)) := by
      rw [Real.log_div (mul_pos (hb o) hA).ne' (mul_pos (ha o) hB).ne', Real.log_mul (hb o).ne' hA.ne',
        Real.log_mul (ha o).ne' hB.ne', Real.log_div (ha o).ne' (hb o).ne', Real.log_div hA.ne' hB.ne']
      ring
    rw [e] at h
    have h2 := mul_le_mul_of_nonneg_left h (mul_nonneg (hM o) (ha o).le)
    have e2 : M o * a o * (b o * A / (a o * B) - 1) = M o * b o * (A / B) - M o * a o := by
      have := (ha o).ne'
      field_simp
    rw [e2] at h2
    linarith
  have hs := sum_le_sum fun o (_ : o ∈ univ) => key o
  rw [sum_sub_distrib, sum_sub_distrib, ← sum_mul, ← sum_mul, ← hAd, ← hBd, mul_div_cancel₀ _ hB.ne'] at hs
  linarith

theorem info_noisy (w : Fin n → ℝ) (hw : ∀ i, 0 < w i) (l : O → Fin n → ℝ) (hl : ∀ o i, 0 < l o i)
    (l' : O' → Fin n → ℝ) (hl' : ∀ o i, 0 < l' o i) (hn : 0 < n) (h : Spec.NoisyVersion l l') :
    info w l' ≤ info w l := by
  obtain ⟨M, hM, hM1, hM2⟩ := h
  have hne : (univ : Finset (Fin n)).Nonempty := ⟨⟨0, hn⟩, mem_univ _⟩
  have hP : ∀ o', prob w l' o' = ∑ o, M o o' * prob w l o := by
    intro o'
    unfold prob
    simp_rw [hM2, mul_sum]
    rw [sum_comm]
    exact sum_congr rfl fun o _ => sum_congr rfl fun i _ => by ring
  unfold info
  refine sum_le_sum fun i _ => mul_le_mul_of_nonneg_left ?_ (hw i).le
  calc ∑ o', l' o' i * Real.log (l' o' i / prob w l' o')
      ≤ ∑ o', ∑ o, M o o' * (l o i * Real.log (l o i / prob w l o)) := by
        refine sum_le_sum fun o' _ => ?_
        rw [hP, hM2]
        exact log_sum (fun o => M o o') (fun o => l o i) (prob w l) (fun o => hM o o')
          (fun o => hl o i) (fun o => sum_pos (fun i _ => mul_pos (hw i) (hl o i)) hne)
          (by rw [← hM2]; exact hl' o' i)
    _ = ∑ o, l o i * Real.log (l o i / prob w l o) := by
        rw [sum_comm]
        refine sum_congr rfl fun o _ => ?_
        rw [← sum_mul, hM1, one_mul]

/-- The information is at most the mean divergence from any other distribution of the outcomes. -/
theorem info_le (w : Fin n → ℝ) (hw : ∀ i, 0 < w i) (h1 : ∑ i, w i = 1) (l : O → Fin n → ℝ)
    (hl : ∀ o i, 0 < l o i) (hl1 : ∀ i, ∑ o, l o i = 1) (hn : 0 < n) (r : O → ℝ) (hr : ∀ o, 0 < r o)
    (hr1 : ∑ o, r o = 1) : info w l ≤ ∑ i, w i * ∑ o, l o i * Real.log (l o i / r o) := by
  have hne : (univ : Finset (Fin n)).Nonempty := ⟨⟨0, hn⟩, mem_univ _⟩
  have hP : ∀ o, 0 < prob w l o := fun o => sum_pos (fun i _ => mul_pos (hw i) (hl o i)) hne
  have hP1 : ∑ o, prob w l o = 1 := by
    unfold prob
    rw [sum_comm]
    simp_rw [← mul_sum, hl1, mul_one, h1]
  have hg : 0 ≤ ∑ o, prob w l o * Real.log (prob w l o / r o) := by
    have := log_sum (fun _ : O => (1 : ℝ)) (prob w l) r (fun _ => zero_le_one) hP hr
      (by simp [hP1])
    simpa [hP1, hr1] using this
  have e : ∑ i, w i * ∑ o, l o i * Real.log (l o i / r o) =
      info w l + ∑ o, prob w l o * Real.log (prob w l o / r o) := by
    have e2 : ∑ o, prob w l o * Real.log (prob w l o / r o) =
        ∑ i, w i * ∑ o, l o i * Real.log (prob w l o / r o) := by
      simp_rw [mul_sum]
      rw [sum_comm]
      refine sum_congr rfl fun o _ => ?_
      have : ∀ c : ℝ, prob w l o * c = ∑ i, w i * (l o i * c) := fun c => by
        unfold prob
        rw [sum_mul]
        exact sum_congr rfl fun i _ => by ring
      exact this _
    rw [e2, info, ← sum_add_distrib]
    refine sum_congr rfl fun i _ => ?_
    rw [← mul_add, ← sum_add_distrib]
    congr 1
    refine sum_congr rfl fun o _ => ?_
    rw [← mul_add, Real.log_div (hl o i).ne' (hr o).ne', Real.log_div (hl o i).ne' (hP o).ne',
      Real.log_div (hP o).ne' (hr o).ne']
    ring
  rw [e]
  linarith

end

end Noise

section
variable {n k k' : Nat}

/-- **C134, information.**  The expected information gain of a noisy version of an experiment is not
higher than that of the experiment. -/
theorem C134_information (w : Fin n → ℝ) (hn : 0 < n) (hw : ∀ i, 0 < w i) (h1 : ∑ i, w i = 1)
    (L : Fin k → Fin n → Fin 1 → ℝ) (L' : Fin k' → Fin n → Fin 1 → ℝ)
    (hL : ∀ o i, 0 < Spec.allOutcomes L o i) (hL' : ∀ o i, 0 < Spec.allOutcomes L' o i)
    (hr : ∀ o, eps ≤ ∑ i, w i * L o i 0) (hr' : ∀ o, eps ≤ ∑ i, w i * L' o i 0)
    (h : Spec.NoisyVersion (Spec.allOutcomes L) (Spec.allOutcomes L')) :
    ∃ v v', infoGain w L 0 = some v ∧ infoGain w L' 0 = some v' ∧ v' ≤ v :=
  ⟨_, _, Noise.infoGain_info w L hn hw h1 hL hr, Noise.infoGain_info w L' hn hw h1 hL' hr',
    Noise.info_noisy w hw _ hL _ hL' hn h⟩

end

/-! ### Repetitions -/

/-- The likelihoods of a `BinomialModel` for `m` measurements, for all numbers of ones but the last, at
the particles `loc`. -/
noncomputable def Spec.shotArray {E ω : Type} (env : Env ℝ ℤ E ω) (e : E) (m : ℕ) {n : Nat}
    (loc : Fin n → List ℝ) (c : Fin m) (i : Fin n) (_ : Fin 1) : ℝ :=
  (binomialEnv env).likelihood (c : ℕ) (loc i) (e, m)

namespace Noise

/-- The number of ones in an outcome of `m` measurements. -/
def ones {m : ℕ} : Option (Fin m) → ℕ
  | some c => c
  | none => m

theorem sum_ones {m : ℕ} {A : Type*} [AddCommMonoid A] (f : ℕ → A) :
    ∑ o : Option (Fin m), f (ones o) = ∑ c ∈ range (m + 1), f c := by
  rw [Fintype.sum_option, sum_range_succ, add_comm, sum_range]
  rfl

theorem ones_le {m : ℕ} (o : Option (Fin m)) : ones o ≤ m := by
  cases o with
  | none => exact le_rfl
  | some c => exact c.2.le

/-- The binomial distribution. -/
noncomputable def bin (m : ℕ) (p : ℝ) (c : ℕ) : ℝ := m.choose c * p ^ c * (1 - p) ^ (m - c)

theorem bin_pos {m : ℕ} {p : ℝ} (h0 : 0 < p) (h1 : p < 1) {c : ℕ} (hc : c ≤ m) : 0 < bin m p c := by
  have : 0 < m.choose c := Nat.choose_pos hc
  have : 0 < 1 - p := by linarith
  unfold bin
  positivity

theorem bin_nonneg {m : ℕ} {p : ℝ} (h0 : 0 ≤ p) (h1 : p ≤ 1) (c : ℕ) : 0 ≤ bin m p c := by
  have : 0 ≤ 1 - p := by linarith
  unfold bin
  positivity

/-- Forgetting one measurement. -/
theorem bin_forget (m : ℕ) (p : ℝ) (c : ℕ) (hc : c ≤ m) :
    ((m : ℝ) + 1 - c) / (m + 1) * bin (m + 1) p c + ((c : ℝ) + 1) / (m + 1) * bin (m + 1) p (c + 1) =
      bin m p c := by
  have hm : ((m : ℝ) + 1) ≠ 0 := by positivity
  have e1 : (m.choose c : ℝ) * (m + 1) = ((m + 1).choose c : ℝ) * ((m : ℝ) + 1 - c) := by
    have := Nat.choose_mul_succ_eq m c
    have h2 : ((m + 1 - c : ℕ) : ℝ) = (m : ℝ) + 1 - c := by
      rw [Nat.cast_sub (by omega)]; push_cast; ring
    rw [← h2]
    exact_mod_cast this
  have e2 : ((m : ℝ) + 1) * m.choose c = ((m + 1).choose (c + 1) : ℝ) * ((c : ℝ) + 1) := by
    exact_mod_cast Nat.add_one_mul_choose_eq m c
  unfold bin
  have e3 : m + 1 - c = (m - c) + 1 := by omega
  have e4 : m + 1 - (c + 1) = m - c := by omega
  rw [e3, e4, pow_succ, pow_succ]
  have e5 : ((m : ℝ) + 1 - c) / (m + 1) * (((m + 1).choose c : ℝ) * p ^ c * ((1 - p) ^ (m - c) * (1 - p))) =
      (((m + 1).choose c : ℝ) * ((m : ℝ) + 1 - c)) / (m + 1) * (p ^ c * ((1 - p) ^ (m - c) * (1 - p))) := by ring
  have e6 : ((c : ℝ) + 1) / (m + 1) * (((m + 1).choose (c + 1) : ℝ) * (p ^ c * p) * (1 - p) ^ (m - c)) =
      (((m + 1).choose (c + 1) : ℝ) * ((c : ℝ) + 1)) / (m + 1) * (p ^ c * p * (1 - p) ^ (m - c)) := by ring
  rw [e5, e6, ← e1, ← e2]
  field_simp
  ring

/-- Fewer measurements are a noisy version of more. -/
theorem bin_noisy {n : Nat} (m : ℕ) (p : Fin n → ℝ) :
    Spec.NoisyVersion (fun (o : Option (Fin (m + 1))) i => bin (m + 1) (p i) (ones o))
      (fun (o : Option (Fin m)) i => bin m (p i) (ones o)) := by
  have hm : ((m : ℝ) + 1) ≠ 0 := by positivity
  refine ⟨fun o o' => (if ones o' = ones o then ((m : ℝ) + 1 - (ones o : ℕ)) / (m + 1) else 0) +
    (if ones o' + 1 = ones o then ((ones o : ℕ) : ℝ) / (m + 1) else 0), ?_, ?_, ?_⟩
  · intro o o'
    have : ((ones o : ℕ) : ℝ) ≤ m + 1 := by exact_mod_cast ones_le o
    refine add_nonneg ?_ ?_ <;> split
    · exact div_nonneg (by linarith) (by positivity)
    · exact le_rfl
    · positivity
    · exact le_rfl
  · intro o
    have hle := ones_le o
    rw [sum_add_distrib, sum_ones (fun c => if c = ones o then ((m : ℝ) + 1 - (ones o : ℕ)) / (m + 1) else 0),
      sum_ones (fun c => if c + 1 = ones o then ((ones o : ℕ) : ℝ) / (m + 1) else 0), sum_ite_eq']
    have h2 : ∑ c ∈ range (m + 1), (if c + 1 = ones o then ((ones o : ℕ) : ℝ) / (m + 1) else 0) =
        (ones o : ℕ) / ((m : ℝ) + 1) := by
      rcases Nat.eq_zero_or_pos (ones o) with h | h
      · simp [h]
      · rw [sum_eq_single (ones o - 1)]
        · rw [if_pos (by omega)]
        · intro c _ hc
          rw [if_neg (by omega)]
        · intro hc
          exact absurd (mem_range.2 (by omega)) hc
    rw [h2]
    split
    · field_simp
      ring
    · rename_i h
      have : ones o = m + 1 := by
        rw [mem_range] at h; omega
      rw [this]
      push_cast
      field_simp
      ring
  · intro o' i
    have hle := ones_le o'
    rw [sum_ones (fun c => ((if ones o' = c then ((m : ℝ) + 1 - (c : ℕ)) / (m + 1) else 0) +
      (if ones o' + 1 = c then ((c : ℕ) : ℝ) / (m + 1) else 0)) * bin (m + 1) (p i) c)]
    simp_rw [add_mul, ite_mul, zero_mul]
    rw [sum_add_distrib, sum_ite_eq, sum_ite_eq, if_pos (mem_range.2 (by omega)),
      if_pos (mem_range.2 (by omega))]
    push_cast
    exact (bin_forget m (p i) (ones o') hle).symm

theorem shot_all {E ω : Type} {n : Nat} (env : Env ℝ ℤ E ω) (h2 : Spec.TwoOutcomes env.likelihood)
    (e : E) (m : ℕ) (loc : Fin n → List ℝ) (o : Option (Fin m)) (i : Fin n) :
    Spec.allOutcomes (Spec.shotArray env e m loc) o i = bin m (env.likelihood 1 (loc i) e) (ones o) := by
  have hq : env.likelihood 0 (loc i) e = 1 - env.likelihood 1 (loc i) e := by
    have := (h2 (loc i) e).2.2; linarith
  have hc : ∀ c : Fin m, Spec.shotArray env e m loc c i 0 = bin m (env.likelihood 1 (loc i) e) c := by
    intro c
    unfold Spec.shotArray bin
    rw [binomialEnv_like env h2 (loc i) e c m c.2.le, hq]
  cases o with
  | some c => exact hc c
  | none =>
    have ht := binomial_total m (env.likelihood 1 (loc i) e)
    rw [sum_range_succ, sum_range] at ht
    simp only [Spec.allOutcomes, hc, ones]
    unfold bin
    linarith

theorem shot_all' {E ω : Type} {n : Nat} (env : Env ℝ ℤ E ω) (h2 : Spec.TwoOutcomes env.likelihood)
    (e : E) (m : ℕ) (loc : Fin n → List ℝ) : Spec.allOutcomes (Spec.shotArray env e m loc) =
      fun o i => bin m (env.likelihood 1 (loc i) e) (ones o) := by
  funext o i
  exact shot_all env h2 e m loc o i

theorem bin_meanErr {n d : Nat} (Q : Fin d → ℝ) (hQ : ∀ j, 0 ≤ Q j) (w : Fin n → ℝ) (hw : ∀ i, 0 ≤ w i)
    (x : Fin n → Fin d → ℝ) (p : Fin n → ℝ) (h0 : ∀ i, 0 ≤ p i) (h1 : ∀ i, p i ≤ 1) :
    Antitone fun m : ℕ => meanErr Q w x fun (o : Option (Fin m)) i => bin m (p i) (ones o) :=
  antitone_nat_of_succ_le fun m => meanErr_noisy Q hQ w hw x _
    (fun _ i => bin_nonneg (h0 i) (h1 i) _) _ (bin_noisy m p)

theorem bin_info {n : Nat} (w : Fin n → ℝ) (hw : ∀ i, 0 < w i) (hn : 0 < n) (p : Fin n → ℝ)
    (h0 : ∀ i, 0 < p i) (h1 : ∀ i, p i < 1) :
    Monotone fun m : ℕ => info w fun (o : Option (Fin m)) i => bin m (p i) (ones o) :=
  monotone_nat_of_le_succ fun m => info_noisy w hw _ (fun o i => bin_pos (h0 i) (h1 i) (ones_le o)) _
    (fun o i => bin_pos (h0 i) (h1 i) (ones_le o)) hn (bin_noisy m p)

theorem bin_info_one {n : Nat} (w : Fin n → ℝ) (h1 : ∑ i, w i = 1) (p : Fin n → ℝ) :
    info w (fun (o : Option (Fin 1)) i => bin 1 (p i) (ones o)) =
      ∑ i, w i * ((1 - p i) * Real.log ((1 - p i) / (1 - ∑ i, w i * p i)) +
        p i * Real.log (p i / ∑ i, w i * p i)) := by
  unfold info prob
  refine sum_congr rfl fun i _ => ?_
  congr 1
  rw [sum_ones (m := 1) (fun c => bin 1 (p i) c * Real.log (bin 1 (p i) c / ∑ i, w i * bin 1 (p i) c)),
    sum_range_succ, sum_range_one]
  have e : ∑ i, w i * (1 - p i) = 1 - ∑ i, w i * p i := by
    simp_rw [mul_sub, mul_one, sum_sub_distrib, h1]
  simp [bin, e]

/-- Information grows at most in proportion to the number of measurements. -/
theorem bin_info_le {n : Nat} (w : Fin n → ℝ) (hw : ∀ i, 0 < w i) (hs : ∑ i, w i = 1) (hn : 0 < n)
    (p : Fin n → ℝ) (h0 : ∀ i, 0 < p i) (h1 : ∀ i, p i < 1) (m : ℕ) :
    info w (fun (o : Option (Fin m)) i => bin m (p i) (ones o)) ≤
      m * info w (fun (o : Option (Fin 1)) i => bin 1 (p i) (ones o)) := by
  have hne : (univ : Finset (Fin n)).Nonempty := ⟨⟨0, hn⟩, mem_univ _⟩
  obtain ⟨P, hP⟩ : ∃ P, P = ∑ i, w i * p i := ⟨_, rfl⟩
  have hP0 : 0 < P := by rw [hP]; exact sum_pos (fun i _ => mul_pos (hw i) (h0 i)) hne
  have hP1 : P < 1 := by
    rw [hP, ← hs]
    exact sum_lt_sum_of_nonempty hne fun i _ => by
      have := mul_lt_mul_of_pos_left (h1 i) (hw i); linarith
  have htot : ∀ q : ℝ, ∑ o : Option (Fin m), bin m q (ones o) = 1 := fun q => by
    rw [sum_ones (fun c => bin m q c)]; exact binomial_total m q
  refine (info_le w hw hs _ (fun o i => bin_pos (h0 i) (h1 i) (ones_le o)) (fun i => htot (p i)) hn
    (fun o => bin m P (ones o)) (fun o => bin_pos hP0 hP1 (ones_le o)) (htot P)).trans_eq ?_
  rw [bin_info_one w hs p, ← hP, mul_sum]
  refine sum_congr rfl fun i _ => ?_
  rw [mul_left_comm]
  congr 1
  rw [sum_ones (fun c => bin m (p i) c * Real.log (bin m (p i) c / bin m P c))]
  have hq : 0 < 1 - p i := by linarith [h1 i]
  have hQ : 0 < 1 - P := by linarith
  have hterm : ∀ c ∈ range (m + 1), bin m (p i) c * Real.log (bin m (p i) c / bin m P c) =
      (c * bin m (p i) c) * (Real.log (p i / P) - Real.log ((1 - p i) / (1 - P))) +
        bin m (p i) c * (m * Real.log ((1 - p i) / (1 - P))) := by
    intro c hc
    have hcm : c ≤ m := by rw [mem_range] at hc; omega
    have hch : ((m.choose c : ℕ) : ℝ) ≠ 0 := by exact_mod_cast (Nat.choose_pos hcm).ne'
    have hlog : Real.log (bin m (p i) c / bin m P c) =
        c * Real.log (p i / P) + ((m : ℝ) - c) * Real.log ((1 - p i) / (1 - P)) := by
      have : bin m (p i) c / bin m P c = (p i / P) ^ c * ((1 - p i) / (1 - P)) ^ (m - c) := by
        unfold bin
        rw [div_pow, div_pow]
        have := (pow_pos hP0 c).ne'
        have := (pow_pos hQ (m - c)).ne'
        field_simp
      rw [this, Real.log_mul (pow_pos (div_pos (h0 i) hP0) _).ne' (pow_pos (div_pos hq hQ) _).ne',
        Real.log_pow, Real.log_pow, Nat.cast_sub hcm]
    rw [hlog]
    ring
  rw [sum_congr rfl hterm, sum_add_distrib, ← sum_mul, ← sum_mul]
  have hmean : ∑ c ∈ range (m + 1), (c : ℝ) * bin m (p i) c = m * p i := binomial_mean m (p i)
  have htt : ∑ c ∈ range (m + 1), bin m (p i) c = 1 := binomial_total m (p i)
  rw [hmean, htt]
  ring

end Noise

section
variable {E ω : Type} {n d : Nat} (env : Env ℝ ℤ E ω) (h2 : Spec.TwoOutcomes env.likelihood) (e : E)
  (loc : Fin n → List ℝ) (w : Fin n → ℝ)
include h2

/-- **C134, repetitions.**  The Bayes risk of a `BinomialModel` does not increase with the number of
measurements. -/
theorem C134_repetitions (Q : Fin d → ℝ) (hQ : ∀ j, 0 ≤ Q j) (hw : ∀ i, 0 ≤ w i)
    (x : Fin n → Fin d → ℝ) (m m' : ℕ) (hm : m ≤ m')
    (hr : Spec.Resolved w (Spec.shotArray env e m loc))
    (hr' : Spec.Resolved w (Spec.shotArray env e m' loc)) :
    ∃ r r', bayesRisk Q w x (Spec.shotArray env e m loc) 0 = some r ∧
      bayesRisk Q w x (Spec.shotArray env e m' loc) 0 = some r' ∧ r' ≤ r := by
  have hL : ∀ m o i, 0 ≤ Spec.shotArray env e m loc o i 0 := fun m o i =>
    binomialEnv_nonneg env h2 _ _ _
  refine ⟨_, _, Noise.bayesRisk_meanErr Q w hw x _ (hL m) hr, Noise.bayesRisk_meanErr Q w hw x _ (hL m') hr', ?_⟩
  rw [Noise.shot_all' env h2, Noise.shot_all' env h2]
  exact Noise.bin_meanErr Q hQ w hw x (fun i => env.likelihood 1 (loc i) e) (fun i => (h2 _ _).2.1)
    (fun i => by have := h2 (loc i) e; linarith) hm

/-- **C134, information of repetitions.**  The expected information gain of a `BinomialModel` does not
decrease with the number of measurements, and `m` measurements give at most `m` times the information of
one. -/
theorem C134_repetitions_information (hn : 0 < n) (hw : ∀ i, 0 < w i) (h1 : ∑ i, w i = 1)
    (hp : ∀ o, 0 ≤ o → o ≤ 1 → ∀ i, 0 < env.likelihood o (loc i) e) (m m' : ℕ) (hm : m ≤ m')
    (hr : ∀ k ∈ [1, m, m'], ∀ c, eps ≤ ∑ i, w i * Spec.shotArray env e k loc c i 0) :
    ∃ v₁ v v', infoGain w (Spec.shotArray env e 1 loc) 0 = some v₁ ∧
      infoGain w (Spec.shotArray env e m loc) 0 = some v ∧
      infoGain w (Spec.shotArray env e m' loc) 0 = some v' ∧ v ≤ v' ∧ v' ≤ m' * v₁ := by
  have h0 : ∀ i, 0 < env.likelihood 1 (loc i) e := hp 1 (by norm_num) le_rfl
  have hlt : ∀ i, env.likelihood 1 (loc i) e < 1 := fun i => by
    have := hp 0 le_rfl (by norm_num) i; have := (h2 (loc i) e).2.2; linarith
  have hpos : ∀ (k : ℕ) (o : Option (Fin k)) i, 0 < Spec.allOutcomes (Spec.shotArray env e k loc) o i :=
    fun k o i => by
      rw [Noise.shot_all env h2]; exact Noise.bin_pos (h0 i) (hlt i) (Noise.ones_le o)
  refine ⟨_, _, _, Noise.infoGain_info w _ hn hw h1 (hpos 1) (hr 1 (by simp)),
    Noise.infoGain_info w _ hn hw h1 (hpos m) (hr m (by simp)),
    Noise.infoGain_info w _ hn hw h1 (hpos m') (hr m' (by simp)), ?_, ?_⟩
  · rw [Noise.shot_all' env h2, Noise.shot_all' env h2]
    exact Noise.bin_info w hw hn _ h0 hlt hm
  · rw [Noise.shot_all' env h2, Noise.shot_all' env h2]
    exact Noise.bin_info_le w hw h1 hn _ h0 hlt m'

end

/-! ### Runs -/

namespace Spec

/-- The data of a run in which each experiment is chosen from the outcomes before it. -/
def performed {O E : Type*} (design : List O → E) : List O → List (O × E)
  | [] => []
  | o :: os => (o, design []) :: performed (fun h => design (o :: h)) os

/-- Mean squared error of an estimate computed from the outcomes of `T` experiments, when the truth is
particle `i` with probability `w i` and outcomes follow the likelihood. -/
noncomputable def runError {n d : Nat} {O E : Type*} [Fintype O] (Q : Fin d → ℝ) (w : Fin n → ℝ)
    (x : Fin n → Fin d → ℝ) (like : O → List ℝ → E → ℝ) (design : List O → E) (T : ℕ)
    (est : List O → Fin d → ℝ) : ℝ :=
  ∑ i, w i * ∑ os : Fin T → O, dataLike like (performed design (List.ofFn os)) (List.ofFn (x i)) *
    ∑ j, Q j * (x i j - est (List.ofFn os) j) ^ 2

end Spec

namespace Noise

section
variable {n d : Nat} {O O' E : Type} [Fintype O] [Fintype O'] (Q : Fin d → ℝ) (x : Fin n → Fin d → ℝ)

/-- The mean error of the posterior mean, outcome by outcome. -/
noncomputable def optErr (L : O → Fin n → E → ℝ) : ℕ → (List O → E) → (Fin n → ℝ) → ℝ
  | 0, _, u => minErr Q u x
  | T + 1, design, u => ∑ o, optErr L T (fun h => design (o :: h)) fun i => u i * L o i (design [])

/-- The mean error of any estimate, outcome by outcome. -/
noncomputable def anyErr (L : O → Fin n → E → ℝ) :
    ℕ → (List O → E) → (List O → Fin d → ℝ) → (Fin n → ℝ) → ℝ
  | 0, _, est, u => sqErr Q u x (est [])
  | T + 1, design, est, u => ∑ o, anyErr L T (fun h => design (o :: h)) (fun h => est (o :: h))
      fun i => u i * L o i (design [])

theorem anyErr_linear (L : O → Fin n → E → ℝ) (T : ℕ) (design : List O → E) (est : List O → Fin d → ℝ)
    (M : O' → ℝ) (u : O' → Fin n → ℝ) :
    anyErr Q x L T design est (fun i => ∑ a, M a * u a i) = ∑ a, M a * anyErr Q x L T design est (u a) := by
  induction T generalizing design est u with
  | zero =>
    simp only [anyErr]
    rw [sqErr_sum Q (fun a i => M a * u a i) x]
    exact sum_congr rfl fun a _ => sqErr_smul Q _ _ x _
  | succ T ih =>
    simp only [anyErr]
    simp_rw [mul_sum]
    rw [sum_comm]
    refine sum_congr rfl fun o _ => ?_
    rw [← ih]
    congr 1
    funext i
    rw [sum_mul]
    exact sum_congr rfl fun a _ => by ring

theorem exists_le_mean (M f : O' → ℝ) (hM : ∀ o, 0 ≤ M o) (h1 : ∑ o, M o = 1) :
    ∃ o, f o ≤ ∑ o', M o' * f o' := by
  by_contra h
  push Not at h
  obtain ⟨c, hc⟩ : ∃ c, c = ∑ o', M o' * f o' := ⟨_, rfl⟩
  rw [← hc] at h
  have h2 : c ≤ ∑ o', M o' * f o' := by
    calc c = ∑ o', M o' * c := by rw [← sum_mul, h1, one_mul]
      _ ≤ _ := sum_le_sum fun o _ => mul_le_mul_of_nonneg_left (h o).le (hM o)
  obtain ⟨o, -, ho⟩ := exists_lt_of_sum_lt (s := univ) (f := fun _ : O' => (0 : ℝ)) (g := M) (by simp [h1])
  have h3 : ∑ o', M o' * c < ∑ o', M o' * f o' :=
    sum_lt_sum (fun o _ => mul_le_mul_of_nonneg_left (h o).le (hM o))
      ⟨o, mem_univ o, mul_lt_mul_of_pos_left (h o) ho⟩
  rw [← sum_mul, h1, one_mul, ← hc] at h3
  exact lt_irrefl _ h3

section
variable (hQ : ∀ j, 0 ≤ Q j) (L : O → Fin n → E → ℝ) (L' : O' → Fin n → E → ℝ)
  (hL : ∀ o i e, 0 ≤ L o i e)
  (h : ∀ e, Spec.NoisyVersion (fun o i => L o i e) (fun o i => L' o i e))
include hQ hL h

/-- One step of a noisy run: the error is a mean over what the noise did to each outcome. -/
theorem anyErr_step (T : ℕ) (design : List O' → E) (est : List O' → Fin d → ℝ) (u : Fin n → ℝ) :
    ∃ M : O → O' → ℝ, (∀ o o', 0 ≤ M o o') ∧ (∀ o, ∑ o', M o o' = 1) ∧
      anyErr Q x L' (T + 1) design est u = ∑ o, ∑ o', M o o' *
        anyErr Q x L' T (fun h => design (o' :: h)) (fun h => est (o' :: h)) fun i => u i * L o i (design []) := by
  obtain ⟨M, hM, hM1, hM2⟩ := h (design [])
  refine ⟨M, hM, hM1, ?_⟩
  rw [sum_comm]
  simp only [anyErr]
  refine sum_congr rfl fun o' _ => ?_
  rw [← anyErr_linear Q x L' T _ _ (fun o => M o o') fun o i => u i * L o i (design [])]
  congr 1
  funext i
  have e : L' o' i (design []) = ∑ o, M o o' * L o i (design []) := hM2 o' i
  rw [e, mul_sum]
  exact sum_congr rfl fun o _ => by ring

theorem clean_exists (T : ℕ) (design : List O' → E) (est : List O' → Fin d → ℝ) (u : Fin n → ℝ)
    (hu : ∀ i, 0 ≤ u i) :
    ∃ design' : List O → E, optErr Q x L T design' u ≤ anyErr Q x L' T design est u := by
  induction T generalizing design est u with
  | zero => exact ⟨fun _ => design [], minErr_le Q hQ u hu x _⟩
  | succ T ih =>
    obtain ⟨M, hM, hM1, he⟩ := anyErr_step Q x hQ L L' hL h T design est u
    have hex : ∀ o, ∃ design' : List O → E, optErr Q x L T design' (fun i => u i * L o i (design [])) ≤
        ∑ o', M o o' * anyErr Q x L' T (fun h => design (o' :: h)) (fun h => est (o' :: h))
          fun i => u i * L o i (design []) := by
      intro o
      obtain ⟨o', ho'⟩ := exists_le_mean (M o) (fun o' => anyErr Q x L' T (fun h => design (o' :: h))
        (fun h => est (o' :: h)) fun i => u i * L o i (design [])) (hM o) (hM1 o)
      obtain ⟨dd, hd⟩ := ih (fun h => design (o' :: h)) (fun h => est (o' :: h))
        (fun i => u i * L o i (design [])) fun i => mul_nonneg (hu i) (hL o i _)
      exact ⟨dd, hd.trans ho'⟩
    choose D hD using hex
    refine ⟨fun hist => match hist with
      | [] => design []
      | o :: hist => D o hist, ?_⟩
    rw [he]
    exact sum_le_sum fun o _ => hD o

/-- With experiments fixed in advance the same experiments do. -/
theorem clean_fixed (T : ℕ) (es : ℕ → E) (est : List O' → Fin d → ℝ) (u : Fin n → ℝ)
    (hu : ∀ i, 0 ≤ u i) :
    optErr Q x L T (fun hist => es hist.length) u ≤ anyErr Q x L' T (fun hist => es hist.length) est u := by
  induction T generalizing es est u with
  | zero => exact minErr_le Q hQ u hu x _
  | succ T ih =>
    obtain ⟨M, hM, hM1, he⟩ := anyErr_step Q x hQ L L' hL h T (fun hist => es hist.length) est u
    rw [he]
    simp only [optErr]
    refine sum_le_sum fun o _ => ?_
    calc optErr Q x L T (fun hist => es (o :: hist).length) (fun i => u i * L o i (es 0))
        = ∑ o', M o o' * optErr Q x L T (fun hist => es (o :: hist).length) (fun i => u i * L o i (es 0)) := by
          rw [← sum_mul, hM1, one_mul]
      _ ≤ _ := sum_le_sum fun o' _ => mul_le_mul_of_nonneg_left
          (ih (fun t => es (t + 1)) _ _ fun i => mul_nonneg (hu i) (hL o i _)) (hM o o')

end

/-- A further experiment does not increase the error. -/
theorem optErr_more (hQ : ∀ j, 0 ≤ Q j) (L : O → Fin n → E → ℝ) (hL : ∀ o i e, 0 ≤ L o i e)
    (hL1 : ∀ i e, ∑ o, L o i e = 1) (T : ℕ) (design : List O → E) (u : Fin n → ℝ) (hu : ∀ i, 0 ≤ u i) :
    optErr Q x L (T + 1) design u ≤ optErr Q x L T design u := by
  induction T generalizing design u with
  | zero =>
    simp only [optErr]
    have e : u = fun i => ∑ o, u i * L o i (design []) := by
      funext i; rw [← mul_sum, hL1, mul_one]
    conv_rhs => rw [e]
    exact minErr_split Q hQ (fun o i => u i * L o i (design [])) (fun o i => mul_nonneg (hu i) (hL _ _ _)) x
  | succ T ih =>
    rw [optErr]
    conv_rhs => rw [optErr]
    exact sum_le_sum fun o _ => ih _ _ fun i => mul_nonneg (hu i) (hL _ _ _)

theorem anyErr_run (like : O → List ℝ → E → ℝ) (T : ℕ) (design : List O → E)
    (est : List O → Fin d → ℝ) (u : Fin n → ℝ) :
    anyErr Q x (fun o i e => like o (List.ofFn (x i)) e) T design est u =
      ∑ os : Fin T → O, sqErr Q (fun i => u i * dataLike like (Spec.performed design (List.ofFn os))
        (List.ofFn (x i))) x (est (List.ofFn os)) := by
  induction T generalizing design est u with
  | zero => simp [anyErr, Spec.performed, dataLike]
  | succ T ih =>
    rw [sum_fin_succ T fun os => sqErr Q (fun i => u i * dataLike like (Spec.performed design os)
        (List.ofFn (x i))) x (est os)]
    simp only [anyErr]
    refine sum_congr rfl fun o _ => ?_
    rw [ih]
    refine sum_congr rfl fun os _ => ?_
    congr 1
    funext i
    simp only [Spec.performed, dataLike, List.map_cons, List.prod_cons]
    ring

theorem optErr_run (like : O → List ℝ → E → ℝ) (T : ℕ) (design : List O → E) (u : Fin n → ℝ) :
    optErr Q x (fun o i e => like o (List.ofFn (x i)) e) T design u =
      ∑ os : Fin T → O, minErr Q (fun i => u i * dataLike like (Spec.performed design (List.ofFn os))
        (List.ofFn (x i))) x := by
  induction T generalizing design u with
  | zero => simp [optErr, Spec.performed, dataLike]
  | succ T ih =>
    rw [sum_fin_succ T fun os => minErr Q (fun i => u i * dataLike like (Spec.performed design os)
        (List.ofFn (x i))) x]
    simp only [optErr]
    refine sum_congr rfl fun o _ => ?_
    rw [ih]
    refine sum_congr rfl fun os _ => ?_
    congr 1
    funext i
    simp only [Spec.performed, dataLike, List.map_cons, List.prod_cons]
    ring

theorem runError_any (w : Fin n → ℝ) (like : O → List ℝ → E → ℝ) (T : ℕ) (design : List O → E)
    (est : List O → Fin d → ℝ) : Spec.runError Q w x like design T est =
      anyErr Q x (fun o i e => like o (List.ofFn (x i)) e) T design est w := by
  rw [anyErr_run]
  unfold Spec.runError sqErr
  simp_rw [mul_sum]
  rw [sum_comm]
  exact sum_congr rfl fun os _ => sum_congr rfl fun i _ => sum_congr rfl fun j _ => by ring

end

end Noise

/-- `est_mean` of an updater that has been given the data of a run, without resampling. -/
noncomputable def Spec.meanAfterRun {O E ω : Type} (cfg : SmcConfig ℝ) (env : Env ℝ O E ω) (s : Smc ℝ O ω)
    (design : List O → E) {d : Nat} (os : List O) (j : Fin d) : ℝ :=
  let t := (feed cfg env false (Spec.performed design os) s).1
  (smcMean d t.weights t.locs).getD j 0

section
variable {n d : Nat} {O O' E ω : Type} [Fintype O] [Fintype O'] (cfg : SmcConfig ℝ) (env : Env ℝ O E ω)
  (hg : GoodEnv env) (hst : Static env) (hp : cfg.policy = "error") (ht : eps ≤ cfg.zeroThresh)
  (ht1 : cfg.zeroThresh < 1) (w : Fin n → ℝ) (x : Fin n → Fin d → ℝ) (s : Smc ℝ O ω)
  (hsw : s.weights = List.ofFn w) (hsx : s.locs = List.ofFn fun i => List.ofFn (x i))
  (hw : ∀ i, 0 ≤ w i) (h1 : ∑ i, w i = 1)
  (hlike : ∀ o e i, eps ≤ env.likelihood o (List.ofFn (x i)) e)
include hg hst hp ht ht1 hsw hsx hw h1 hlike

theorem Noise.updater_error (Q : Fin d → ℝ) (design : List O → E) (T : ℕ) :
    Spec.runError Q w x env.likelihood design T (Spec.meanAfterRun cfg env s design) =
      Noise.optErr Q x (fun o i e => env.likelihood o (List.ofFn (x i)) e) T design w := by
  have hlen : s.locs.length = s.weights.length := by rw [hsw, hsx]; simp
  have hprob : IsProb s.weights := by
    rw [hsw]
    refine ⟨fun y hy => ?_, by rw [List.sum_ofFn, h1]⟩
    obtain ⟨i, rfl⟩ := (List.mem_ofFn' w y).1 hy
    exact hw i
  have hmean : ∀ os : List O, ∀ j : Fin d, Spec.meanAfterRun cfg env s design os j =
      (∑ i, w i * dataLike env.likelihood (Spec.performed design os) (List.ofFn (x i)) * x i j) /
        ∑ i, w i * dataLike env.likelihood (Spec.performed design os) (List.ofFn (x i)) := by
    intro os j
    have hok : (feed cfg env false (Spec.performed design os) s).2 = .ok () := by
      refine feed_runs cfg env hg hst ht1 _ s hlen hprob fun c _ y hy => ?_
      rw [hsx] at hy
      obtain ⟨i, rfl⟩ := (List.mem_ofFn' _ y).1 hy
      exact hlike _ _ i
    obtain ⟨e1, e2, -⟩ := feed_closed cfg env hg hst hp ht ht1 _ s hlen hprob hok
    unfold Spec.meanAfterRun
    dsimp only
    rw [smcMean_getD d _ _ j j.2, e1, e2]
    unfold dataPosterior
    have hev : dataEvidence env.likelihood s.weights s.locs (Spec.performed design os) =
        ∑ i, w i * dataLike env.likelihood (Spec.performed design os) (List.ofFn (x i)) := by
      unfold dataEvidence
      rw [zip_map_sum (fun a (b : List ℝ) => a * dataLike env.likelihood (Spec.performed design os) b) _ _ 0 []
        hlen, hsw, hsx, List.length_ofFn, Finset.sum_range]
      simp
    rw [hev]
    obtain ⟨N, hN⟩ : ∃ N, N = ∑ i, w i * dataLike env.likelihood (Spec.performed design os) (List.ofFn (x i)) :=
      ⟨_, rfl⟩
    rw [← hN]
    have hz : (List.map (fun p : ℝ × List ℝ => p.1 * dataLike env.likelihood (Spec.performed design os) p.2 / N)
        (s.weights.zip s.locs)) =
        List.ofFn fun i => w i * dataLike env.likelihood (Spec.performed design os) (List.ofFn (x i)) / N := by
      rw [hsw, hsx]
      apply List.ext_getElem <;> simp
    rw [hz, zip_map_sum (fun a (b : List ℝ) => a * b.getD j 0) _ _ 0 [] (by rw [hsx]; simp), hsx,
      List.length_ofFn, Finset.sum_range, sum_div]
    refine sum_congr rfl fun i _ => ?_
    simp
    ring
  rw [Noise.optErr_run, Noise.runError_any, Noise.anyErr_run]
  refine sum_congr rfl fun os _ => ?_
  unfold Noise.minErr
  congr 1
  funext j
  exact hmean _ j

variable (Q : Fin d → ℝ) (hQ : ∀ j, 0 ≤ Q j) (like' : O' → List ℝ → E → ℝ)
include hQ

/-- **C134, adaptive runs.**  Whatever experiments are chosen on the way and whatever is estimated from
noisy outcomes, there is a way to choose the experiments without the noise so that the updater's
`est_mean` has at most the same mean squared error, over truths drawn from the initial cloud. -/
theorem C134_adaptive_runs
    (h : ∀ e, Spec.NoisyVersion (fun o i => env.likelihood o (List.ofFn (x i)) e)
      (fun o i => like' o (List.ofFn (x i)) e))
    (T : ℕ) (design' : List O' → E) (est' : List O' → Fin d → ℝ) :
    ∃ design : List O → E,
      Spec.runError Q w x env.likelihood design T (Spec.meanAfterRun cfg env s design) ≤
        Spec.runError Q w x like' design' T est' := by
  obtain ⟨design, hd⟩ := Noise.clean_exists Q x hQ (fun o i e => env.likelihood o (List.ofFn (x i)) e)
    (fun o i e => like' o (List.ofFn (x i)) e) (fun o i e => hg.like_nonneg _ _ _) h T design' est' w hw
  refine ⟨design, ?_⟩
  rw [Noise.updater_error cfg env hg hst hp ht ht1 w x s hsw hsx hw h1 hlike, Noise.runError_any]
  exact hd

/-- **C134, fixed experiments.**  If the experiments are fixed in advance, the same experiments without
the noise lead to at most the same mean squared error. -/
theorem C134_fixed_runs
    (h : ∀ e, Spec.NoisyVersion (fun o i => env.likelihood o (List.ofFn (x i)) e)
      (fun o i => like' o (List.ofFn (x i)) e))
    (T : ℕ) (es : ℕ → E) (est' : List O' → Fin d → ℝ) :
    Spec.runError Q w x env.likelihood (fun h => es h.length) T
        (Spec.meanAfterRun cfg env s fun h => es h.length) ≤
      Spec.runError Q w x like' (fun h => es h.length) T est' := by
  rw [Noise.updater_error cfg env hg hst hp ht ht1 w x s hsw hsx hw h1 hlike, Noise.runError_any]
  exact Noise.clean_fixed Q x hQ (fun o i e => env.likelihood o (List.ofFn (x i)) e)
    (fun o i e => like' o (List.ofFn (x i)) e) (fun o i e => hg.like_nonneg _ _ _) h T es est' w hw

/-- **C134, more data.**  Performing further experiments, chosen from the outcomes in any way, does not
increase the mean squared error of `est_mean`. -/
theorem C134_more_data (hL1 : ∀ i e, ∑ o, env.likelihood o (List.ofFn (x i)) e = 1)
    (design : List O → E) (T T' : ℕ) (hT : T ≤ T') :
    Spec.runError Q w x env.likelihood design T' (Spec.meanAfterRun cfg env s design) ≤
      Spec.runError Q w x env.likelihood design T (Spec.meanAfterRun cfg env s design) := by
  rw [Noise.updater_error cfg env hg hst hp ht ht1 w x s hsw hsx hw h1 hlike,
    Noise.updater_error cfg env hg hst hp ht ht1 w x s hsw hsx hw h1 hlike]
  exact antitone_nat_of_succ_le (f := fun T => Noise.optErr Q x
    (fun o i e => env.likelihood o (List.ofFn (x i)) e) T design w)
    (fun T => Noise.optErr_more Q x hQ _ (fun o i e => hg.like_nonneg _ _ _) hL1 T design w hw) hT

end

/-! ### Models -/

namespace Noise

/-- A flip of the reported outcome with probabilities that are the same for all hypotheses. -/
theorem two_noisy {K : Type*} [Field K] [LinearOrder K] [IsStrictOrderedRing K] {n : Nat}
    (q q' : Fin n → K) (a b : K) (ha : 0 ≤ a ∧ a ≤ 1) (hb : 0 ≤ b ∧ b ≤ 1)
    (h : ∀ i, q' i = q i * a + (1 - q i) * b) :
    Spec.NoisyVersion (fun (o : Fin 2) i => twoOutcome (q i) (o : ℕ))
        (fun (o : Fin 2) i => twoOutcome (q' i) (o : ℕ)) ∧
      Spec.NoisyVersion (Spec.allOutcomes fun (_ : Fin 1) i _ => q i)
        (Spec.allOutcomes fun (_ : Fin 1) i _ => q' i) := by
  refine ⟨⟨fun o o' => if o = 0 then (if o' = 0 then a else 1 - a) else (if o' = 0 then b else 1 - b), ?_, ?_, ?_⟩,
    ⟨fun o o' => match o, o' with
      | some _, some _ => a
      | some _, none => 1 - a
      | none, some _ => b
      | none, none => 1 - b, ?_, ?_, ?_⟩⟩
  · intro o o'
    dsimp only
    split_ifs <;> linarith [ha.1, ha.2, hb.1, hb.2]
  · intro o
    simp only [Fin.sum_univ_two]
    fin_cases o <;> simp
  · intro o' i
    simp only [Fin.sum_univ_two]
    fin_cases o' <;> simp [twoOutcome, h] <;> ring
  · intro o o'
    cases o <;> cases o' <;> simp <;> linarith [ha.1, ha.2, hb.1, hb.2]
  · intro o
    cases o <;> simp
  · intro o' i
    cases o' <;> simp [Spec.allOutcomes, h] <;> ring

end Noise

section
variable {K : Type*} [Field K] [LinearOrder K] [IsStrictOrderedRing K] {n d : Nat}

/-- **C134, coins.**  A `NoisyCoinModel` experiment is a noisy version of the `CoinModel` experiment, and
no `NoisyCoinModel` experiment has a lower Bayes risk. -/
theorem C134_noisy_coin (p : Fin n → K) (a b : K) (ha : 0 ≤ a ∧ a ≤ 1) (hb : 0 ≤ b ∧ b ≤ 1) :
    Spec.NoisyVersion (fun (o : Fin 2) i => twoOutcome (coinPr0 (p i)) (o : ℕ))
        (fun (o : Fin 2) i => twoOutcome (noisyCoinPr0 (p i) a b) (o : ℕ)) ∧
      ∀ (Q : Fin d → K) (w : Fin n → K) (x : Fin n → Fin d → K), (∀ j, 0 ≤ Q j) → (∀ i, 0 ≤ w i) →
        (∀ i, 0 ≤ p i ∧ p i ≤ 1) → Spec.Resolved w (fun (_ : Fin 1) i (_ : Fin 1) => coinPr0 (p i)) →
        Spec.Resolved w (fun (_ : Fin 1) i (_ : Fin 1) => noisyCoinPr0 (p i) a b) →
        ∃ r r', bayesRisk Q w x (fun (_ : Fin 1) i (_ : Fin 1) => coinPr0 (p i)) 0 = some r ∧
          bayesRisk Q w x (fun (_ : Fin 1) i (_ : Fin 1) => noisyCoinPr0 (p i) a b) 0 = some r' ∧ r ≤ r' := by
  have h := Noise.two_noisy (fun i => coinPr0 (p i)) (fun i => noisyCoinPr0 (p i) a b) a b ha hb
    (fun i => rfl)
  refine ⟨h.1, fun Q w x hQ hw hp hr hr' => C134_risk Q hQ w hw x _ _ ⟨fun o i => (hp i).1, fun i => ?_⟩
    ⟨fun o i => ?_, fun i => ?_⟩ hr hr' h.2⟩
  · simpa [coinPr0] using (hp i).2
  · exact add_nonneg (mul_nonneg (hp i).1 ha.1) (mul_nonneg (sub_nonneg.2 (hp i).2) hb.1)
  · simp only [sum_const, card_univ, Fintype.card_fin, one_smul, noisyCoinPr0]
    have h1 := mul_le_mul_of_nonneg_left ha.2 (hp i).1
    have h2 := mul_le_mul_of_nonneg_left hb.2 (sub_nonneg.2 (hp i).2)
    linarith

end

/-- **C134, dephasing.**  At a non-negative time, the `UnknownT2Model` experiment with faster dephasing is
a noisy version of the one with slower dephasing when the dephasing is the same for all hypotheses, and
the `SimplePrecessionModel` experiment is the one without. -/
theorem C134_dephasing {n : Nat} (ω : Fin n → ℝ) (T2inv T2inv' t : ℝ) (h : T2inv ≤ T2inv') (ht : 0 ≤ t) :
    Spec.NoisyVersion (fun (o : Fin 2) i => twoOutcome (t2Pr0 (ω i) T2inv t) (o : ℕ))
        (fun (o : Fin 2) i => twoOutcome (t2Pr0 (ω i) T2inv' t) (o : ℕ)) ∧
      ∀ i, t2Pr0 (ω i) 0 t = precessionPr0 (ω i) t := by
  refine ⟨?_, fun i => ?_⟩
  · obtain ⟨r, hr⟩ : ∃ r, r = Real.exp (-t * (T2inv' - T2inv)) := ⟨_, rfl⟩
    have h0 : 0 < r := by rw [hr]; exact Real.exp_pos _
    have h1 : r ≤ 1 := by
      rw [hr, Real.exp_le_one_iff]
      have := mul_nonneg ht (sub_nonneg.2 h)
      linarith
    refine (Noise.two_noisy _ _ ((1 + r) / 2) ((1 - r) / 2) ⟨by linarith, by linarith⟩
      ⟨by linarith, by linarith⟩ fun i => ?_).1
    have e : Real.exp (-t * T2inv') = Real.exp (-t * T2inv) * r := by
      rw [hr, ← Real.exp_add]; congr 1; ring
    simp only [t2Pr0, e]
    ring
  · simp only [t2Pr0, precessionPr0, inversionPr0, mul_zero, Real.exp_zero, sub_zero, mul_comm]
    ring

/-- **C134, limit.**  Noise that depends on the hypothesis can help: with the same frequency and different
dephasing, the `UnknownT2Model` experiment has a lower Bayes risk than the one without dephasing. -/
theorem C134_informative_noise : ∃ (ω t : ℝ) (T2inv : Fin 2 → ℝ) (r r' : ℝ), (∀ i, 0 ≤ T2inv i) ∧
    bayesRisk ![0, 1] (fun _ : Fin 2 => 1 / 2) (fun i => ![ω, T2inv i])
      (fun (_ : Fin 1) _ (_ : Fin 1) => precessionPr0 ω t) 0 = some r ∧
    bayesRisk ![0, 1] (fun _ : Fin 2 => 1 / 2) (fun i => ![ω, T2inv i])
      (fun (_ : Fin 1) i (_ : Fin 1) => t2Pr0 ω (T2inv i) t) 0 = some r' ∧ r' < r := by
  have he : (eps : ℝ) ≤ 1 / 100 := by unfold eps; norm_num
  have hc : Real.cos (2 * Real.pi / 3 * 1 / 2) = 1 / 2 := by
    rw [show 2 * Real.pi / 3 * 1 / 2 = Real.pi / 3 by ring, Real.cos_pi_div_three]
  have hp : precessionPr0 (2 * Real.pi / 3) 1 = 1 / 4 := by
    rw [precessionPr0, inversionPr0, show 1 * (2 * Real.pi / 3 - 0) / 2 = 2 * Real.pi / 3 * 1 / 2 by ring, hc]
    norm_num
  have h0 : t2Pr0 (2 * Real.pi / 3) 0 1 = 1 / 4 := by
    simp only [t2Pr0, hc]; norm_num
  have h1 : t2Pr0 (2 * Real.pi / 3) (Real.log 2) 1 = 3 / 8 := by
    have : Real.exp (-1 * Real.log 2) = 1 / 2 := by
      rw [neg_one_mul, Real.exp_neg, Real.exp_log (by norm_num)]; norm_num
    simp only [t2Pr0, hc, this]; norm_num
  have hl : 0 < Real.log 2 := Real.log_pos (by norm_num)
  have hT : (fun (_ : Fin 1) (i : Fin 2) (_ : Fin 1) => t2Pr0 (2 * Real.pi / 3) (![0, Real.log 2] i) 1) =
      fun _ i _ => ![1 / 4, 3 / 8] i := by
    funext _ i _
    fin_cases i
    · exact h0
    · exact h1
  refine ⟨2 * Real.pi / 3, 1, ![0, Real.log 2], _, _, ?_,
    Noise.bayesRisk_meanErr _ _ (fun _ => by norm_num) _ _ (fun _ _ => by rw [hp]; norm_num) ⟨fun o => Or.inr ?_, ?_⟩,
    Noise.bayesRisk_meanErr _ _ (fun _ => by norm_num) _ _ ?_ ⟨fun o => Or.inr ?_, ?_⟩, ?_⟩
  · intro i; fin_cases i
    · exact le_rfl
    · exact hl.le
  · simp only [Spec.allOutcomes, hp]; norm_num; linarith
  · simp only [Spec.allOutcomes, hp]; norm_num
  · intro o i
    have : t2Pr0 (2 * Real.pi / 3) (![0, Real.log 2] i) 1 = ![1 / 4, 3 / 8] i :=
      congrFun (congrFun (congrFun hT 0) i) 0
    rw [this]; fin_cases i <;> norm_num
  · rw [hT]; simp only [Spec.allOutcomes, Fin.sum_univ_two]; norm_num; linarith
  · rw [hT]; simp only [Spec.allOutcomes, Fin.sum_univ_two]; norm_num
  · rw [hT, hp]
    have h2 := mul_pos hl hl
    simp only [Noise.meanErr, Noise.minErr, Noise.sqErr, Spec.allOutcomes, Fintype.sum_option, Fin.sum_univ_two]
    norm_num
    nlinarith [h2]

/-! ### Cases -/

/-- Case for C134: a perfect reading of a coin and a bad one. -/
example : Spec.Resolved (fun _ : Fin 2 => (1 / 2 : ℚ)) (fun (_ : Fin 1) i (_ : Fin 1) => coinPr0 (![1 / 4, 3 / 4] i)) ∧
    Spec.Resolved (fun _ : Fin 2 => (1 / 2 : ℚ))
      (fun (_ : Fin 1) i (_ : Fin 1) => noisyCoinPr0 (![1 / 4, 3 / 4] i) (9 / 10) (2 / 10)) ∧
    bayesRisk ![1] (fun _ : Fin 2 => (1 / 2 : ℚ)) ![![1 / 4], ![3 / 4]]
      (fun (_ : Fin 1) i (_ : Fin 1) => coinPr0 (![1 / 4, 3 / 4] i)) 0 = some (3 / 64) ∧
    bayesRisk ![1] (fun _ : Fin 2 => (1 / 2 : ℚ)) ![![1 / 4], ![3 / 4]]
      (fun (_ : Fin 1) i (_ : Fin 1) => noisyCoinPr0 (![1 / 4, 3 / 4] i) (9 / 10) (2 / 10)) 0 = some (347 / 6336) := by
  refine ⟨?_, ?_, ?_, ?_⟩
  · unfold Spec.Resolved; decide +kernel
  · unfold Spec.Resolved; decide +kernel
  · decide +kernel
  · decide +kernel

/-- Case for C134: repeated tosses of two coins. -/
example : ∃ v₁ v v', infoGain (fun _ : Fin 2 => 1 / 2) (Spec.shotArray shotEnv () 1 ![[0], [1]]) 0 = some v₁ ∧
    infoGain (fun _ : Fin 2 => 1 / 2) (Spec.shotArray shotEnv () 2 ![[0], [1]]) 0 = some v ∧
    infoGain (fun _ : Fin 2 => 1 / 2) (Spec.shotArray shotEnv () 3 ![[0], [1]]) 0 = some v' ∧
    v ≤ v' ∧ v' ≤ (3 : ℕ) * v₁ := by
  have hlike : ∀ o x e, 1 / 4 ≤ shotEnv.likelihood o x e := fun o x e => by
    have h1 := Real.neg_one_le_sin (x.getD 0 0)
    have h2 := Real.sin_le_one (x.getD 0 0)
    simp only [shotEnv]
    split_ifs <;> linarith
  have he : (eps : ℝ) ≤ 1 / 100 := by unfold eps; norm_num
  refine C134_repetitions_information shotEnv shotEnv_two () ![[0], [1]] _ (by norm_num) (fun _ => by norm_num)
    (by norm_num) (fun o _ _ i => by linarith [hlike o (![[0], [1]] i) ()]) 2 3 (by norm_num) fun k hk c => ?_
  have hb : ∀ i : Fin 2, 1 / 64 ≤ Spec.shotArray shotEnv () k ![[0], [1]] c i 0 := fun i => by
    have := Noise.shot_all shotEnv shotEnv_two () (m := k) (loc := ![[0], [1]]) (some c) i
    simp only [Spec.allOutcomes] at this
    rw [this]
    have h1 := hlike 1 (![[0], [1]] i) ()
    have h0 := hlike 0 (![[0], [1]] i) ()
    have hs := (shotEnv_two (![[0], [1]] i) ()).2.2
    obtain ⟨p, hp⟩ : ∃ p, p = shotEnv.likelihood 1 (![[0], [1]] i) () := ⟨_, rfl⟩
    rw [← hp] at h1 hs ⊢
    have hq : 1 / 4 ≤ 1 - p := by linarith
    have hc : (c : ℕ) ≤ k := c.2.le
    have hk3 : k ≤ 3 := by
      simp only [List.mem_cons, List.not_mem_nil, or_false] at hk
      omega
    have h2 : (1 / 4 : ℝ) ^ k ≤ p ^ (c : ℕ) * (1 - p) ^ (k - c) := by
      calc (1 / 4 : ℝ) ^ k = (1 / 4) ^ (c : ℕ) * (1 / 4) ^ (k - c) := by rw [← pow_add]; congr 1; omega
        _ ≤ _ := mul_le_mul (pow_le_pow_left₀ (by norm_num) h1 _) (pow_le_pow_left₀ (by norm_num) hq _)
            (by positivity) (pow_nonneg (by linarith) _)
    have h3 : (1 / 64 : ℝ) ≤ (1 / 4) ^ k := by
      calc (1 / 64 : ℝ) = (1 / 4) ^ 3 := by norm_num
        _ ≤ _ := pow_le_pow_of_le_one (by norm_num) (by norm_num) hk3
    have h4 : (1 : ℝ) ≤ k.choose c := by exact_mod_cast Nat.choose_pos hc
    have h5 : 0 ≤ p ^ (c : ℕ) * (1 - p) ^ (k - c) := by linarith [pow_pos (show (0 : ℝ) < 1 / 4 by norm_num) k]
    show 1 / 64 ≤ k.choose c * p ^ (c : ℕ) * (1 - p) ^ (k - c)
    nlinarith
  rw [Fin.sum_univ_two]
  linarith [hb 0, hb 1]

/-- Case for C134: three tosses of one of two coins, read perfectly, and read with errors. -/
example (est' : List (Option (Fin 1)) → Fin 1 → ℝ) :
    Spec.runError ![1] (fun _ : Fin 2 => 1 / 2) ![![1 / 4], ![1 / 2]] promiseCoins.likelihood (fun _ => ()) 3
        (Spec.meanAfterRun ⟨0, "error", eps, false⟩ promiseCoins promiseStart fun _ => ()) ≤
      Spec.runError ![1] (fun _ : Fin 2 => 1 / 2) ![![1 / 4], ![1 / 2]]
        (fun (o : Option (Fin 1)) x e => (3 / 4) * promiseCoins.likelihood o x e + 1 / 8) (fun _ => ()) 3 est' := by
  have ht : (eps : ℝ) < 1 := lt_of_le_of_lt eps_real_le (by norm_num)
  refine C134_fixed_runs ⟨0, "error", eps, false⟩ promiseCoins promiseCoins_good (fun _ _ _ => rfl) rfl le_rfl ht
    (fun _ : Fin 2 => 1 / 2) ![![1 / 4], ![1 / 2]] promiseStart (by simp [promiseStart])
    (by simp [promiseStart]) (fun _ => by norm_num) (by norm_num) (fun o e i => ?_) ![1] (by simp) _
    (fun e => ⟨fun o o' => if o = o' then 7 / 8 else 1 / 8, fun o o' => ?_, fun o => ?_, fun o' i => ?_⟩) 3 (fun _ => ()) est'
  · have : (eps : ℝ) ≤ 1 / 100 := by unfold eps; norm_num
    simp only [promiseCoins]
    split_ifs <;> linarith
  · dsimp only; split_ifs <;> norm_num
  · cases o with
    | none => simp [Fintype.sum_option]; norm_num
    | some o => simp [Fintype.sum_option, Subsingleton.elim o 0]; norm_num
  · have := promiseCoins_sum (List.ofFn ((![![1 / 4], ![1 / 2]] : Fin 2 → Fin 1 → ℝ) i)) e
    rw [Fintype.sum_option, Fin.sum_univ_one] at this
    dsimp only
    rw [Fintype.sum_option, Fin.sum_univ_one]
    cases o' with
    | none => simp only [if_true, reduceCtorEq, if_false]; linarith
    | some o' =>
      rw [Subsingleton.elim o' 0]
      simp only [if_true, reduceCtorEq, if_false]; linarith

end QInfer
