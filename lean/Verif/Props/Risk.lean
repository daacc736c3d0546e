import Verif.Lemmas.Particle
import Verif.Lemmas.SmcFields
import Mathlib.Algebra.BigOperators.Field

/-!
# Properties of `bayes_risk` and `expected_information_gain`: C14, C15
-/

set_option linter.unusedSectionVars false

namespace QInfer

open Finset

section
variable {K : Type*} [Field K] [LinearOrder K] [IsStrictOrderedRing K]
variable {n d k m : Nat}

/-! ## The array formulas agree with `hypothetical_update` of the updater model -/

/-- The formulas `hypN`, `hypW` used below are the ones of the updater model `hypCell`. -/
theorem hypW_matches_hypCell {O E ω : Type*} (env : Env K O E ω) (w : Fin n → K)
    (x : Fin n → List K) (o : O) (e : E) :
    hypCell env (List.ofFn w) (List.ofFn x) o e =
      .ok (List.ofFn (hypW w (fun (_ : Fin 1) i (_ : Fin 1) => env.likelihood o (x i) e) 0 0),
        List.ofFn (fun i => env.likelihood o (x i) e),
        hypN w (fun (_ : Fin 1) i (_ : Fin 1) => env.likelihood o (x i) e) 0 0) := by
  have hz : List.zipWith (fun a b => a * b) (List.ofFn w)
      (List.ofFn fun i => env.likelihood o (x i) e) =
      List.ofFn fun i => w i * env.likelihood o (x i) e := by
    apply List.ext_getElem <;> simp
  have hrow : env.likeRow (List.ofFn x) o e = List.ofFn fun i => env.likelihood o (x i) e := by
    unfold Env.likeRow; rw [List.map_ofFn]; rfl
  unfold hypCell
  simp only [hrow, bcast, List.length_ofFn, if_true, hz, List.sum_ofFn, List.map_ofFn]
  rfl

/-! ## C14 -/

/-- Variance of a normalised vector `u / N`, times `N`. -/
theorem qvar_scaled (Q : Fin d → K) (u : Fin n → K) (x : Fin n → Fin d → K) (N : K)
    (hN : ∑ i, u i = N) (hN0 : N ≠ 0) :
    N * qvar Q (fun i => u i / N) x =
      ∑ j, Q j * ((∑ i, u i * x i j ^ 2) - N * pmean (fun i => u i / N) x j ^ 2) := by
  unfold qvar
  rw [mul_sum]
  have : ∀ i, N * (u i / N * ∑ j, Q j * (x i j - pmean (fun i => u i / N) x j) ^ 2) =
      ∑ j, Q j * (u i * (x i j - pmean (fun i => u i / N) x j) ^ 2) := by
    intro i
    rw [mul_sum, mul_sum]
    refine sum_congr rfl fun j _ => ?_
    field_simp
  simp only [this]
  rw [sum_comm]
  refine sum_congr rfl fun j _ => ?_
  rw [← mul_sum]
  congr 1
  set μ := pmean (fun i => u i / N) x j with hμ
  have hμ' : ∑ i, u i * x i j = N * μ := by
    rw [hμ, pmean, mul_sum]
    exact sum_congr rfl fun i _ => by field_simp
  have : ∀ i, u i * (x i j - μ) ^ 2 = u i * x i j ^ 2 - 2 * μ * (u i * x i j) + μ ^ 2 * u i :=
    fun i => by ring
  simp only [this, sum_add_distrib, sum_sub_distrib, ← mul_sum, hμ', hN]
  ring

/-- The hypothetical mean of every outcome, as a function of the outcome index; the last outcome is
`none`. -/
def hypMean (w : Fin n → K) (x : Fin n → Fin d → K) (L : Fin k → Fin n → Fin m → K) (e : Fin m) :
    Option (Fin k) → Fin d → K
  | some o => fun j => (∑ i, w i * L o i e * x i j) / ∑ i, w i * L o i e
  | none => fun j => (∑ i, w i * (1 - ∑ o, L o i e) * x i j) / ∑ i, w i * (1 - ∑ o, L o i e)

/-- The probability of every outcome. -/
def hypProb (w : Fin n → K) (L : Fin k → Fin n → Fin m → K) (e : Fin m) : Option (Fin k) → K
  | some o => ∑ i, w i * L o i e
  | none => ∑ i, w i * (1 - ∑ o, L o i e)

/-- The `Q`-weighted variance of the current posterior. -/
def curVar (Q : Fin d → K) (w : Fin n → K) (x : Fin n → Fin d → K) : K :=
  ∑ j, Q j * ∑ i, w i * (x i j - ∑ i', w i' * x i' j) ^ 2

theorem hypW_eq (w : Fin n → K) (L : Fin k → Fin n → Fin m → K) (o : Fin k) (e : Fin m)
    (h : eps ≤ hypN w L o e) : hypW w L o e = fun i => w i * L o i e / hypN w L o e := by
  funext i
  unfold hypW
  rw [if_neg]
  rw [abs_of_nonneg (eps_pos.le.trans h)]
  exact not_lt.2 h

/-- **C14, decomposition.**  If the last outcome has non-zero probability and every other outcome is
either impossible or not below the float spacing, the Bayes risk is the current `Q`-weighted variance
minus the `Q`-weighted variance of the hypothetical means. -/
theorem C14_risk_decomposition (Q : Fin d → K) (w : Fin n → K) (x : Fin n → Fin d → K)
    (L : Fin k → Fin n → Fin m → K) (e : Fin m) (hw : ∀ i, 0 ≤ w i) (h1 : ∑ i, w i = 1)
    (hL : ∀ o i, 0 ≤ L o i e)
    (hlast : hypProb w L e none ≠ 0)
    (hne : ∀ o, hypProb w L e (some o) = 0 ∨ eps ≤ hypProb w L e (some o)) :
    ∃ r, bayesRisk Q w x L e = some r ∧
      r = curVar Q w x - ∑ o : Option (Fin k), hypProb w L e o *
        ∑ j, Q j * (hypMean w x L e o j - ∑ i, w i * x i j) ^ 2 := by
  have hlast' : lastN w L e = hypProb w L e none := by
    unfold lastN lastRaw hypProb
    exact sum_congr rfl fun i _ => by ring
  unfold bayesRisk
  rw [if_neg (by rw [hlast']; exact hlast)]
  refine ⟨_, rfl, ?_⟩
  -- each outcome
  have hcell : ∀ o, hypN w L o e * qvar Q (hypW w L o e) x =
      ∑ j, Q j * ((∑ i, w i * L o i e * x i j ^ 2) -
        hypProb w L e (some o) * hypMean w x L e (some o) j ^ 2) := by
    intro o
    rcases hne o with h | h
    · have hz : ∀ i, w i * L o i e = 0 := fun i =>
        (sum_eq_zero_iff_of_nonneg fun i _ => mul_nonneg (hw i) (hL o i)).1 h i (mem_univ i)
      have : hypN w L o e = 0 := h
      rw [this, h, zero_mul]
      simp [hz]
    · have hpos : hypN w L o e ≠ 0 := (lt_of_lt_of_le eps_pos h).ne'
      rw [hypW_eq w L o e h, qvar_scaled Q (fun i => w i * L o i e) x (hypN w L o e) rfl hpos]
      refine sum_congr rfl fun j _ => ?_
      congr 3
      unfold pmean hypMean
      dsimp only
      rw [sum_div]
      congr 1
      exact sum_congr rfl fun i _ => by simp only [hypN]; ring
  have hlastcell : lastN w L e * qvar Q (fun i => lastRaw w L e i / lastN w L e) x =
      ∑ j, Q j * ((∑ i, w i * (1 - ∑ o, L o i e) * x i j ^ 2) -
        hypProb w L e none * hypMean w x L e none j ^ 2) := by
    rw [qvar_scaled Q (lastRaw w L e) x (lastN w L e) rfl (by rw [hlast']; exact hlast)]
    refine sum_congr rfl fun j _ => ?_
    rw [hlast']
    congr 2
    · exact sum_congr rfl fun i _ => by unfold lastRaw; ring
    · congr 2
      unfold pmean hypMean hypProb lastRaw
      dsimp only
      rw [sum_div]
      exact sum_congr rfl fun i _ => by ring
  simp only [hcell, hlastcell]
  -- the means average to the current mean
  have havg : ∀ j, ∑ o : Option (Fin k), hypProb w L e o * hypMean w x L e o j = ∑ i, w i * x i j := by
    intro j
    rw [Fintype.sum_option]
    have a : hypProb w L e none * hypMean w x L e none j =
        ∑ i, w i * (1 - ∑ o, L o i e) * x i j := by
      unfold hypMean; rw [mul_div_assoc']
      unfold hypProb at hlast ⊢
      field_simp
    have b : ∀ o, hypProb w L e (some o) * hypMean w x L e (some o) j =
        ∑ i, w i * L o i e * x i j := by
      intro o
      by_cases h : hypProb w L e (some o) = 0
      · have hz : ∀ i, w i * L o i e = 0 := fun i =>
          (sum_eq_zero_iff_of_nonneg fun i _ => mul_nonneg (hw i) (hL o i)).1 h i (mem_univ i)
        rw [h]; simp [hz]
      · unfold hypMean; rw [mul_div_assoc']
        unfold hypProb at h ⊢
        field_simp
    rw [a, sum_congr rfl fun o _ => b o, sum_comm, ← sum_add_distrib]
    refine sum_congr rfl fun i _ => ?_
    rw [← sum_mul, ← mul_sum]; ring
  have hsum1 : ∑ o : Option (Fin k), hypProb w L e o = 1 := by
    rw [Fintype.sum_option]
    unfold hypProb
    simp only
    rw [sum_comm, ← sum_add_distrib]
    refine Eq.trans ?_ h1
    refine sum_congr rfl fun i _ => ?_
    rw [← mul_sum]; ring
  -- rearrange
  have hgap : ∑ o : Option (Fin k), hypProb w L e o *
      ∑ j, Q j * (hypMean w x L e o j - ∑ i, w i * x i j) ^ 2 =
      ∑ j, Q j * ((∑ o : Option (Fin k), hypProb w L e o * hypMean w x L e o j ^ 2) -
        (∑ i, w i * x i j) ^ 2) := by
    simp only [mul_sum]
    rw [sum_comm]
    refine sum_congr rfl fun j _ => ?_
    have : ∀ o : Option (Fin k), hypProb w L e o *
        (Q j * (hypMean w x L e o j - ∑ i, w i * x i j) ^ 2) =
        Q j * (hypProb w L e o * hypMean w x L e o j ^ 2) -
        2 * Q j * (∑ i, w i * x i j) * (hypProb w L e o * hypMean w x L e o j) +
        Q j * (∑ i, w i * x i j) ^ 2 * hypProb w L e o := fun o => by ring
    simp only [this, sum_add_distrib, sum_sub_distrib, ← mul_sum, havg, hsum1]
    ring
  have hcur : curVar Q w x = ∑ j, Q j * ((∑ i, w i * x i j ^ 2) - (∑ i, w i * x i j) ^ 2) := by
    unfold curVar
    refine sum_congr rfl fun j _ => ?_
    congr 1
    have : ∀ i, w i * (x i j - ∑ i', w i' * x i' j) ^ 2 = w i * x i j ^ 2 -
        2 * (∑ i', w i' * x i' j) * (w i * x i j) + (∑ i', w i' * x i' j) ^ 2 * w i :=
      fun i => by ring
    simp only [this, sum_add_distrib, sum_sub_distrib, ← mul_sum, h1]
    ring
  rw [hgap, hcur, sum_comm, ← sum_add_distrib, ← sum_sub_distrib]
  refine sum_congr rfl fun j _ => ?_
  rw [← mul_sum, ← mul_add, ← mul_sub]
  congr 1
  rw [Fintype.sum_option, sum_sub_distrib]
  have : (∑ o, ∑ i, w i * L o i e * x i j ^ 2) + ∑ i, w i * (1 - ∑ o, L o i e) * x i j ^ 2 =
      ∑ i, w i * x i j ^ 2 := by
    rw [sum_comm, ← sum_add_distrib]
    refine sum_congr rfl fun i _ => ?_
    rw [← sum_mul, ← mul_sum]; ring
  rw [← this]
  ring

/-- **C14.**  For a non-negative scale vector and likelihoods that sum to at most one over all
outcomes but the last, the Bayes risk is between zero and the current variance. -/
theorem C14_risk_bounds (Q : Fin d → K) (w : Fin n → K) (x : Fin n → Fin d → K)
    (L : Fin k → Fin n → Fin m → K) (e : Fin m) (hQ : ∀ j, 0 ≤ Q j) (hw : ∀ i, 0 ≤ w i)
    (h1 : ∑ i, w i = 1) (hL : ∀ o i, 0 ≤ L o i e) (hL1 : ∀ i, ∑ o, L o i e ≤ 1)
    (hlast : hypProb w L e none ≠ 0)
    (hne : ∀ o, hypProb w L e (some o) = 0 ∨ eps ≤ hypProb w L e (some o)) :
    ∃ r, bayesRisk Q w x L e = some r ∧ 0 ≤ r ∧ r ≤ curVar Q w x := by
  obtain ⟨r, hr, hr'⟩ := C14_risk_decomposition Q w x L e hw h1 hL hlast hne
  have hlast' : lastN w L e = hypProb w L e none := by
    unfold lastN lastRaw hypProb
    exact sum_congr rfl fun i _ => by ring
  have hq : ∀ (u : Fin n → K), (∀ i, 0 ≤ u i) → 0 ≤ qvar Q u x := fun u hu =>
    sum_nonneg fun i _ => mul_nonneg (hu i) (sum_nonneg fun j _ => mul_nonneg (hQ j) (sq_nonneg _))
  have hN : ∀ o, 0 ≤ hypN w L o e := fun o => sum_nonneg fun i _ => mul_nonneg (hw i) (hL o i)
  have hlr : ∀ i, 0 ≤ lastRaw w L e i := fun i =>
    mul_nonneg (sub_nonneg.2 (hL1 i)) (hw i)
  have hlN : 0 ≤ lastN w L e := sum_nonneg fun i _ => hlr i
  refine ⟨r, hr, ?_, ?_⟩
  · unfold bayesRisk at hr
    rw [if_neg (by rw [hlast']; exact hlast)] at hr
    rw [← Option.some.inj hr]
    refine add_nonneg (sum_nonneg fun o _ => mul_nonneg (hN o) (hq _ fun i => ?_))
      (mul_nonneg hlN (hq _ fun i => div_nonneg (hlr i) hlN))
    unfold hypW
    split
    · rw [div_one]; exact mul_nonneg (hw i) (hL o i)
    · exact div_nonneg (mul_nonneg (hw i) (hL o i)) (hN o)
  · rw [hr', sub_le_self_iff]
    refine sum_nonneg fun o _ => mul_nonneg ?_ (sum_nonneg fun j _ => mul_nonneg (hQ j) (sq_nonneg _))
    cases o with
    | some o => exact hN o
    | none => rw [← hlast']; exact hlN

/-- **C14, NaN.**  If the last outcome has probability zero, the result is NaN. -/
theorem C14_risk_nan (Q : Fin d → K) (w : Fin n → K) (x : Fin n → Fin d → K)
    (L : Fin k → Fin n → Fin m → K) (e : Fin m) (hlast : hypProb w L e none = 0) :
    bayesRisk Q w x L e = none := by
  have hlast' : lastN w L e = hypProb w L e none := by
    unfold lastN lastRaw hypProb
    exact sum_congr rfl fun i _ => by ring
  unfold bayesRisk
  rw [if_pos (by rw [hlast']; exact hlast)]

/-- Case for C14: a coin with three hypotheses; variance 1/24, risk 1/32. -/
example :
    let w : Fin 3 → ℚ := ![1/3, 1/3, 1/3]
    let x : Fin 3 → Fin 1 → ℚ := ![![1/4], ![1/2], ![3/4]]
    let L : Fin 1 → Fin 3 → Fin 1 → ℚ := fun _ i _ => x i 0
    bayesRisk ![1] w x L 0 = some (5/144) ∧ curVar ![1] w x = 1/24 ∧
      hypProb w L 0 none = 1/2 ∧ eps ≤ hypProb w L 0 (some 0) := by
  refine ⟨?_, ?_, ?_, ?_⟩ <;> decide +kernel

/-- Case for the NaN branch: every particle is sure of the first outcome. -/
example :
    let w : Fin 2 → ℚ := ![1/2, 1/2]
    let L : Fin 1 → Fin 2 → Fin 1 → ℚ := fun _ _ _ => 1
    hypProb w L 0 none = 0 := by decide +kernel

end

/-! ## C15 -/

section
variable {n k m : Nat}

theorem nanSum_some (f : Fin n → Option ℝ) (g : Fin n → ℝ) (h : ∀ i, f i = some (g i)) :
    nanSum f = some (∑ i, g i) := by
  unfold nanSum
  rw [if_pos fun i => by rw [h i]; rfl]
  simp [h]

theorem nanSum_none (f : Fin n → Option ℝ) (i : Fin n) (h : f i = none) : nanSum f = none := by
  unfold nanSum
  rw [if_neg]
  intro hall
  have := hall i
  rw [h] at this; simp at this

/-- Gibbs' inequality for two positive vectors of equal sum. -/
theorem gibbs (a b : Fin n → ℝ) (ha : ∀ i, 0 < a i) (hb : ∀ i, 0 < b i)
    (h : ∑ i, a i = ∑ i, b i) : 0 ≤ ∑ i, a i * Real.log (a i / b i) := by
  have key : ∀ i, a i - b i ≤ a i * Real.log (a i / b i) := by
    intro i
    have := Real.log_le_sub_one_of_pos (div_pos (hb i) (ha i))
    have h2 : Real.log (b i / a i) = -Real.log (a i / b i) := by
      rw [← Real.log_inv, inv_div]
    rw [h2] at this
    have h3 := mul_le_mul_of_nonneg_left this (ha i).le
    have h4 : a i * (b i / a i - 1) = b i - a i := by
      have := (ha i).ne'
      field_simp
    rw [h4] at h3
    linarith
  calc (0 : ℝ) = ∑ i, (a i - b i) := by rw [sum_sub_distrib, h, sub_self]
    _ ≤ _ := sum_le_sum fun i _ => key i

/-- **C15.**  If every particle has positive weight and gives every outcome positive probability,
and no outcome but the last is below the float spacing, the expected information gain is a number,
non-negative, and equal to the mutual information between particle and outcome. -/
theorem C15_info_gain_nonneg (w : Fin n → ℝ) (L : Fin k → Fin n → Fin m → ℝ) (e : Fin m)
    (hn : 0 < n) (hw : ∀ i, 0 < w i) (h1 : ∑ i, w i = 1) (hL : ∀ o i, 0 < L o i e)
    (hL1 : ∀ i, ∑ o, L o i e < 1) (hne : ∀ o, eps ≤ hypProb w L e (some o)) :
    ∃ v, infoGain w L e = some v ∧ 0 ≤ v ∧
      v = (∑ o, ∑ i, w i * L o i e * Real.log (L o i e / hypProb w L e (some o))) +
        ∑ i, w i * (1 - ∑ o, L o i e) *
          Real.log ((1 - ∑ o, L o i e) / hypProb w L e none) := by
  have hlast' : lastN w L e = hypProb w L e none := by
    unfold lastN lastRaw hypProb
    exact sum_congr rfl fun i _ => by ring
  have hlr : ∀ i, 0 < lastRaw w L e i := fun i => mul_pos (sub_pos.2 (hL1 i)) (hw i)
  have hlN : 0 < lastN w L e := by
    have : Nonempty (Fin n) := ⟨⟨0, hn⟩⟩
    exact sum_pos (fun i _ => hlr i) univ_nonempty
  have hNpos : ∀ o, 0 < hypN w L o e := fun o => lt_of_lt_of_le eps_pos (hne o)
  have hhyp : ∀ o i, 0 < hypW w L o e i := by
    intro o i
    rw [hypW_eq w L o e (hne o)]
    exact div_pos (mul_pos (hw i) (hL o i)) (hNpos o)
  have hkl : ∀ o, kld (hypW w L o e) w =
      some (∑ i, hypW w L o e i * Real.log (hypW w L o e i / w i)) := by
    intro o
    apply nanSum_some
    intro i
    unfold klTerm
    rw [if_pos ⟨hhyp o i, hw i⟩]
  have hkll : kld (fun i => lastRaw w L e i / lastN w L e) w =
      some (∑ i, lastRaw w L e i / lastN w L e *
        Real.log (lastRaw w L e i / lastN w L e / w i)) := by
    apply nanSum_some
    intro i
    unfold klTerm
    rw [if_pos ⟨div_pos (hlr i) hlN, hw i⟩]
  have hval : infoGain w L e = some
      ((∑ o, hypN w L o e * ∑ i, hypW w L o e i * Real.log (hypW w L o e i / w i)) +
        lastN w L e * ∑ i, lastRaw w L e i / lastN w L e *
          Real.log (lastRaw w L e i / lastN w L e / w i)) := by
    unfold infoGain
    rw [if_neg hlN.ne', hkll, nanSum_some _ (fun o => hypN w L o e *
      ∑ i, hypW w L o e i * Real.log (hypW w L o e i / w i)) (fun o => by rw [hkl o]; rfl)]
    rfl
  refine ⟨_, hval, ?_, ?_⟩
  · refine add_nonneg (sum_nonneg fun o _ => mul_nonneg (hNpos o).le ?_)
      (mul_nonneg hlN.le ?_)
    · apply gibbs _ _ (hhyp o) hw
      rw [hypW_eq w L o e (hne o), ← sum_div, h1]
      exact div_self (hNpos o).ne'
    · apply gibbs _ _ (fun i => div_pos (hlr i) hlN) hw
      rw [← sum_div, h1]
      exact div_self hlN.ne'
  · congr 1
    · refine sum_congr rfl fun o _ => ?_
      rw [mul_sum]
      refine sum_congr rfl fun i _ => ?_
      rw [hypW_eq w L o e (hne o)]
      have h2 := (hNpos o).ne'
      have h3 := (hw i).ne'
      have : w i * L o i e / hypN w L o e / w i = L o i e / hypProb w L e (some o) := by
        show _ = L o i e / hypN w L o e
        field_simp
      simp only [this]
      field_simp
    · rw [mul_sum]
      refine sum_congr rfl fun i _ => ?_
      have h2 := hlN.ne'
      have h3 := (hw i).ne'
      have : lastRaw w L e i / lastN w L e / w i = (1 - ∑ o, L o i e) / hypProb w L e none := by
        rw [← hlast']; unfold lastRaw; field_simp
      rw [this]
      unfold lastRaw
      field_simp

/-- **C15, NaN.**  If some particle of an otherwise proper cloud has weight zero, or gives some
outcome (the last one included) probability zero, the result is NaN. -/
theorem C15_info_gain_nan (w : Fin n → ℝ) (L : Fin k → Fin n → Fin m → ℝ) (e : Fin m)
    (i : Fin n) (h : w i = 0 ∨ (∃ o, L o i e = 0) ∨ ∑ o, L o i e = 1) :
    infoGain w L e = none := by
  unfold infoGain
  split
  · rfl
  · have hlast : w i = 0 ∨ ∑ o, L o i e = 1 →
        kld (fun i => lastRaw w L e i / lastN w L e) w = none := by
      intro h
      apply nanSum_none _ i
      unfold klTerm
      rw [if_neg]
      rintro ⟨h1, h2⟩
      rcases h with h | h
      · rw [h] at h2; exact lt_irrefl _ h2
      · unfold lastRaw at h1; dsimp only at h1; rw [h] at h1; simp at h1
    rcases h with h | ⟨o, h⟩ | h
    · rw [hlast (Or.inl h)]
      cases nanSum fun o => (kld (hypW w L o e) w).map (hypN w L o e * ·) <;> rfl
    · have : nanSum (fun o => (kld (hypW w L o e) w).map (hypN w L o e * ·)) = none := by
        apply nanSum_none _ o
        have : kld (hypW w L o e) w = none := by
          apply nanSum_none _ i
          unfold klTerm
          rw [if_neg]
          rintro ⟨h1, -⟩
          unfold hypW at h1; rw [h] at h1; simp at h1
        rw [this]; rfl
      rw [this]; rfl
    · rw [hlast (Or.inr h)]
      cases nanSum fun o => (kld (hypW w L o e) w).map (hypN w L o e * ·) <;> rfl

/-- Case for C15: two particles, a fair and a biased coin. -/
example :
    let w : Fin 2 → ℝ := ![1/2, 1/2]
    let L : Fin 1 → Fin 2 → Fin 1 → ℝ := fun _ i _ => ![1/2, 3/4] i
    (∀ i, 0 < w i) ∧ ∑ i, w i = 1 ∧ (∀ o i, 0 < L o i 0) ∧ (∀ i, ∑ o, L o i 0 < 1) ∧
      ∀ o, eps ≤ hypProb w L 0 (some o) := by
  refine ⟨?_, ?_, ?_, ?_, ?_⟩
  · intro i; fin_cases i <;> norm_num
  · norm_num [Fin.sum_univ_succ]
  · intro o i; fin_cases i <;> norm_num
  · intro i; fin_cases i <;> norm_num
  · intro o
    norm_num [hypProb, Fin.sum_univ_succ, eps]

end

end QInfer
