import Verif.Model.Ale
import Verif.Props.Outcome
import Mathlib.Analysis.SpecialFunctions.Sqrt
import Mathlib.Algebra.Order.Archimedean.Basic
import Mathlib.Tactic.Linarith
import Mathlib.Tactic.FieldSimp
import Mathlib.Tactic.Positivity
import Mathlib.Tactic.NormNum
import Mathlib.Tactic.Ring

/-! # C36: adaptive likelihood estimation -/

set_option linter.unusedSectionVars false
set_option linter.unusedSimpArgs false

namespace QInfer

open scoped BigOperators

/-! ## Specification -/

/-- The arguments the class documents as allowed. -/
structure AleCfg.Allowed (c : AleCfg) : Prop where
  tol_pos : 0 < c.errorTol
  tol_le : c.errorTol ≤ 1
  min_pos : 0 < c.minSamp
  step_pos : 0 < c.sampStep
  est : 0 ≤ c.estHedge
  adapt : 0 ≤ c.adaptHedge

/-- Sum of the outcomes seen in the first `R` rounds. -/
def ones {nM nE s : Nat} (sims : Nat → Fin s → Fin nM → Fin nE → ℤ) (R : Nat) (i : Fin nM)
    (j : Fin nE) : ℤ := ∑ k ∈ Finset.range R, ∑ r, sims k r i j

/-- Number of simulated outcomes in the first `R` rounds. -/
def drawn {nM nE s : Nat} (_ : Nat → Fin s → Fin nM → Fin nE → ℤ) (R : Nat) : Nat := R * s

/-- The simulator has outcomes 0 and 1. -/
def Binary {nM nE s : Nat} (sims : Nat → Fin s → Fin nM → Fin nE → ℤ) : Prop :=
  ∀ k r i j, sims k r i j = 0 ∨ sims k r i j = 1

/-- The hedged estimate of [FB12] from `n` successes in `N` trials lies in `[0, 1]` and its
standard error is below `tol`. -/
def WithinTol (n N h tol : ℝ) : Prop :=
  0 ≤ (n + h) / (N + 2 * h) ∧ (n + h) / (N + 2 * h) ≤ 1 ∧
  Real.sqrt ((n + h) / (N + 2 * h) * (1 - (n + h) / (N + 2 * h)) / (N + 2 * h + 1)) < tol

/-! ## Helper lemmas -/

theorem nanLt_iff (n N h tol : ℝ) (hN : 0 ≤ N) (hh : 0 ≤ h) :
    nanLt (binomEstError (binomEstP n N h) N h) tol ↔ WithinTol n N h tol := by
  unfold WithinTol binomEstError binomEstP
  generalize (n + h) / (N + 2 * h) = p
  have hd : 0 < N + 2 * h + 1 := by linarith
  have hsign : p * (1 - p) / (N + 2 * h + 1) < 0 ↔ ¬ (0 ≤ p ∧ p ≤ 1) := by
    rw [div_neg_iff]
    constructor
    · rintro (⟨_, h2⟩ | ⟨h1, _⟩)
      · linarith
      · rintro ⟨ha, hb⟩
        have := mul_nonneg ha (sub_nonneg.mpr hb)
        linarith
    · intro hn
      right
      refine ⟨?_, hd⟩
      by_cases h0 : 0 ≤ p
      · have : 1 < p := by
          by_contra hc; exact hn ⟨h0, not_lt.mp hc⟩
        nlinarith
      · push Not at h0; nlinarith
  dsimp only
  by_cases hv : p * (1 - p) / (N + 2 * h + 1) < 0
  · rw [if_pos hv]
    simp only [nanLt, false_iff]
    rintro ⟨h1, h2, _⟩
    exact (hsign.mp hv) ⟨h1, h2⟩
  · rw [if_neg hv]
    have := not_not.mp (fun hc => hv (hsign.mpr hc))
    simp [nanLt, this.1, this.2]

theorem ones_succ {nM nE s : Nat} (sims : Nat → Fin s → Fin nM → Fin nE → ℤ) (R : Nat) (i : Fin nM)
    (j : Fin nE) : (ones sims (R + 1) i j : ℝ) = ones sims R i j + aleHits (sims R) i j := by
  unfold ones aleHits
  rw [Finset.sum_range_succ, Int.cast_add]

theorem aleLoop_iff {nM nE : Nat} (c : AleCfg)
    (sims : Nat → Fin c.sampStep.toNat → Fin nM → Fin nE → ℤ) (fuel k : Nat)
    (r : (Fin nM → Fin nE → ℝ) × ℝ) :
    aleLoop c sims fuel k (fun i j => (ones sims k i j : ℝ)) (c.minSamp + k * c.sampStep) = some r ↔
    ∃ m < fuel, r = (fun i j => (ones sims (k + m + 1) i j : ℝ),
        (c.minSamp + (k + m : ℕ) * c.sampStep : ℝ)) ∧
      aleDone c r.1 r.2 ∧
      ∀ m' < m, ¬ aleDone c (fun i j => (ones sims (k + m' + 1) i j : ℝ))
        (c.minSamp + (k + m' : ℕ) * c.sampStep) := by
  induction fuel generalizing k with
  | zero => simp [aleLoop]
  | succ f ih =>
    rw [aleLoop]
    have hn : (fun i j => (ones sims k i j : ℝ) + aleHits (sims k) i j)
        = fun i j => (ones sims (k + 1) i j : ℝ) := by
      funext i j; rw [ones_succ]
    have hN : (c.minSamp + k * c.sampStep + c.sampStep : ℝ)
        = c.minSamp + ((k + 1 : ℕ) : ℝ) * c.sampStep := by push_cast; ring
    rw [hn, hN]
    split
    · rename_i hd
      constructor
      · intro h
        injection h with h
        refine ⟨0, by omega, ?_, ?_, by omega⟩
        · rw [← h]; simp
        · rw [← h]; exact hd
      · rintro ⟨m, hm, hr, hdone, hmin⟩
        cases m with
        | zero => rw [hr]; simp
        | succ m =>
          exact absurd (by simpa using hd) (hmin 0 (by omega))
    · rename_i hd
      rw [ih (k + 1)]
      constructor
      · rintro ⟨m, hm, hr, hdone, hmin⟩
        refine ⟨m + 1, by omega, ?_, hdone, ?_⟩
        · rw [hr]
          rw [show k + 1 + m = k + (m + 1) by ring]
        · intro m' hm'
          cases m' with
          | zero => simpa using hd
          | succ m' =>
            have := hmin m' (by omega)
            rw [show k + 1 + m' = k + (m' + 1) by ring] at this
            exact this
      · rintro ⟨m, hm, hr, hdone, hmin⟩
        cases m with
        | zero =>
          exfalso; apply hd
          rw [hr] at hdone
          simpa using hdone
        | succ m =>
          refine ⟨m, by omega, ?_, hdone, ?_⟩
          · rw [hr]
            rw [show k + (m + 1) = k + 1 + m by ring]
          · intro m' hm'
            have := hmin (m' + 1) (by omega)
            rw [show k + (m' + 1) = k + 1 + m' by ring] at this
            exact this

theorem aleLikelihood_iff {nM nE : Nat} (c : AleCfg) (hc : c.Allowed)
    (sims : Nat → Fin c.sampStep.toNat → Fin nM → Fin nE → ℤ) (o : OutcomesArg) (fuel : Nat)
    (L : Except PyErr (List (Fin nM → Fin nE → ℝ))) :
    aleLikelihood c sims o fuel = some L ↔
    ∃ R < fuel, (∀ i j, WithinTol (ones sims (R + 1) i j) (c.minSamp + R * c.sampStep)
        c.adaptHedge c.errorTol) ∧
      (∀ R' < R, ∃ i j, ¬ WithinTol (ones sims (R' + 1) i j) (c.minSamp + R' * c.sampStep)
        c.adaptHedge c.errorTol) ∧
      L = pr0ToLikelihood o fun i j => 1 - binomEstP (ones sims (R + 1) i j)
        (c.minSamp + R * c.sampStep) c.estHedge := by
  have hN : ∀ R : Nat, (0 : ℝ) ≤ c.minSamp + R * c.sampStep := by
    intro R
    have h1 : (0 : ℝ) < c.minSamp := by exact_mod_cast hc.min_pos
    have h2 : (0 : ℝ) < c.sampStep := by exact_mod_cast hc.step_pos
    positivity
  have hd : ∀ R : Nat, aleDone c (fun i j => (ones sims (R + 1) i j : ℝ))
      (c.minSamp + (R : ℝ) * c.sampStep) ↔ ∀ i j, WithinTol (ones sims (R + 1) i j)
        (c.minSamp + R * c.sampStep) c.adaptHedge c.errorTol := by
    intro R
    unfold aleDone
    refine forall_congr' fun i => forall_congr' fun j => ?_
    exact nanLt_iff _ _ _ _ (hN R) hc.adapt
  have h0 := aleLoop_iff c sims fuel 0
  have hz : (fun (i : Fin nM) (j : Fin nE) => ((ones sims 0 i j : ℤ) : ℝ)) = fun _ _ => 0 := by
    funext i j; simp [ones]
  rw [hz] at h0
  simp only [Nat.cast_zero, zero_mul, add_zero, zero_add] at h0
  unfold aleLikelihood
  constructor
  · intro h
    cases hl : aleLoop c sims fuel 0 (fun _ _ => 0) c.minSamp with
    | none => rw [hl] at h; cases h
    | some r =>
      obtain ⟨m, hm, hr, hdone, hmin⟩ := (h0 r).mp hl
      rw [hl] at h
      obtain ⟨n, N⟩ := r
      injection h with h
      injection hr with hr1 hr2
      subst hr1 hr2
      refine ⟨m, hm, (hd m).mp hdone, ?_, h.symm⟩
      intro R' hR'
      have := hmin R' hR'
      rw [hd] at this
      push Not at this
      exact this
  · rintro ⟨R, hR, hw, hmin, rfl⟩
    have : aleLoop c sims fuel 0 (fun _ _ => 0) c.minSamp
        = some ((fun i j => (ones sims (R + 1) i j : ℝ)), (c.minSamp + R * c.sampStep : ℝ)) := by
      rw [h0]
      refine ⟨R, hR, rfl, (hd R).mpr hw, ?_⟩
      intro m' hm'
      rw [hd]
      push Not
      exact hmin m' hm'
    rw [this]

theorem ones_bounds {nM nE s : Nat} (sims : Nat → Fin s → Fin nM → Fin nE → ℤ) (hb : Binary sims)
    (R : Nat) (i : Fin nM) (j : Fin nE) : 0 ≤ ones sims R i j ∧ ones sims R i j ≤ drawn sims R := by
  unfold ones drawn
  constructor
  · refine Finset.sum_nonneg fun k _ => Finset.sum_nonneg fun r _ => ?_
    rcases hb k r i j with h | h <;> rw [h] <;> norm_num
  · calc ∑ k ∈ Finset.range R, ∑ r, sims k r i j
        ≤ ∑ k ∈ Finset.range R, ∑ r : Fin s, (1 : ℤ) := by
          refine Finset.sum_le_sum fun k _ => Finset.sum_le_sum fun r _ => ?_
          rcases hb k r i j with h | h <;> rw [h] <;> norm_num
      _ = _ := by simp

/-! ## Theorems -/

/-- **C36, arguments.**  The constructor accepts exactly the allowed arguments with a two-outcome
simulator, and otherwise raises `TypeError` (not a simulator) or `ValueError`. -/
theorem C36_constructor (isSim const : Bool) (nOut : Nat) (c : AleCfg) :
    (aleInit isSim const nOut c = .ok c ↔
      isSim = true ∧ const = true ∧ nOut = 2 ∧ c.Allowed) ∧
    (isSim = false → aleInit isSim const nOut c = .error .typeError) ∧
    (isSim = true → ¬ (const = true ∧ nOut = 2 ∧ c.Allowed) →
      aleInit isSim const nOut c = .error .valueError) := by
  have hA : c.Allowed ↔ ¬ c.errorTol ≤ 0 ∧ ¬ c.errorTol > 1 ∧ ¬ c.minSamp ≤ 0 ∧ ¬ c.sampStep ≤ 0 ∧
      ¬ c.estHedge < 0 ∧ ¬ c.adaptHedge < 0 := by
    constructor
    · rintro ⟨h1, h2, h3, h4, h5, h6⟩
      exact ⟨not_le.mpr h1, not_lt.mpr h2, not_le.mpr h3, not_le.mpr h4, not_lt.mpr h5,
        not_lt.mpr h6⟩
    · rintro ⟨h1, h2, h3, h4, h5, h6⟩
      exact ⟨not_le.mp h1, not_lt.mp h2, not_le.mp h3, not_le.mp h4, not_lt.mp h5, not_lt.mp h6⟩
  rw [hA]
  unfold aleInit
  by_cases h0 : isSim = false
  · simp [h0]
  rw [if_neg h0]
  have h0' : isSim = true := by simpa using h0
  by_cases h1 : c.errorTol ≤ 0
  · simp [h1, h0']
  rw [if_neg h1]
  by_cases h2 : c.errorTol > 1
  · simp [h2, h0']
  rw [if_neg h2]
  by_cases h3 : c.minSamp ≤ 0
  · simp [h3, h0']
  rw [if_neg h3]
  by_cases h4 : c.sampStep ≤ 0
  · simp [h4, h0']
  rw [if_neg h4]
  by_cases h5 : c.estHedge < 0
  · simp [h5, h0']
  rw [if_neg h5]
  by_cases h6 : c.adaptHedge < 0
  · simp [h6, h0']
  rw [if_neg h6]
  by_cases h7 : const = true ∧ nOut = 2
  · rw [if_neg (not_not.mpr h7)]
    simp [h0', h1, h2, h3, h4, h5, h6, h7.1, h7.2]
  · rw [if_pos h7]
    have : ¬ (const = true ∧ nOut = 2 ∧ True) := fun h => h7 ⟨h.1, h.2.1⟩
    simp [h0', h1, h2, h3, h4, h5, h6]
    tauto

/-- **C36, stopping.**  If `likelihood` returns, it did so after the first round in which, for every
model and experiment, the hedged estimate is a probability with standard error below the tolerance;
the entry for outcome 1 is then the hedged estimate from the ones seen and the code's sample count,
and the entry for outcome 0 its complement. -/
theorem C36_stops_within_tolerance {nM nE : Nat} (c : AleCfg) (hc : c.Allowed)
    (sims : Nat → Fin c.sampStep.toNat → Fin nM → Fin nE → ℤ) (fuel : Nat)
    (L : List (Fin nM → Fin nE → ℝ))
    (h : aleLikelihood c sims (.array [0, 1]) fuel = some (.ok L)) :
    ∃ R : Nat, (∀ i j, WithinTol (ones sims (R + 1) i j) (c.minSamp + R * c.sampStep)
        c.adaptHedge c.errorTol) ∧
      (∀ R' < R, ∃ i j, ¬ WithinTol (ones sims (R' + 1) i j) (c.minSamp + R' * c.sampStep)
        c.adaptHedge c.errorTol) ∧
      ∃ L0 L1, L = [L0, L1] ∧ ∀ i j,
        L1 i j = (ones sims (R + 1) i j + c.estHedge) /
          ((c.minSamp + R * c.sampStep) + 2 * c.estHedge) ∧ L0 i j = 1 - L1 i j := by
  obtain ⟨R, -, h1, h2, h3⟩ := (aleLikelihood_iff c hc sims _ fuel _).mp h
  refine ⟨R, h1, h2, ?_⟩
  unfold pr0ToLikelihood at h3
  simp only [List.cons_ne_self, reduceCtorEq, if_false, List.map_cons, List.map_nil,
    Except.ok.injEq, if_true, one_ne_zero] at h3
  refine ⟨_, _, h3, ?_⟩
  intro i j
  simp [binomEstP]

/-- **C36, sample count.**  When the code stops with round `R` it has drawn `(R + 1) * samp_step`
outcomes but divides by `min_samp + R * samp_step`; the two agree exactly when
`min_samp = samp_step`. -/
theorem C36_sample_count {nM nE : Nat} (c : AleCfg) (hc : c.Allowed)
    (sims : Nat → Fin c.sampStep.toNat → Fin nM → Fin nE → ℤ) (R : Nat) :
    ((drawn sims (R + 1) : ℤ) = c.minSamp + R * c.sampStep ↔ c.minSamp = c.sampStep) ∧
    (drawn sims (R + 1) : ℤ) - (c.minSamp + R * c.sampStep) = c.sampStep - c.minSamp := by
  have h1 : ((c.sampStep.toNat : ℕ) : ℤ) = c.sampStep := Int.toNat_of_nonneg hc.step_pos.le
  have h2 : (drawn sims (R + 1) : ℤ) = (R + 1) * c.sampStep := by
    unfold drawn; push_cast; rw [h1]
  rw [h2]
  refine ⟨⟨fun h => by linarith, fun h => by rw [h]; ring⟩, by ring⟩

/-- **C36, valid estimates** (partial: needs `samp_step ≤ min_samp`, see
`C36_estimate_above_one`).  With a positive hedge every likelihood lies strictly inside `(0, 1)`,
for any outcomes asked for, and the two outcomes sum to one. -/
theorem C36_estimate_interior_partial {nM nE : Nat} (c : AleCfg) (hc : c.Allowed)
    (hh : 0 < c.estHedge) (hs : c.sampStep ≤ c.minSamp)
    (sims : Nat → Fin c.sampStep.toNat → Fin nM → Fin nE → ℤ) (hb : Binary sims) (o : OutcomesArg)
    (fuel : Nat) (L : List (Fin nM → Fin nE → ℝ))
    (h : aleLikelihood c sims o fuel = some (.ok L)) (i : Fin nM) (j : Fin nE) :
    (∀ a ∈ L, 0 < a i j ∧ a i j < 1) ∧ (o.toList.Perm [0, 1] → (L.map fun a => a i j).sum = 1) := by
  obtain ⟨R, -, -, -, h3⟩ := (aleLikelihood_iff c hc sims _ fuel _).mp h
  refine ⟨?_, fun hp => (C27_probabilities o _ L h3.symm i j).1 hp⟩
  have hob := ones_bounds sims hb (R + 1) i j
  have hcnt := (C36_sample_count c hc sims R).2
  have hle : ones sims (R + 1) i j ≤ c.minSamp + R * c.sampStep := by linarith [hob.2]
  have hle' : (ones sims (R + 1) i j : ℝ) ≤ c.minSamp + R * c.sampStep := by exact_mod_cast hle
  have h0' : (0 : ℝ) ≤ ones sims (R + 1) i j := by exact_mod_cast hob.1
  have hp0 : 0 < binomEstP (ones sims (R + 1) i j) (c.minSamp + R * c.sampStep) c.estHedge := by
    unfold binomEstP; apply div_pos <;> linarith
  have hp1 : binomEstP (ones sims (R + 1) i j) (c.minSamp + R * c.sampStep) c.estHedge < 1 := by
    unfold binomEstP; rw [div_lt_one (by linarith)]; linarith
  intro a ha
  rcases C27_entries o (fun i j => 1 - binomEstP (ones sims (R + 1) i j : ℝ)
    (c.minSamp + R * c.sampStep) c.estHedge) with ⟨_, he⟩ | ⟨L', he, hlen, hent⟩
  · rw [he] at h3; cases h3
  · rw [he] at h3
    injection h3 with h3
    subst h3
    obtain ⟨q, hq, rfl⟩ := List.mem_iff_getElem.mp ha
    have := hent q hq (hlen ▸ hq) i j
    by_cases hz : o.toList[q]'(hlen ▸ hq) = 0
    · rw [this.1 hz]; constructor <;> linarith
    · have := this.2 hz
      constructor <;> linarith

/-- **C36, termination.**  With `samp_step ≤ min_samp` the loop always stops, whatever the simulated
outcomes. -/
theorem C36_terminates_partial {nM nE : Nat} (c : AleCfg) (hc : c.Allowed)
    (hs : c.sampStep ≤ c.minSamp)
    (sims : Nat → Fin c.sampStep.toNat → Fin nM → Fin nE → ℤ) (hb : Binary sims) (o : OutcomesArg)
    (ho : o.toList ≠ []) : ∃ fuel L, aleLikelihood c sims o fuel = some (.ok L) := by
  classical
  have hmin : (0 : ℝ) < c.minSamp := by exact_mod_cast hc.min_pos
  have hstep : (0 : ℝ) < c.sampStep := by exact_mod_cast hc.step_pos
  have hpr : ∀ R : Nat, ∀ i j,
      0 ≤ ((ones sims (R + 1) i j : ℝ) + c.adaptHedge) /
        (c.minSamp + R * c.sampStep + 2 * c.adaptHedge) ∧
      ((ones sims (R + 1) i j : ℝ) + c.adaptHedge) /
        (c.minSamp + R * c.sampStep + 2 * c.adaptHedge) ≤ 1 := by
    intro R i j
    have hob := ones_bounds sims hb (R + 1) i j
    have hcnt := (C36_sample_count c hc sims R).2
    have hle : ones sims (R + 1) i j ≤ c.minSamp + R * c.sampStep := by linarith [hob.2]
    have hle' : (ones sims (R + 1) i j : ℝ) ≤ c.minSamp + R * c.sampStep := by exact_mod_cast hle
    have h0' : (0 : ℝ) ≤ ones sims (R + 1) i j := by exact_mod_cast hob.1
    have ha := hc.adapt
    have hRs : (0 : ℝ) ≤ R * c.sampStep := by positivity
    have hden : 0 < (c.minSamp : ℝ) + R * c.sampStep + 2 * c.adaptHedge := by linarith
    exact ⟨div_nonneg (by linarith) hden.le, (div_le_one hden).mpr (by linarith)⟩
  obtain ⟨R0, hR0⟩ := exists_nat_gt (1 / (c.sampStep * c.errorTol ^ 2 : ℝ))
  have hex : ∃ R : Nat, ∀ i j, WithinTol (ones sims (R + 1) i j) (c.minSamp + R * c.sampStep)
      c.adaptHedge c.errorTol := by
    refine ⟨R0, fun i j => ?_⟩
    obtain ⟨hp0, hp1⟩ := hpr R0 i j
    refine ⟨hp0, hp1, ?_⟩
    rw [Real.sqrt_lt' hc.tol_pos]
    generalize ((ones sims (R0 + 1) i j : ℝ) + c.adaptHedge) /
        (c.minSamp + R0 * c.sampStep + 2 * c.adaptHedge) = p at hp0 hp1 ⊢
    have ha := hc.adapt
    have htol := hc.tol_pos
    rw [div_lt_iff₀ (by positivity)] at hR0
    rw [div_lt_iff₀ (by positivity)]
    have hpp : p * (1 - p) ≤ 1 := by nlinarith
    have ht2 : 0 < c.errorTol ^ 2 := by positivity
    nlinarith
  let R := Nat.find hex
  have hR := Nat.find_spec hex
  have hL : ∃ L, pr0ToLikelihood o (fun i j => 1 - binomEstP (ones sims (R + 1) i j : ℝ)
      (c.minSamp + R * c.sampStep) c.estHedge) = .ok L := by
    rcases C27_entries o (fun i j => 1 - binomEstP (ones sims (R + 1) i j : ℝ)
      (c.minSamp + R * c.sampStep) c.estHedge) with ⟨h, _⟩ | ⟨L, h, _⟩
    · exact absurd h ho
    · exact ⟨L, h⟩
  obtain ⟨L, hL⟩ := hL
  refine ⟨R + 1, L, (aleLikelihood_iff c hc sims o _ _).mpr ⟨R, by omega, hR, ?_, hL.symm⟩⟩
  intro R' hR'
  have := Nat.find_min hex hR'
  push Not at this
  exact this

/-- **C36, endless loop.**  When `samp_step` exceeds `min_samp` by more than the hedge and the
simulator always reports outcome 1 for some model, the estimate exceeds one in every round, its error
is NaN, and the loop never stops. -/
theorem C36_diverges {nM nE : Nat} (c : AleCfg) (hc : c.Allowed)
    (hs : c.minSamp + c.adaptHedge < c.sampStep)
    (sims : Nat → Fin c.sampStep.toNat → Fin nM → Fin nE → ℤ) (i : Fin nM) (j : Fin nE)
    (h1 : ∀ k r, sims k r i j = 1) (o : OutcomesArg) (fuel : Nat) :
    aleLikelihood c sims o fuel = none := by
  by_contra hn
  obtain ⟨L, hL⟩ := Option.ne_none_iff_exists'.mp hn
  obtain ⟨R, -, hw, -, -⟩ := (aleLikelihood_iff c hc sims _ fuel _).mp hL
  have h2 := (hw i j).2.1
  have hones : ones sims (R + 1) i j = drawn sims (R + 1) := by
    unfold ones drawn; simp [h1]
  have hcnt := (C36_sample_count c hc sims R).2
  rw [← hones] at hcnt
  have hcnt' : (ones sims (R + 1) i j : ℝ) - (c.minSamp + R * c.sampStep)
      = c.sampStep - c.minSamp := by exact_mod_cast hcnt
  have hmin : (0 : ℝ) < c.minSamp := by exact_mod_cast hc.min_pos
  have hstep : (0 : ℝ) < c.sampStep := by exact_mod_cast hc.step_pos
  have ha := hc.adapt
  have hRs : (0 : ℝ) ≤ R * c.sampStep := by positivity
  rw [div_le_one (by linarith)] at h2
  linarith

/-- Allowed arguments for the counterexample: positive hedges, `min_samp = 1`, `samp_step = 2`. -/
noncomputable def aleOver : AleCfg := ⟨1 / 2, 1, 2, 1 / 10, 1⟩

theorem aleOver_allowed : aleOver.Allowed := by
  constructor <;> norm_num [aleOver]

/-- **C36, violation.**  With a positive hedge and allowed arguments the reported likelihood can
exceed one: two ones in a first round counted as one sample. -/
theorem C36_estimate_above_one :
    ∃ L : List (Fin 1 → Fin 1 → ℝ), aleLikelihood aleOver (fun _ _ _ _ => 1) (.array [0, 1]) 1
      = some (.ok L) ∧ ∃ a ∈ L, 1 < a 0 0 := by
  have hones : ∀ i j, ones (nM := 1) (nE := 1) (s := aleOver.sampStep.toNat)
      (fun _ _ _ _ => 1) (0 + 1) i j = 2 := by
    intro i j
    have : aleOver.sampStep.toNat = 2 := rfl
    simp only [ones, Finset.sum_const, Finset.card_univ, Fintype.card_fin, this]
    rfl
  let f : Fin 1 → Fin 1 → ℝ := fun i j => 1 - binomEstP
    (ones (nM := 1) (nE := 1) (s := aleOver.sampStep.toNat) (fun _ _ _ _ => 1) (0 + 1) i j)
    (aleOver.minSamp + (0 : ℕ) * aleOver.sampStep) aleOver.estHedge
  have h := (aleLikelihood_iff aleOver aleOver_allowed (nM := 1) (nE := 1) (fun _ _ _ _ => 1)
    (.array [0, 1]) 1 (.ok [f, fun i j => 1 - f i j])).mpr ⟨0, by omega, ?_, by omega, ?_⟩
  · refine ⟨_, h, _, List.mem_cons_of_mem _ (List.mem_cons_self ..), ?_⟩
    simp only [f]
    rw [hones]
    simp only [aleOver, binomEstP]
    norm_num
  · intro i j
    rw [hones]
    simp only [aleOver, WithinTol]
    norm_num
  · unfold pr0ToLikelihood
    simp only [reduceCtorEq, if_false, List.map_cons, List.map_nil, if_true, one_ne_zero]
    rfl

/-- Case for the theorems above: the documented defaults with one model, one experiment and a
simulator that alternates 0 and 1. -/
noncomputable def aleDefault : AleCfg := ⟨1 / 100, 10, 10, 509 / 1000, 509 / 1000⟩

example : aleDefault.Allowed ∧ 0 < aleDefault.estHedge ∧ aleDefault.sampStep ≤ aleDefault.minSamp ∧
    Binary (fun (_ : Nat) (r : Fin aleDefault.sampStep.toNat) (_ : Fin 1) (_ : Fin 1) =>
      ((r : ℕ) % 2 : ℤ)) := by
  refine ⟨by constructor <;> norm_num [aleDefault], by norm_num [aleDefault],
    by norm_num [aleDefault], ?_⟩
  intro k r i j
  dsimp only
  omega

/-- Case for `C36_diverges`: one initial sample, ten per step. -/
example : (⟨1 / 100, 1, 10, 509 / 1000, 509 / 1000⟩ : AleCfg).Allowed ∧
    ((1 : ℤ) : ℝ) + 509 / 1000 < ((10 : ℤ) : ℝ) := by
  refine ⟨by constructor <;> norm_num, by norm_num⟩

end QInfer
