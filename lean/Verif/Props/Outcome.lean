import Verif.Model.Outcome
import Verif.Lemmas.Particle
import Verif.Props.Domain
import Mathlib.MeasureTheory.Measure.Lebesgue.Basic
import Mathlib.Tactic.Linarith

/-! # C27, C28: two-outcome likelihood arrays and simulated outcomes -/

set_option linter.unusedSectionVars false

namespace QInfer

section
variable {K : Type*} [Field K] [LinearOrder K] [IsStrictOrderedRing K]

/-- The outcomes read from the argument. -/
def OutcomesArg.toList : OutcomesArg → List ℤ
  | .scalar o => [o]
  | .array os => os

/-- **C27.**  The array has one slice per outcome, in order, each over (model, experiment); outcome
0 gets `pr0` and every other outcome gets `1 - pr0`.  Only an empty outcome array fails. -/
theorem C27_entries {nM nE : Nat} (o : OutcomesArg) (pr0 : Fin nM → Fin nE → K) :
    (o.toList = [] ∧ pr0ToLikelihood o pr0 = .error .valueError) ∨
    (∃ L, pr0ToLikelihood o pr0 = .ok L ∧ L.length = o.toList.length ∧
      ∀ i (h : i < L.length) (h' : i < o.toList.length) j k,
        (o.toList[i] = 0 → L[i] j k = pr0 j k) ∧ (o.toList[i] ≠ 0 → L[i] j k + pr0 j k = 1)) := by
  have key : ∀ os : List ℤ, os ≠ [] → ∃ L, L = (os.map fun o => if o = 0 then pr0 else
      fun j k => 1 - pr0 j k) ∧ L.length = os.length ∧
      ∀ i (h : i < L.length) (h' : i < os.length) j k,
        (os[i] = 0 → L[i] j k = pr0 j k) ∧ (os[i] ≠ 0 → L[i] j k + pr0 j k = 1) := by
    intro os _
    refine ⟨_, rfl, by simp, ?_⟩
    intro i h h' j k
    simp only [List.getElem_map]
    constructor
    · intro h0; rw [if_pos h0]
    · intro h0; rw [if_neg h0]; ring
  unfold pr0ToLikelihood
  cases o with
  | scalar a =>
    right
    obtain ⟨L, hL, h2, h3⟩ := key [a] (by simp)
    exact ⟨L, by simp [hL], h2, h3⟩
  | array os =>
    by_cases he : os = []
    · left; exact ⟨he, by simp [he]⟩
    · right
      obtain ⟨L, hL, h2, h3⟩ := key os he
      exact ⟨L, by simp [hL, he], h2, h3⟩

/-- **C27, probabilities.**  When the outcomes are 0 and 1 in either order, the entries over the
outcomes sum to one; if `pr0` is within `[0, 1]`, so is every entry, for any outcomes. -/
theorem C27_probabilities {nM nE : Nat} (o : OutcomesArg) (pr0 : Fin nM → Fin nE → K)
    (L : List (Fin nM → Fin nE → K)) (hL : pr0ToLikelihood o pr0 = .ok L) (j : Fin nM)
    (k : Fin nE) :
    (o.toList.Perm [0, 1] → (L.map fun a => a j k).sum = 1) ∧
    (0 ≤ pr0 j k ∧ pr0 j k ≤ 1 → ∀ a ∈ L, 0 ≤ a j k ∧ a j k ≤ 1) := by
  have hL' : L = o.toList.map fun o => if o = 0 then pr0 else fun j k => 1 - pr0 j k := by
    unfold pr0ToLikelihood at hL
    cases o with
    | scalar a => simpa [OutcomesArg.toList] using hL.symm
    | array os =>
      dsimp only at hL
      split at hL
      · cases hL
      · simpa [OutcomesArg.toList] using hL.symm
  constructor
  · intro hp
    have := (hp.map fun o => (if o = 0 then pr0 else fun j k => 1 - pr0 j k) j k).sum_eq
    rw [hL', List.map_map]
    refine Eq.trans this ?_
    simp
  · rintro ⟨h0, h1⟩ a ha
    rw [hL', List.mem_map] at ha
    obtain ⟨o, -, rfl⟩ := ha
    split
    · exact ⟨h0, h1⟩
    · exact ⟨by linarith, by linarith⟩

/-- Case for C27. -/
example : pr0ToLikelihood (.array [1, 0]) (fun (_ : Fin 1) (_ : Fin 1) => (1/4 : ℚ)) =
    .ok [fun _ _ => 1 - 1/4, fun _ _ => 1/4] := by
  simp [pr0ToLikelihood]

/-! ## C28 -/

/-- The variate `u` selects outcome `i`: it lies between the cumulative likelihoods. -/
def Selects (L : List K) (u : K) (i : Nat) : Prop :=
  i < L.length ∧ (L.take i).sum ≤ u ∧ u < (L.take (i + 1)).sum

theorem argmax_shape (a : K) (w : List K) (u : K) (ha : a ≤ u) (hu : u < a + w.sum) :
    ∃ k < w.length, (cumsumFrom a w).findIdx? (fun c => decide (u < c)) = some k ∧
      a + (w.take k).sum ≤ u ∧ u < a + (w.take (k + 1)).sum := by
  induction w generalizing a with
  | nil => simp at hu; exact absurd hu (not_lt.2 ha)
  | cons x w ih =>
    rw [cumsumFrom, List.findIdx?_cons]
    by_cases hx : u < a + x
    · exact ⟨0, by simp, by simp [hx], by simpa using ha, by simpa using hx⟩
    · obtain ⟨k, hk, h1, h2, h3⟩ := ih (a + x) (not_lt.1 hx) (by
        rw [List.sum_cons] at hu; linarith)
      refine ⟨k + 1, by simpa using hk, by simp [hx, h1], ?_, ?_⟩
      · rw [List.take_succ_cons, List.sum_cons]; linarith
      · rw [List.take_succ_cons, List.sum_cons]; linarith

theorem selects_unique (L : List K) (h0 : ∀ x ∈ L, 0 ≤ x) (u : K) (i j : Nat)
    (hi : Selects L u i) (hj : Selects L u j) : i = j := by
  rcases lt_trichotomy i j with h | h | h
  · have := take_sum_mono L h0 (show i + 1 ≤ j from h)
    exact absurd (hi.2.2.trans_le (this.trans hj.2.1)) (lt_irrefl _)
  · exact h
  · have := take_sum_mono L h0 (show j + 1 ≤ i from h)
    exact absurd (hj.2.2.trans_le (this.trans hi.2.1)) (lt_irrefl _)

theorem argmaxGt_eq (L : List K) (u : K) (h0 : 0 ≤ u) (hu : u < L.sum) :
    Selects L u (argmaxGt (cumsum L) u) := by
  obtain ⟨k, hk, h1, h2, h3⟩ := argmax_shape 0 L u h0 (by simpa using hu)
  unfold argmaxGt
  rw [cumsum_eq, h1]
  exact ⟨hk, by simpa using h2, by simpa using h3⟩

theorem pyIndex_arange (k i : Nat) (h : i < k) : pyIndex (arange 0 k) (i : ℤ) = .ok (i : ℤ) := by
  unfold pyIndex arange
  have h1 : ¬ ((i : ℤ) < 0) := by omega
  simp [h1, h]

/-- The values of the default domain of a model with `k` outcomes. -/
theorem default_values (k : Nat) : IntDom.values ⟨.fin 0, .fin ((k : ℤ) - 1)⟩ = arange 0 k := by
  simp [IntDom.values]

theorem simCell_default (L : List K) (u : K) (h0 : 0 ≤ u) (hu : u < L.sum) :
    ∃ i : Nat, Selects L u i ∧
      simCell (IntDom.values ⟨.fin 0, .fin ((L.length : ℤ) - 1)⟩) L u = .ok (i : ℤ) := by
  have hs := argmaxGt_eq L u h0 hu
  refine ⟨_, hs, ?_⟩
  rw [default_values]
  unfold simCell
  rw [pyIndex_arange _ _ hs.1]
  exact pyIndex_arange _ _ hs.1

/-- **C28, one draw.**  With the default domain `0 .. k-1`, non-negative likelihoods summing to one
and a variate in `[0, 1)`, outcome `i` is returned exactly when the variate lies between the
cumulative likelihoods before and after `i`. -/
theorem C28_outcome_iff (L : List K) (hpos : ∀ x ∈ L, 0 ≤ x) (hsum : L.sum = 1) (u : K)
    (h0 : 0 ≤ u) (h1 : u < 1) (z : ℤ) :
    simCell (IntDom.values ⟨.fin 0, .fin ((L.length : ℤ) - 1)⟩) L u = .ok z ↔
      ∃ i : Nat, z = i ∧ Selects L u i := by
  obtain ⟨i, hi, he⟩ := simCell_default L u h0 (hsum ▸ h1)
  rw [he]
  constructor
  · intro h; injection h with h; exact ⟨i, h.symm, hi⟩
  · rintro ⟨j, rfl, hj⟩
    rw [selects_unique L hpos u i j hi hj]

/-- **C28, arrays.**  `simulate_experiment` then succeeds, and every (repetition, model, experiment)
entry is the outcome its own variate selects from the likelihoods of its own model and experiment;
one repetition of one model and experiment gives the scalar. -/
theorem C28_simulate {r nM nE : Nat} (k : Nat) (L : Fin nM → Fin nE → List K)
    (u : Fin r → Fin nM → Fin nE → K) (hlen : ∀ j e, (L j e).length = k)
    (hsum : ∀ j e, (L j e).sum = 1) (hu : ∀ i j e, 0 ≤ u i j e ∧ u i j e < 1) :
    ∃ os : Fin r → Fin nM → Fin nE → Nat, (∀ i j e, Selects (L j e) (u i j e) (os i j e)) ∧
      simulateConst (IntDom.values ⟨.fin 0, .fin ((k : ℤ) - 1)⟩) L u =
        .ok (simReturn fun i j e => (os i j e : ℤ)) := by
  have hc : ∀ i j e, ∃ o : Nat, Selects (L j e) (u i j e) o ∧
      simCell (IntDom.values ⟨.fin 0, .fin ((k : ℤ) - 1)⟩) (L j e) (u i j e) = .ok (o : ℤ) := by
    intro i j e
    have := simCell_default (L j e) (u i j e) (hu i j e).1 (by rw [hsum]; exact (hu i j e).2)
    rwa [hlen] at this
  choose os h1 h2 using hc
  refine ⟨os, h1, ?_⟩
  unfold simulateConst
  rw [if_neg]
  · congr 2
    funext i j e
    rw [h2]; rfl
  · rintro ⟨i, j, e, h⟩
    rw [h2] at h; cases h

/-- **C28, scalar return.** -/
theorem C28_scalar_iff {r nM nE : Nat} (os : Fin r → Fin nM → Fin nE → ℤ) :
    (∃ z, simReturn os = .scalar z) ↔ r = 1 ∧ nM = 1 ∧ nE = 1 := by
  unfold simReturn
  split
  · rename_i h; exact ⟨fun _ => ⟨h.1, h.2.2, h.2.1⟩, fun _ => ⟨_, rfl⟩⟩
  · rename_i h
    exact ⟨(fun ⟨z, hz⟩ => by cases hz), fun hh => absurd ⟨hh.1, hh.2.2, hh.2.1⟩ h⟩

/-- **C28, double indexing.**  For a model whose outcome table is `1 .. k` (an overridden domain)
every draw comes out one too high, and the last outcome fails, so the likelihoods are not
followed. -/
theorem C28_shifted_table_wrong (L : List K) (u : K) (h0 : 0 ≤ u) (hu : u < L.sum) :
    ∃ i : Nat, Selects L u i ∧
      simCell (IntDom.values ⟨.fin 1, .fin (L.length : ℤ)⟩) L u =
        (if i + 1 < L.length then .ok ((i : ℤ) + 2) else .error .indexError) := by
  have hs := argmaxGt_eq L u h0 hu
  refine ⟨_, hs, ?_⟩
  generalize hi : argmaxGt (cumsum L) u = i at hs
  have hv : IntDom.values ⟨.fin 1, .fin (L.length : ℤ)⟩ = arange 1 (L.length + 1) := by
    simp [IntDom.values]
  have h1 : pyIndex (arange 1 ((L.length : ℤ) + 1)) (i : ℤ) = .ok ((i : ℤ) + 1) := by
    unfold pyIndex arange
    have h1 : ¬ ((i : ℤ) < 0) := by omega
    have := hs.1
    simp [h1, this]; omega
  unfold simCell
  rw [hv, hi, h1]
  change pyIndex (arange 1 ((L.length : ℤ) + 1)) ((i : ℤ) + 1) = _
  unfold pyIndex arange
  have h2 : ¬ ((i : ℤ) + 1 < 0) := by omega
  have h3 : ((i : ℤ) + 1).toNat = i + 1 := by omega
  have h4 : ¬ (i : ℤ) + 1 < 0 := h2
  by_cases hlt : i + 1 < L.length
  · simp [h2, hlt, h3]; omega
  · simp [h2, hlt, h3]

/-- **C28, double indexing, arrays.**  With such a table the whole call raises `IndexError` as soon as one of the
variates selects the last outcome. -/
theorem C28_shifted_table_raises {r nM nE : Nat} (k : Nat) (L : Fin nM → Fin nE → List K)
    (u : Fin r → Fin nM → Fin nE → K) (hlen : ∀ j e, (L j e).length = k) (i : Fin r) (j : Fin nM) (e : Fin nE)
    (hpos : ∀ x ∈ L j e, 0 ≤ x) (h0 : 0 ≤ u i j e) (hu : u i j e < (L j e).sum)
    (hlast : Selects (L j e) (u i j e) (k - 1)) :
    simulateConst (IntDom.values ⟨.fin 1, .fin (k : ℤ)⟩) L u = .error .indexError := by
  obtain ⟨o, ho, hc⟩ := C28_shifted_table_wrong (L j e) (u i j e) h0 hu
  have ho' : o = k - 1 := selects_unique (L j e) hpos (u i j e) o (k - 1) ho hlast
  have hk := hlast.1
  rw [hlen] at hc hk
  rw [if_neg (by omega)] at hc
  unfold simulateConst
  rw [if_pos ⟨i, j, e, by rw [hc]; rfl⟩]

/-- **C28, non-constant outcome numbers.**  The branch for experiment-dependent outcome numbers
takes `.values` of a list and therefore always fails. -/
theorem C28_nonconstant_fails (nConst : ℤ) (n : ℤ) (rest : List ℤ) (draw : List ℤ → List ℤ) :
    simulateNonConst nConst (n :: rest) draw = .error .attributeError := by
  rfl

/-- **C28, domains.**  For experiments with `ns` outcomes, `domain` lists one domain for each, the
`k`-th being `0, …, ns[k] - 1`; if the number does not depend on the experiment it is that number for
all.  Without experiments there is one domain, or a `TypeError` if the number depends on them. -/
theorem C28_domain (constant : Bool) (nConst : Nat) (ns : List Nat)
    (hc : constant = true → ∀ n ∈ ns, n = nConst) :
    (∃ ds, finDomain constant nConst (some (ns.map fun (n : Nat) => (n : ℤ))) = .ok (.many ds) ∧
      ds.map IntDom.values = ns.map fun n => (List.range n).map fun (i : Nat) => (i : ℤ)) ∧
    (constant = true → ∃ d, finDomain constant nConst none = .ok (.one d) ∧
      d.values = (List.range nConst).map fun (i : Nat) => (i : ℤ)) ∧
    (constant = false → finDomain constant nConst none = .error .typeError) := by
  have hv : ∀ n : Nat, IntDom.values ⟨.fin 0, .fin ((n : ℤ) - 1)⟩ =
      (List.range n).map fun (i : Nat) => (i : ℤ) := by
    intro n
    rw [default_values]
    simp [arange]
  cases constant with
  | true =>
    refine ⟨⟨_, rfl, ?_⟩, fun _ => ⟨_, rfl, hv _⟩, by simp⟩
    rw [List.map_map, List.map_map]
    refine List.map_congr_left fun n hn => ?_
    rw [hc rfl n hn]
    exact hv _
  | false =>
    refine ⟨⟨_, rfl, ?_⟩, by simp, fun _ => rfl⟩
    rw [List.map_map, List.map_map]
    exact List.map_congr_left fun n _ => hv n

end

/-- **C28, probability.**  The set of variates in `[0, 1)` giving outcome `i` has length equal to
the likelihood of `i`. -/
theorem C28_probability (L : List ℝ) (hpos : ∀ x ∈ L, 0 ≤ x) (hsum : L.sum = 1) (i : Nat)
    (hi : i < L.length) :
    MeasureTheory.volume {u : ℝ | (0 ≤ u ∧ u < 1) ∧
      simCell (IntDom.values ⟨.fin 0, .fin ((L.length : ℤ) - 1)⟩) L u = .ok (i : ℤ)} =
      ENNReal.ofReal L[i] := by
  have hset : {u : ℝ | (0 ≤ u ∧ u < 1) ∧
      simCell (IntDom.values ⟨.fin 0, .fin ((L.length : ℤ) - 1)⟩) L u = .ok (i : ℤ)} =
      Set.Ico (L.take i).sum (L.take (i + 1)).sum := by
    ext u
    simp only [Set.mem_ofPred_eq, Set.mem_Ico]
    constructor
    · rintro ⟨⟨h0, h1⟩, h⟩
      obtain ⟨j, hj, hs⟩ := (C28_outcome_iff L hpos hsum u h0 h1 _).1 h
      have : i = j := by exact_mod_cast hj
      subst this
      exact hs.2
    · rintro ⟨h0, h1⟩
      have hu0 : 0 ≤ u := le_trans (by simpa using take_sum_mono L hpos (Nat.zero_le i)) h0
      have hu1 : u < 1 := by
        refine lt_of_lt_of_le h1 ?_
        have := take_sum_mono L hpos (show i + 1 ≤ L.length from hi)
        rwa [List.take_length, hsum] at this
      exact ⟨⟨hu0, hu1⟩, (C28_outcome_iff L hpos hsum u hu0 hu1 _).2 ⟨i, rfl, hi, h0, h1⟩⟩
  rw [hset, Real.volume_Ico]
  congr 1
  rw [List.sum_take_succ _ _ hi]; ring

/-- Case for C28: likelihoods 1/2, 1/4, 1/4 and variate 2/3 give outcome 1; the table 1, 2, 3
returns 3 instead of 2. -/
example : simCell (IntDom.values ⟨.fin 0, .fin 2⟩) ([1/2, 1/4, 1/4] : List ℚ) (2/3) = .ok 1 := by
  decide +kernel

example : simCell (IntDom.values ⟨.fin 1, .fin 3⟩) ([1/2, 1/4, 1/4] : List ℚ) (2/3) = .ok 3 := by
  decide +kernel

end QInfer
