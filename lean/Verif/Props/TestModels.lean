import Verif.Model.Outcome
import Verif.Lemmas.Particle
import Mathlib.Analysis.SpecialFunctions.Trigonometric.Deriv
import Mathlib.Analysis.SpecialFunctions.Log.Deriv
import Mathlib.Analysis.Calculus.Deriv.Pow
import Mathlib.Tactic.Linarith
import Mathlib.Tactic.FieldSimp
import Mathlib.Tactic.LinearCombination
import Mathlib.Tactic.NormNum

/-! # C31, C32, C33: example models and randomized benchmarking -/

set_option linter.unusedSectionVars false
set_option linter.unusedSimpArgs false

namespace QInfer

/-- A two-outcome likelihood is a probability distribution. -/
def IsTwoOutcome {K : Type*} [Field K] [LinearOrder K] (pr0 : K) : Prop :=
  (∀ o : ℤ, 0 ≤ twoOutcome pr0 o ∧ twoOutcome pr0 o ≤ 1) ∧
    twoOutcome pr0 0 + twoOutcome pr0 1 = 1

theorem isTwoOutcome_of {K : Type*} [Field K] [LinearOrder K] [IsStrictOrderedRing K] (x : K)
    (h0 : 0 ≤ x) (h1 : x ≤ 1) : IsTwoOutcome x := by
  refine ⟨fun o => ?_, by simp [twoOutcome]⟩
  unfold twoOutcome; split
  · exact ⟨h0, h1⟩
  · exact ⟨by linarith, by linarith⟩

theorem not_isTwoOutcome {K : Type*} [Field K] [LinearOrder K] (x : K) (h : x < 0) :
    ¬ IsTwoOutcome x := fun hx => absurd (hx.1 0).1 (by simp [twoOutcome, h])

/-! ## C31 -/

theorem cos_sq_mem (x : ℝ) : 0 ≤ Real.cos x ^ 2 ∧ Real.cos x ^ 2 ≤ 1 :=
  ⟨sq_nonneg _, Real.cos_sq_le_one x⟩

/-- **C31, probabilities.**  The inversion and precession likelihoods are probabilities for all real
frequencies and times. -/
theorem C31_likelihoods (ω t w_ : ℝ) :
    IsTwoOutcome (inversionPr0 ω t w_) ∧ IsTwoOutcome (precessionPr0 ω t) :=
  ⟨isTwoOutcome_of _ (cos_sq_mem _).1 (cos_sq_mem _).2,
   isTwoOutcome_of _ (cos_sq_mem _).1 (cos_sq_mem _).2⟩

/-- **C31, valid frequencies.**  The inversion model accepts exactly the frequencies above
`min_freq`, not `min_freq` itself; `UnknownT2Model` accepts frequency and rate zero. -/
theorem C31_valid (minFreq ω T2inv : ℝ) :
    (inversionValid minFreq ω = true ↔ ω ∈ Set.Ioi minFreq) ∧
    (t2Valid ω T2inv = true ↔ ω ∈ Set.Ici 0 ∧ T2inv ∈ Set.Ici 0) := by
  simp [inversionValid, t2Valid]

/-- **C31, the precession model** is outcome 0 of a spin precessing at `ω` for time `t`: the
probability is `(1 + cos ωt) / 2`. -/
theorem C31_precession_value (ω t : ℝ) : precessionPr0 ω t = (1 + Real.cos (ω * t)) / 2 := by
  unfold precessionPr0 inversionPr0
  rw [Real.cos_sq]
  rw [show 2 * (t * (ω - 0) / 2) = ω * t by ring]; ring

/-- **C31, decoherence.**  For a valid model and a non-negative time the likelihood of
`UnknownT2Model` is a probability: the precession curve damped towards 1/2. -/
theorem C31_unknown_t2 (ω T2inv t : ℝ) (hv : t2Valid ω T2inv = true) (ht : 0 ≤ t) :
    IsTwoOutcome (t2Pr0 ω T2inv t) ∧
    t2Pr0 ω T2inv t = (1 + Real.exp (-(t * T2inv)) * Real.cos (ω * t)) / 2 := by
  simp only [t2Valid, Bool.and_eq_true, decide_eq_true_eq] at hv
  have hle : Real.exp (-t * T2inv) ≤ 1 := by
    rw [Real.exp_le_one_iff]; nlinarith [mul_nonneg ht hv.2]
  have hpos := Real.exp_pos (-t * T2inv)
  obtain ⟨hc0, hc1⟩ := cos_sq_mem (ω * t / 2)
  constructor
  · apply isTwoOutcome_of
    · unfold t2Pr0; dsimp only
      have := mul_nonneg hpos.le hc0; linarith
    · unfold t2Pr0; dsimp only
      have := mul_le_mul_of_nonneg_left hc1 hpos.le; linarith
  · unfold t2Pr0; dsimp only
    rw [Real.cos_sq, show 2 * (ω * t / 2) = ω * t by ring, show -t * T2inv = -(t * T2inv) by ring]
    ring

/-- **C31, negative times.**  The restriction is needed: `UnknownT2Model` at a negative time returns a
negative "probability" for a valid model. -/
theorem C31_unknown_t2_negative_time :
    ∃ ω T2inv t : ℝ, t2Valid ω T2inv = true ∧ ¬ IsTwoOutcome (t2Pr0 ω T2inv t) := by
  refine ⟨Real.pi, 1, -1, ?_, ?_⟩
  · simp [t2Valid, Real.pi_pos.le]
  · apply not_isTwoOutcome
    unfold t2Pr0; dsimp only
    rw [show Real.pi * -1 / 2 = -(Real.pi / 2) by ring, Real.cos_neg, Real.cos_pi_div_two]
    have : 1 < Real.exp (- -1 * 1) := by rw [Real.one_lt_exp_iff]; norm_num
    rw [zero_pow two_ne_zero, mul_zero]
    generalize Real.exp (- -1 * 1) = v at this ⊢
    linarith

/-- **C31, score.**  The score of the inversion model is the derivative of the log-likelihood with
respect to the frequency wherever the likelihood does not vanish. -/
theorem C31_inversion_score (o : Fin 2) (ω t w_ : ℝ)
    (hL : twoOutcome (inversionPr0 ω t w_) o.val ≠ 0) :
    HasDerivAt (fun x => Real.log (twoOutcome (inversionPr0 x t w_) o.val))
      (inversionScore o ω t w_) ω := by
  have harg : HasDerivAt (fun x : ℝ => t * (x - w_) / 2) (t / 2) ω := by
    have := (((hasDerivAt_id ω).sub_const w_).const_mul t).div_const 2
    simpa using this
  have hcos : HasDerivAt (fun x : ℝ => Real.cos (t * (x - w_) / 2) ^ 2)
      (2 * Real.cos (t * (ω - w_) / 2) * (-Real.sin (t * (ω - w_) / 2) * (t / 2))) ω := by
    convert! (harg.cos).pow 2 using 1
    simp
  have e : (ω - w_) * t / 2 = t * (ω - w_) / 2 := by ring
  fin_cases o
  · simp only [twoOutcome, inversionPr0] at hL ⊢
    simp only [Fin.zero_eta, Fin.val_zero, Nat.cast_zero, if_true] at hL ⊢
    have hc : Real.cos (t * (ω - w_) / 2) ≠ 0 := fun h => hL (by rw [h]; norm_num)
    convert! hcos.log hL using 1
    simp only [inversionScore, Fin.val_zero, pow_zero, one_mul, Nat.sub_zero, pow_one]
    rw [e, Real.tan_eq_sin_div_cos]
    field_simp
  · simp only [twoOutcome, inversionPr0] at hL ⊢
    simp only [Fin.mk_one, Fin.val_one, Nat.cast_one, one_ne_zero, if_false] at hL ⊢
    have hs2 : 1 - Real.cos (t * (ω - w_) / 2) ^ 2 = Real.sin (t * (ω - w_) / 2) ^ 2 := by
      have := Real.sin_sq_add_cos_sq (t * (ω - w_) / 2); linarith
    have hs : Real.sin (t * (ω - w_) / 2) ≠ 0 := fun h => hL (by rw [hs2, h]; norm_num)
    convert! (hcos.const_sub 1).log hL using 1
    simp only [inversionScore, Fin.val_one, pow_one, Nat.sub_self, pow_zero, mul_one]
    rw [e, Real.tan_eq_sin_div_cos, hs2]
    field_simp

/-- **C31, score of the precession model.** -/
theorem C31_precession_score (o : Fin 2) (ω t : ℝ)
    (hL : twoOutcome (precessionPr0 ω t) o.val ≠ 0) :
    HasDerivAt (fun x => Real.log (twoOutcome (precessionPr0 x t) o.val))
      (precessionScore o ω t) ω :=
  C31_inversion_score o ω t 0 hL

/-- Case for C31: a time and frequency with both likelihoods non-zero. -/
example : twoOutcome (precessionPr0 (Real.pi / 2) 1) ((1 : Fin 2).val : ℤ) ≠ 0 := by
  rw [C31_precession_value]
  simp [twoOutcome]
  norm_num

/-! ## C32 -/

section
variable {K : Type*} [Field K] [LinearOrder K] [IsStrictOrderedRing K]

/-- **C32, coins.**  On valid parameters the coin and noisy-coin likelihoods are probabilities, the
latter for visibilities that are probabilities; an ideal noisy coin is the coin. -/
theorem C32_coins (p a b : K) (hv : coinValid p = true) :
    IsTwoOutcome (coinPr0 p) ∧
    (0 ≤ a ∧ a ≤ 1 → 0 ≤ b ∧ b ≤ 1 → IsTwoOutcome (noisyCoinPr0 p a b)) ∧
    noisyCoinPr0 p 1 0 = coinPr0 p := by
  simp only [coinValid, Bool.and_eq_true, decide_eq_true_eq] at hv
  refine ⟨isTwoOutcome_of _ hv.1 hv.2, ?_, by simp [noisyCoinPr0, coinPr0]⟩
  rintro ⟨ha0, ha1⟩ ⟨hb0, hb1⟩
  apply isTwoOutcome_of
  · unfold noisyCoinPr0
    have := mul_nonneg hv.1 ha0
    have := mul_nonneg (sub_nonneg.2 hv.2) hb0
    linarith
  · unfold noisyCoinPr0
    have := mul_le_mul_of_nonneg_left ha1 hv.1
    have := mul_le_mul_of_nonneg_left hb1 (sub_nonneg.2 hv.2)
    linarith

/-- **C32, Fisher information of the coin** is `1 / (p (1 - p))` inside `(0, 1)`. -/
theorem C32_coin_fisher (p : K) (h0 : 0 < p) (h1 : p < 1) :
    fisherInfo 2 (fun o => twoOutcome (coinPr0 p) o) (fun o => coinScore (o : K) p) =
      1 / (p * (1 - p)) := by
  have h2 : 0 < 1 - p := by linarith
  have e : List.range 2 = [0, 1] := rfl
  simp only [fisherInfo, e, List.map_cons, List.map_nil, List.sum_cons, List.sum_nil, twoOutcome,
    coinPr0, coinScore]
  simp
  field_simp
  ring

theorem pyIndex_ok {α : Type*} (l : List α) (i : Nat) (h : i < l.length) :
    pyIndex l (i : ℤ) = .ok l[i] := by
  unfold pyIndex
  have h1 : ¬ ((i : ℤ) < 0) := by omega
  simp [h1, h]

/-- **C32, die.**  For valid parameters the likelihoods of the faces `0 .. n-1` are the parameters,
lie in `[0, 1]`, and sum to one within the threshold. -/
theorem C32_die (threshold : K) (p : List K) (hv : dieValid threshold p = true) :
    ∃ L, dieLikelihood p ((List.range p.length).map fun (i : Nat) => (i : ℤ)) = .ok L ∧ L = p ∧
      (∀ x ∈ L, 0 ≤ x ∧ x ≤ 1) ∧ |L.sum - 1| ≤ threshold := by
  simp only [dieValid, Bool.and_eq_true, decide_eq_true_eq, List.all_eq_true] at hv
  refine ⟨p, ?_, rfl, hv.2, hv.1⟩
  unfold dieLikelihood
  have key : ∀ is : List Nat, (∀ i ∈ is, i < p.length) →
      (is.map fun (i : Nat) => (i : ℤ)).mapM (fun o => pyIndex p o) =
        .ok (is.map fun i => p.getD i 0) := by
    intro is
    induction is with
    | nil => intro _; rfl
    | cons i is ih =>
      intro h
      have hi := h i (by simp)
      rw [List.map_cons, List.mapM_cons, pyIndex_ok p i hi, ih fun j hj => h j (by simp [hj])]
      rw [List.map_cons, getD_lt p 0 hi]; rfl
  rw [key _ (by simp), range_getD]

/-- **C32, die outcomes out of range** raise `IndexError`. -/
theorem C32_die_range (p : List K) (o : ℤ) (ho : (p.length : ℤ) ≤ o) :
    dieLikelihood p [o] = .error .indexError := by
  have h1 : ¬ o < 0 := by omega
  have h2 : p[o.toNat]? = none := by rw [List.getElem?_eq_none]; omega
  simp only [dieLikelihood, List.mapM_cons, pyIndex, h1, if_false, h2]
  rfl

/-- **C32, negative die outcomes** are read as positions from the end, so outcome `-k` has the
likelihood of face `n - k`; below `-n` they raise `IndexError`. -/
theorem C32_die_negative (p : List K) (k : Nat) (hk : 0 < k) :
    ((h : k ≤ p.length) → dieLikelihood p [-(k : ℤ)] = .ok [p[p.length - k]]) ∧
    (p.length < k → dieLikelihood p [-(k : ℤ)] = .error .indexError) := by
  have h1 : -(k : ℤ) < 0 := by omega
  constructor
  · intro h
    have h2 : ¬ (-(k : ℤ) + p.length < 0) := by omega
    have h3 : (-(k : ℤ) + p.length).toNat = p.length - k := by omega
    simp only [dieLikelihood, List.mapM_cons, List.mapM_nil, pyIndex, h1, if_true, h2, if_false, h3,
      List.getElem?_eq_getElem (show p.length - k < p.length by omega)]
    rfl
  · intro h
    have h2 : -(k : ℤ) + p.length < 0 := by omega
    simp only [dieLikelihood, List.mapM_cons, pyIndex, h1, if_true, h2]
    rfl

end

/-- **C32, coin score.**  The score is the derivative of the log-likelihood inside `(0, 1)`. -/
theorem C32_coin_score (o : Fin 2) (p : ℝ) (h0 : 0 < p) (h1 : p < 1) :
    HasDerivAt (fun x => Real.log (twoOutcome (coinPr0 x) o.val)) (coinScore (o.val : ℝ) p) p := by
  fin_cases o
  · simp only [twoOutcome, coinPr0]
    simp only [Fin.zero_eta, Fin.val_zero, Nat.cast_zero, if_true]
    convert! (Real.hasDerivAt_log h0.ne') using 1
    simp [coinScore]
  · simp only [twoOutcome, coinPr0]
    simp only [Fin.mk_one, Fin.val_one, Nat.cast_one, one_ne_zero, if_false]
    convert! ((hasDerivAt_id p).const_sub 1).log (by simp only [id]; linarith) using 1
    simp [coinScore, neg_div]

/-- Cases for C32. -/
example : dieValid (1/10000000 : ℚ) [1/2, 1/3, 1/6] = true := by decide +kernel

example : coinValid (1/3 : ℚ) = true := by decide +kernel

/-! ## C33 -/

section
variable {K : Type*} [Field K] [LinearOrder K] [IsStrictOrderedRing K]

/-- **C33, conversions.**  `p(F, d)` and `F(p, d)` are inverse to each other for `d > 1`. -/
theorem C33_inverse (x d : K) (hd : 1 < d) :
    rbP (rbF x d) d = x ∧ rbF (rbP x d) d = x := by
  have h1 : d - 1 ≠ 0 := by intro h; linarith
  have h2 : d ≠ 0 := by intro h; linarith
  constructor
  · unfold rbP rbF; field_simp; ring
  · unfold rbP rbF; field_simp; ring

/-- **C33, fidelity one and the depolarising point** correspond to `p = 1` and `p = 0`. -/
theorem C33_fixed_points (d : K) (hd : 1 < d) : rbP 1 d = 1 ∧ rbP (1 / d) d = 0 := by
  have h1 : d - 1 ≠ 0 := by intro h; linarith
  have h2 : d ≠ 0 := by intro h; linarith
  constructor
  · unfold rbP; rw [mul_one, div_self h1]
  · unfold rbP; rw [mul_one_div, div_self h2, sub_self, zero_div]

theorem rb_bounds (p A B : K) (hp0 : 0 ≤ p) (hp1 : p ≤ 1) (hA : 0 ≤ A) (hB : 0 ≤ B)
    (hAB : A + B ≤ 1) (m : Nat) : IsTwoOutcome (1 - (A * p ^ m + B)) := by
  have h0 : 0 ≤ p ^ m := pow_nonneg hp0 m
  have h1 : p ^ m ≤ 1 := pow_le_one₀ hp0 hp1
  have h2 := mul_nonneg hA h0
  have h3 := mul_le_mul_of_nonneg_left h1 hA
  exact isTwoOutcome_of _ (by linarith) (by linarith)

/-- **C33, likelihood.**  For parameters accepted by `are_models_valid` the likelihood is a
probability for every sequence length, interleaved or not. -/
theorem C33_likelihood (pt p A B : K) (m : Nat) :
    (rbValid p A B = true → IsTwoOutcome (rbPr0 p A B m)) ∧
    (rbValidIl pt p A B = true → ∀ reference, IsTwoOutcome (rbPr0Il pt p A B m reference)) := by
  constructor
  · intro hv
    simp only [rbValid, Bool.and_eq_true, decide_eq_true_eq] at hv
    obtain ⟨⟨⟨⟨⟨⟨⟨h1, h2⟩, h3⟩, h4⟩, h5⟩, h6⟩, h7⟩, h8⟩ := hv
    exact rb_bounds p A B h1 h2 h3 h5 h7 m
  · intro hv reference
    simp only [rbValidIl, Bool.and_eq_true, decide_eq_true_eq] at hv
    obtain ⟨⟨⟨⟨⟨⟨⟨⟨⟨⟨h1, h2⟩, h1'⟩, h2'⟩, h3⟩, h4⟩, h5⟩, h6⟩, h7⟩, h8⟩, h9⟩ := hv
    unfold rbPr0Il
    cases reference
    · exact rb_bounds (pt * p) A B (mul_nonneg h1' h1) (mul_le_one₀ h2' h1 h2) h3 h5 h7 m
    · exact rb_bounds p A B h1 h2 h3 h5 h7 m

/-- **C33, survival probability.**  The likelihood of outcome 1 is the survival probability
`A p^m + B`, with `p̃ p` in place of `p` for an interleaved (non-reference) sequence; with a perfect
interleaved gate both sequences agree. -/
theorem C33_survival (pt p A B : K) (m : Nat) :
    twoOutcome (rbPr0 p A B m) 1 = A * p ^ m + B ∧
    twoOutcome (rbPr0Il pt p A B m true) 1 = A * p ^ m + B ∧
    twoOutcome (rbPr0Il pt p A B m false) 1 = A * (pt * p) ^ m + B ∧
    rbPr0Il 1 p A B m false = rbPr0Il 1 p A B m true := by
  refine ⟨?_, ?_, ?_, ?_⟩ <;> simp [twoOutcome, rbPr0, rbPr0Il]

end

/-- The scores of a two-outcome model with survival probability `S`. -/
theorem rb_deriv (o : Fin 2) (S : ℝ → ℝ) (S' x : ℝ) (hS : HasDerivAt S S' x)
    (hL : twoOutcome (1 - S x) o.val ≠ 0) :
    HasDerivAt (fun y => Real.log (twoOutcome (1 - S y) o.val))
      ((-1) ^ (1 - o.val) * S' / twoOutcome (1 - S x) o.val) x := by
  fin_cases o
  · simp only [twoOutcome, Fin.zero_eta, Fin.val_zero, Nat.cast_zero, if_true] at hL ⊢
    convert! (hS.const_sub 1).log hL using 1
    simp
  · simp only [twoOutcome, Fin.mk_one, Fin.val_one, Nat.cast_one, one_ne_zero, if_false] at hL ⊢
    convert! ((hS.const_sub 1).const_sub 1).log hL using 1
    simp

theorem hasDerivAt_pow_uint (m : Nat) (x : ℝ) :
    HasDerivAt (fun y : ℝ => y ^ m) (m * x ^ uintPred m) x := by
  cases m with
  | zero => simpa [uintPred] using hasDerivAt_const x (1 : ℝ)
  | succ m => simpa [uintPred] using hasDerivAt_pow (m + 1) x

/-- **C33, score.**  The three components of the score are the partial derivatives of the
log-likelihood in `p`, `A` and `B`, for every sequence length including 0. -/
theorem C33_score (o : Fin 2) (p A B : ℝ) (m : Nat)
    (hL : twoOutcome (rbPr0 p A B m) o.val ≠ 0) :
    HasDerivAt (fun x => Real.log (twoOutcome (rbPr0 x A B m) o.val)) (rbScore o p A B m).1 p ∧
    HasDerivAt (fun x => Real.log (twoOutcome (rbPr0 p x B m) o.val)) (rbScore o p A B m).2.1 A ∧
    HasDerivAt (fun x => Real.log (twoOutcome (rbPr0 p A x m) o.val)) (rbScore o p A B m).2.2 B := by
  refine ⟨?_, ?_, ?_⟩
  · refine rb_deriv o (fun x => A * x ^ m + B) (A * m * p ^ uintPred m) p ?_ hL
    convert! ((hasDerivAt_pow_uint m p).const_mul A).add_const B using 1
    ring
  · refine rb_deriv o (fun x => x * p ^ m + B) (p ^ m) A ?_ hL
    convert! ((hasDerivAt_id A).mul_const (p ^ m)).add_const B using 1
    ring
  · refine rb_deriv o (fun x => A * p ^ m + x) 1 B ?_ hL
    exact (hasDerivAt_id B).const_add _

/-- **C33, interleaved score.**  The four components are the partial derivatives in `p̃`, `p`, `A`
and `B`, for reference and interleaved sequences. -/
theorem C33_score_interleaved (o : Fin 2) (pt p A B : ℝ) (m : Nat) (reference : Bool)
    (hL : twoOutcome (rbPr0Il pt p A B m reference) o.val ≠ 0) :
    HasDerivAt (fun x => Real.log (twoOutcome (rbPr0Il x p A B m reference) o.val))
      (rbScoreIl o pt p A B m reference).1 pt ∧
    HasDerivAt (fun x => Real.log (twoOutcome (rbPr0Il pt x A B m reference) o.val))
      (rbScoreIl o pt p A B m reference).2.1 p ∧
    HasDerivAt (fun x => Real.log (twoOutcome (rbPr0Il pt p x B m reference) o.val))
      (rbScoreIl o pt p A B m reference).2.2.1 A ∧
    HasDerivAt (fun x => Real.log (twoOutcome (rbPr0Il pt p A x m reference) o.val))
      (rbScoreIl o pt p A B m reference).2.2.2 B := by
  cases reference
  · refine ⟨?_, ?_, ?_, ?_⟩
    · refine rb_deriv o (fun x => A * (x * p) ^ m + B) (A * m * pt ^ uintPred m * p ^ m) pt ?_ hL
      have h := (((hasDerivAt_pow_uint m pt).mul_const (p ^ m)).const_mul A).add_const B
      convert! h using 1
      · funext x; rw [mul_pow]
      · ring
    · refine rb_deriv o (fun x => A * (pt * x) ^ m + B) (A * m * p ^ uintPred m * pt ^ m) p ?_ hL
      have h := (((hasDerivAt_pow_uint m p).const_mul (pt ^ m)).const_mul A).add_const B
      convert! h using 1
      · funext x; rw [mul_pow]
      · ring
    · refine rb_deriv o (fun x => x * (pt * p) ^ m + B) ((pt * p) ^ m) A ?_ hL
      convert! ((hasDerivAt_id A).mul_const ((pt * p) ^ m)).add_const B using 1
      ring
    · refine rb_deriv o (fun x => A * (pt * p) ^ m + x) 1 B ?_ hL
      exact (hasDerivAt_id B).const_add _
  · refine ⟨?_, ?_, ?_, ?_⟩
    · refine rb_deriv o (fun x => A * p ^ m + B) 0 pt ?_ hL
      exact hasDerivAt_const _ _
    · refine rb_deriv o (fun x => A * x ^ m + B) (A * m * p ^ uintPred m) p ?_ hL
      convert! ((hasDerivAt_pow_uint m p).const_mul A).add_const B using 1
      ring
    · refine rb_deriv o (fun x => x * p ^ m + B) (p ^ m) A ?_ hL
      convert! ((hasDerivAt_id A).mul_const (p ^ m)).add_const B using 1
      ring
    · refine rb_deriv o (fun x => A * p ^ m + x) 1 B ?_ hL
      exact (hasDerivAt_id B).const_add _

/-- Cases for C33. -/
example : rbValid (9/10 : ℚ) (1/3) (1/2) = true := by decide +kernel

example : rbValidIl (99/100 : ℚ) (9/10) (1/3) (1/2) = true := by decide +kernel

end QInfer
