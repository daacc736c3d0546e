import Verif.Lemmas.Identify
import Verif.Props.Concentrate
import Verif.Model.Heur
import Mathlib.Analysis.Real.Pi.Bounds

/-!
# C139: what data can tell apart

Which parameters of the physical models give the same data probabilities, for given experiments, and what
that means for the weights.
-/

namespace QInfer

open Spec Filter Topology MeasureTheory

/-! ## Precession -/

/-- **C139, aliases.**  A precession experiment of duration `t` fails to tell two frequencies apart
exactly if they agree modulo `2π/t` up to the sign. -/
theorem C139_aliases (ω ω' t : ℝ) :
    ¬ ToldApart (precessionPr0 ω t) (precessionPr0 ω' t) ↔
      ∃ k : ℤ, t * ω' = 2 * Real.pi * k + t * ω ∨ t * ω' = 2 * Real.pi * k - t * ω := by
  rw [precession_agree, Real.cos_eq_cos_iff]
  constructor
  · rintro ⟨k, h⟩; exact ⟨k, by rcases h with h | h <;> [left; right] <;> linarith⟩
  · rintro ⟨k, h⟩; exact ⟨k, by rcases h with h | h <;> [left; right] <;> linarith⟩

/-- **C139, signs and multiples.**  No experiment tells a frequency from its negative, and experiments
whose durations are multiples of `τ` do not tell apart frequencies that differ by a multiple of `2π/τ`. -/
theorem C139_never_told_apart (ω τ : ℝ) (hτ : τ ≠ 0) :
    (∀ t, ¬ ToldApart (precessionPr0 ω t) (precessionPr0 (-ω) t)) ∧
    ∀ m k : ℤ, ¬ ToldApart (precessionPr0 ω (m * τ)) (precessionPr0 (ω + 2 * Real.pi * k / τ) (m * τ)) := by
  refine ⟨fun t => (C139_aliases _ _ _).mpr ⟨0, Or.inr (by push_cast; ring)⟩, fun m k => ?_⟩
  refine (C139_aliases _ _ _).mpr ⟨m * k, Or.inl ?_⟩
  push_cast
  field_simp
  ring

/-- **C139, short times.**  If all frequencies lie between 0 and `Ω`, a single duration of at most `π/Ω`
tells any two apart. -/
theorem C139_short_times (ω ω' Ω t : ℝ) (h : ω ∈ Set.Icc 0 Ω) (h' : ω' ∈ Set.Icc 0 Ω) (ht : 0 < t)
    (htΩ : t * Ω ≤ Real.pi) (hne : ω ≠ ω') : ToldApart (precessionPr0 ω t) (precessionPr0 ω' t) := by
  by_contra hc
  rw [precession_agree] at hc
  have hin : ∀ x ∈ Set.Icc 0 Ω, t * x ∈ Set.Icc 0 Real.pi := fun x hx =>
    ⟨mul_nonneg ht.le hx.1, (mul_le_mul_of_nonneg_left hx.2 ht.le).trans htΩ⟩
  have := Real.injOn_cos (hin ω h) (hin ω' h') hc
  exact hne (mul_left_cancel₀ ht.ne' this)

/-- **C139, two durations never suffice.**  For any two durations there are two different non-negative
frequencies that no experiment tells apart whose duration is a multiple of one of them. -/
theorem C139_two_times (t₁ t₂ : ℝ) (h₁ : 0 < t₁) (h₂ : 0 < t₂) : ∃ ω ω' : ℝ, 0 ≤ ω ∧ 0 ≤ ω' ∧ ω ≠ ω' ∧
    ∀ m : ℤ, ¬ ToldApart (precessionPr0 ω (m * t₁)) (precessionPr0 ω' (m * t₁)) ∧
      ¬ ToldApart (precessionPr0 ω (m * t₂)) (precessionPr0 ω' (m * t₂)) := by
  have hπ := Real.pi_pos
  have key : ∀ a b : ℝ, 0 < a → a ≤ b → ∃ ω ω' : ℝ, 0 ≤ ω ∧ 0 ≤ ω' ∧ ω ≠ ω' ∧
    ∀ m : ℤ, ¬ ToldApart (precessionPr0 ω (m * a)) (precessionPr0 ω' (m * a)) ∧
      ¬ ToldApart (precessionPr0 ω (m * b)) (precessionPr0 ω' (m * b)) := by
    intro a b ha hab
    have hb : 0 < b := ha.trans_le hab
    have hle : 1 / b ≤ 1 / a := one_div_le_one_div_of_le ha hab
    have hb' : 0 < 1 / b := by positivity
    refine ⟨Real.pi * (1 / a + 1 / b), Real.pi * (1 / a - 1 / b),
      mul_nonneg hπ.le (by linarith), mul_nonneg hπ.le (by linarith), ?_, fun m => ⟨?_, ?_⟩⟩
    · intro h
      have := mul_left_cancel₀ hπ.ne' h
      linarith
    · refine (C139_aliases _ _ _).mpr ⟨m, Or.inr ?_⟩
      field_simp
      ring
    · refine (C139_aliases _ _ _).mpr ⟨-m, Or.inl ?_⟩
      push_cast
      field_simp
      ring
  rcases le_total t₁ t₂ with h | h
  · exact key t₁ t₂ h₁ h
  · obtain ⟨ω, ω', a, b, c, d⟩ := key t₂ t₁ h₂ h
    exact ⟨ω, ω', a, b, c, fun m => (d m).symm⟩

theorem incommensurate {x a b : ℝ} (k l : ℤ) (hx : x ≠ 0) (ha : a * x = 2 * Real.pi * k)
    (hb : b * x = 2 * Real.pi * l) (hb0 : b ≠ 0) : ¬ Irrational (a / b) := by
  intro h
  apply h
  refine ⟨(k : ℚ) / l, ?_⟩
  have hl : (l : ℝ) ≠ 0 := by
    intro hl
    rw [hl, mul_zero] at hb
    exact (mul_ne_zero hb0 hx) hb
  have hπ := Real.pi_pos.ne'
  push_cast
  rw [div_eq_div_iff hl hb0]
  have : a * x * (2 * Real.pi * l) = 2 * Real.pi * k * (b * x) := by rw [ha, hb]
  have h2 : (2 * Real.pi * x) * (a * l) = (2 * Real.pi * x) * (k * b) := by linarith
  exact (mul_left_cancel₀ (by positivity) h2).symm

/-- **C139, three durations suffice.**  Three durations of which no two have a rational ratio tell any
two different non-negative frequencies apart. -/
theorem C139_three_times (t : Fin 3 → ℝ) (hirr : ∀ i j, i ≠ j → Irrational (t i / t j))
    (ω ω' : ℝ) (h : 0 ≤ ω) (h' : 0 ≤ ω') (hne : ω ≠ ω') :
    ∃ i, ToldApart (precessionPr0 ω (t i)) (precessionPr0 ω' (t i)) := by
  by_contra hc
  push Not at hc
  have hz : ∀ i, t i ≠ 0 := by
    intro i h0
    obtain ⟨j, hj⟩ : ∃ j, j ≠ i := ⟨i + 1, by fin_cases i <;> decide⟩
    have := hirr j i hj
    rw [h0, div_zero] at this
    exact this ⟨0, by simp⟩
  have hd : ω' - ω ≠ 0 := sub_ne_zero.mpr hne.symm
  have hs : ω' + ω ≠ 0 := by
    intro h0
    have h1 : ω = 0 := by linarith
    have h2 : ω' = 0 := by linarith
    exact hne (h1.trans h2.symm)
  have split : ∀ i, (∃ k : ℤ, t i * (ω' - ω) = 2 * Real.pi * k) ∨
      ∃ k : ℤ, t i * (ω' + ω) = 2 * Real.pi * k := by
    intro i
    obtain ⟨k, hk | hk⟩ := (C139_aliases _ _ _).mp (hc i)
    · exact Or.inl ⟨k, by linarith⟩
    · exact Or.inr ⟨k, by linarith⟩
  have two : ∀ x : ℝ, x ≠ 0 → ∀ i j, i ≠ j → (∃ k : ℤ, t i * x = 2 * Real.pi * k) →
      (∃ k : ℤ, t j * x = 2 * Real.pi * k) → False := by
    rintro x hx i j hij ⟨k, hk⟩ ⟨l, hl⟩
    exact incommensurate k l hx hk hl (hz j) (hirr i j hij)
  rcases split 0 with h0 | h0 <;> rcases split 1 with h1 | h1 <;> rcases split 2 with h2 | h2
  · exact two _ hd 0 1 (by decide) h0 h1
  · exact two _ hd 0 1 (by decide) h0 h1
  · exact two _ hd 0 2 (by decide) h0 h2
  · exact two _ hs 1 2 (by decide) h1 h2
  · exact two _ hd 1 2 (by decide) h1 h2
  · exact two _ hs 0 2 (by decide) h0 h2
  · exact two _ hs 0 1 (by decide) h0 h1
  · exact two _ hs 0 1 (by decide) h0 h1

/-- The durations chosen by an `ExpSparseHeuristic` without a time field. -/
def Spec.SparseTime {V F : Type} [DecidableEq F] (h : ExpSparse ℝ V F) (n : ℕ) (t : ℝ) : Prop :=
  ∃ (ofTime : ℝ → V) (junk : F → V), expSparseCall h ofTime n junk = .ok (.scalar t)

/-- **C139, exponentially sparse times.**  Let the base of an `ExpSparseHeuristic` be a fraction `a/b` in
lowest terms that is not a whole number, like the default 9/8.  The first experiment tells apart all
frequencies between 0 and `π / scale`.  No finite number of its experiments tells all frequencies apart:
`ω` and `ω + 2π bⁿ / scale` look the same to the first `n`.  But of any two different non-negative
frequencies some experiment of the unending sequence tells one from the other. -/
theorem C139_sparse_times {V F : Type} [DecidableEq F] (h : ExpSparse ℝ V F) (v : V) (hf : h.tField = none)
    (hs : 0 < h.scale) (a b : ℕ) (hab : Nat.Coprime a b) (ha : a ≠ 0) (hb : 2 ≤ b)
    (hbase : h.base = (a : ℝ) / b) :
    (∀ t, SparseTime h 0 t → ∀ ω ∈ Set.Icc 0 (Real.pi / h.scale), ∀ ω' ∈ Set.Icc 0 (Real.pi / h.scale),
      ω ≠ ω' → ToldApart (precessionPr0 ω t) (precessionPr0 ω' t)) ∧
    (∀ n ω, ∀ k < n, ∀ t, SparseTime h k t →
      ¬ ToldApart (precessionPr0 ω t) (precessionPr0 (ω + 2 * Real.pi * b ^ n / h.scale) t)) ∧
    (∀ ω ω' : ℝ, 0 ≤ ω → 0 ≤ ω' → ω ≠ ω' → ∃ k t, SparseTime h k t ∧
      ToldApart (precessionPr0 ω t) (precessionPr0 ω' t)) := by
  have hb0 : (b : ℝ) ≠ 0 := by positivity
  have htime : ∀ k t, SparseTime h k t → t = h.scale * ((a : ℝ) / b) ^ k := by
    rintro k t ⟨o, j, he⟩
    simp only [expSparseCall, hf, Except.ok.injEq, SparseOut.scalar.injEq] at he
    rw [← he, hbase]
  refine ⟨fun t ht ω hω ω' hω' hne => ?_, fun n ω k hk t ht => ?_, fun ω ω' h1 h2 hne => ?_⟩
  · rw [htime 0 t ht, pow_zero, mul_one]
    exact C139_short_times ω ω' _ h.scale hω hω' hs (by field_simp; exact le_refl _) hne
  · rw [htime k t ht]
    refine (C139_aliases _ _ _).mpr ⟨(a : ℤ) ^ k * (b : ℤ) ^ (n - k), Or.inl ?_⟩
    have hp : (b : ℝ) ^ n = b ^ k * b ^ (n - k) := by rw [← pow_add]; congr 1; omega
    push_cast
    rw [hp, div_pow]
    have := hs.ne'
    field_simp
    ring
  · by_contra hc
    push Not at hc
    have hd : ω' - ω ≠ 0 := sub_ne_zero.mpr hne.symm
    have hsum : ω' + ω ≠ 0 := by
      intro h0
      exact hne ((show ω = 0 by linarith).trans (show ω' = 0 by linarith).symm)
    have split : ∀ k : ℕ, (∃ m : ℤ, h.scale * ((a : ℝ) / b) ^ k * (ω' - ω) = 2 * Real.pi * m) ∨
        ∃ m : ℤ, h.scale * ((a : ℝ) / b) ^ k * (ω' + ω) = 2 * Real.pi * m := by
      intro k
      have ht : SparseTime h k (h.scale * ((a : ℝ) / b) ^ k) :=
        ⟨fun _ => v, fun _ => v, by simp only [expSparseCall, hf, hbase]⟩
      obtain ⟨m, hm | hm⟩ := (C139_aliases _ _ _).mp (hc k _ ht)
      · exact Or.inl ⟨m, by linarith⟩
      · exact Or.inr ⟨m, by linarith⟩
    have never : ∀ x : ℝ, x ≠ 0 → ∃ K : ℕ, ∀ k ≥ K,
        ¬ ∃ m : ℤ, h.scale * ((a : ℝ) / b) ^ k * x = 2 * Real.pi * m := by
      intro x hx
      by_cases hex : ∃ k, ∃ m : ℤ, h.scale * ((a : ℝ) / b) ^ k * x = 2 * Real.pi * m
      · obtain ⟨k₀, M, hM⟩ := hex
        have hMz : M ≠ 0 := by
          rintro rfl
          rw [Int.cast_zero, mul_zero] at hM
          have : h.scale * ((a : ℝ) / b) ^ k₀ * x ≠ 0 := by
            have : (a : ℝ) ≠ 0 := by exact_mod_cast ha
            positivity
          exact this hM
        refine ⟨k₀ + M.natAbs + 1, ?_⟩
        rintro k hk ⟨m, hm⟩
        obtain ⟨d, rfl⟩ : ∃ d, k = k₀ + d := ⟨k - k₀, by omega⟩
        have hmul : (M : ℝ) * a ^ d = m * b ^ d := by
          rw [pow_add, ← mul_assoc] at hm
          have e : (2 * Real.pi) * ((M : ℝ) * ((a : ℝ) / b) ^ d) = (2 * Real.pi) * m := by
            rw [← hm, ← mul_assoc, ← hM]; ring
          have := mul_left_cancel₀ (by positivity : (2 * Real.pi) ≠ 0) e
          rw [div_pow] at this
          field_simp at this
          linarith
        have hint : M * (a : ℤ) ^ d = m * (b : ℤ) ^ d := by exact_mod_cast hmul
        have hdvd : (b : ℤ) ^ d ∣ M * (a : ℤ) ^ d := ⟨m, by rw [hint]; ring⟩
        have hcop : IsCoprime ((b : ℤ) ^ d) ((a : ℤ) ^ d) :=
          (Nat.isCoprime_iff_coprime.mpr hab.symm).pow
        have hdM : (b : ℤ) ^ d ∣ M := hcop.dvd_of_dvd_mul_right hdvd
        have hnat : b ^ d ∣ M.natAbs := by
          have := Int.natAbs_dvd_natAbs.mpr hdM
          simpa [Int.natAbs_pow] using this
        have hle := Nat.le_of_dvd (Int.natAbs_pos.mpr hMz) hnat
        have : d < b ^ d := Nat.lt_pow_self (by omega)
        omega
      · exact ⟨0, fun k _ hk => hex ⟨k, hk⟩⟩
    obtain ⟨K₁, hK₁⟩ := never _ hd
    obtain ⟨K₂, hK₂⟩ := never _ hsum
    rcases split (max K₁ K₂) with hk | hk
    · exact hK₁ _ (le_max_left _ _) hk
    · exact hK₂ _ (le_max_right _ _) hk

/-- **C139, inversion.**  With a fixed inversion frequency `w`, `SimpleInversionModel` never tells `ω` from
its mirror image `2w - ω`.  Two inversion frequencies at the same duration `t`, with `t (w₁ - w₂)` not a
multiple of `π`, tell apart all frequencies except those that differ by a multiple of `2π/t`. -/
theorem C139_inversion (ω ω' t w₁ w₂ : ℝ) :
    (∀ t, ¬ ToldApart (inversionPr0 ω t w₁) (inversionPr0 (2 * w₁ - ω) t w₁)) ∧
    ((∀ k : ℤ, t * (w₁ - w₂) ≠ k * Real.pi) →
      ((¬ ToldApart (inversionPr0 ω t w₁) (inversionPr0 ω' t w₁) ∧
        ¬ ToldApart (inversionPr0 ω t w₂) (inversionPr0 ω' t w₂)) ↔
        ∃ k : ℤ, t * (ω' - ω) = 2 * Real.pi * k)) := by
  constructor
  · intro t
    rw [inversion_agree, ← Real.cos_neg]
    congr 1
    ring
  · intro hw
    rw [inversion_agree, inversion_agree, Real.cos_eq_cos_iff, Real.cos_eq_cos_iff]
    constructor
    · rintro ⟨⟨k, hk | hk⟩, l, hl | hl⟩
      · exact ⟨k, by linarith⟩
      · exact ⟨k, by linarith⟩
      · exact ⟨l, by linarith⟩
      · refine absurd ?_ (hw (l - k))
        push_cast
        linarith
    · rintro ⟨k, hk⟩
      exact ⟨⟨k, Or.inl (by linarith)⟩, k, Or.inl (by linarith)⟩

/-! ## Decoherence -/

/-- **C139, decoherence.**  No single duration determines frequency and decay rate of
`UnknownT2Model`.  Two durations `t` and `2t` do, for frequencies up to `π/t`. -/
theorem C139_decoherence (t : ℝ) (ht : 0 < t) :
    (∀ τ : ℝ, 0 ≤ τ → ∃ ω g g' : ℝ, t2Valid ω g = true ∧ t2Valid ω g' = true ∧ g ≠ g' ∧
      ¬ ToldApart (t2Pr0 ω g τ) (t2Pr0 ω g' τ)) ∧
    ∀ ω g ω' g' : ℝ, t2Valid ω g = true → t2Valid ω' g' = true → t * ω ≤ Real.pi → t * ω' ≤ Real.pi →
      (ω, g) ≠ (ω', g') → ToldApart (t2Pr0 ω g t) (t2Pr0 ω' g' t) ∨
        ToldApart (t2Pr0 ω g (2 * t)) (t2Pr0 ω' g' (2 * t)) := by
  have val : ∀ ω g τ : ℝ, t2Pr0 ω g τ = (1 + Real.exp (-(τ * g)) * Real.cos (ω * τ)) / 2 := by
    intro ω g τ
    rw [t2Pr0, Real.cos_sq]
    rw [show -τ * g = -(τ * g) by ring, show 2 * (ω * τ / 2) = ω * τ by ring]
    ring
  have valid : ∀ ω g : ℝ, t2Valid ω g = true ↔ 0 ≤ ω ∧ 0 ≤ g := by
    intro ω g; simp [t2Valid]
  constructor
  · intro τ hτ
    refine ⟨Real.pi / (2 * τ), 0, 1, (valid _ _).mpr ⟨by positivity, le_rfl⟩,
      (valid _ _).mpr ⟨by positivity, by norm_num⟩, by norm_num, ?_⟩
    rw [toldApart_iff, not_not, val, val]
    rcases eq_or_lt_of_le hτ with h0 | h0
    · rw [← h0]; simp
    · rw [show Real.pi / (2 * τ) * τ = Real.pi / 2 by field_simp, Real.cos_pi_div_two]
      ring
  · intro ω g ω' g' h h' hω hω' hne
    by_contra hc
    rw [not_or, toldApart_iff, toldApart_iff, not_not, not_not, val, val, val, val] at hc
    obtain ⟨h1, h2⟩ := hc
    rw [valid] at h h'
    have e1 : ∀ x y : ℝ, x * (2 * y) = 2 * (y * x) := fun x y => by ring
    have e2 : ∀ x : ℝ, Real.exp (-(2 * t * x)) = Real.exp (-(t * x)) ^ 2 := by
      intro x
      rw [← Real.exp_nat_mul]; congr 1; push_cast; ring
    rw [e1, e1, Real.cos_two_mul, Real.cos_two_mul, e2, e2] at h2
    rw [mul_comm ω t, mul_comm ω' t] at h1
    have hr : 0 < Real.exp (-(t * g)) := Real.exp_pos _
    have hr' : 0 < Real.exp (-(t * g')) := Real.exp_pos _
    generalize hR : Real.exp (-(t * g)) = r at *
    generalize hR' : Real.exp (-(t * g')) = r' at *
    have h3 : r * Real.cos (t * ω) = r' * Real.cos (t * ω') := by linarith
    have h4 : r ^ 2 = r' ^ 2 := by
      have : (r * Real.cos (t * ω)) ^ 2 = (r' * Real.cos (t * ω')) ^ 2 := by rw [h3]
      nlinarith
    have h5 : r = r' := (pow_left_inj₀ hr.le hr'.le two_ne_zero).mp h4
    subst h5
    have h6 : Real.cos (t * ω) = Real.cos (t * ω') := mul_left_cancel₀ hr.ne' h3
    have h7 : t * ω = t * ω' := Real.injOn_cos ⟨mul_nonneg ht.le h.1, hω⟩
      ⟨mul_nonneg ht.le h'.1, hω'⟩ h6
    have h8 : -(t * g) = -(t * g') := Real.exp_injective (hR.trans hR'.symm)
    apply hne
    rw [Prod.mk.injEq]
    exact ⟨mul_left_cancel₀ ht.ne' h7, mul_left_cancel₀ ht.ne' (neg_injective h8)⟩

/-! ## Randomized benchmarking -/

theorem rbValid_bounds {p A B : ℝ} (h : rbValid p A B = true) :
    0 ≤ p ∧ p ≤ 1 ∧ 0 ≤ A ∧ A ≤ 1 ∧ 0 ≤ B ∧ B ≤ 1 ∧ A + B ≤ 1 := by
  simp only [rbValid, Bool.and_eq_true, decide_eq_true_eq] at h
  tauto

/-- **C139, benchmarking: two lengths never suffice**, whatever they are: some different valid parameters,
with `0 < p < 1` and `A > 0`, have the same survival probabilities at both. -/
theorem C139_rb_two_lengths (m₁ m₂ : ℕ) : ∃ p A B p' A' B' : ℝ,
    rbValid p A B = true ∧ rbValid p' A' B' = true ∧ p ∈ Set.Ioo 0 1 ∧ p' ∈ Set.Ioo 0 1 ∧ 0 < A ∧ 0 < A' ∧
    p ≠ p' ∧ ¬ ToldApart (rbPr0 p A B m₁) (rbPr0 p' A' B' m₁) ∧
    ¬ ToldApart (rbPr0 p A B m₂) (rbPr0 p' A' B' m₂) := by
  have key : ∀ m₁ m₂ : ℕ, m₁ < m₂ → ∃ p A B p' A' B' : ℝ,
    rbValid p A B = true ∧ rbValid p' A' B' = true ∧ p ∈ Set.Ioo 0 1 ∧ p' ∈ Set.Ioo 0 1 ∧ 0 < A ∧ 0 < A' ∧
    p ≠ p' ∧ ¬ ToldApart (rbPr0 p A B m₁) (rbPr0 p' A' B' m₁) ∧
    ¬ ToldApart (rbPr0 p A B m₂) (rbPr0 p' A' B' m₂) := by
    intro m₁ m₂ hm
    have hx : ∀ x : ℝ, 0 < x → x < 1 → 0 < x ^ m₁ ∧ x ^ m₁ ≤ 1 ∧ 0 < x ^ m₂ ∧ x ^ m₂ < x ^ m₁ :=
      fun x h0 h1 => ⟨pow_pos h0 _, pow_le_one₀ h0.le h1.le, pow_pos h0 _,
        pow_lt_pow_right_of_lt_one₀ h0 h1 hm⟩
    obtain ⟨a1, a2, a3, a4⟩ := hx (1 / 2) (by norm_num) (by norm_num)
    obtain ⟨b1, b2, b3, b4⟩ := hx (1 / 3) (by norm_num) (by norm_num)
    generalize hu : ((1 : ℝ) / 2) ^ m₁ = u at *
    generalize hU : ((1 : ℝ) / 2) ^ m₂ = U at *
    generalize hv : ((1 : ℝ) / 3) ^ m₁ = v at *
    generalize hV : ((1 : ℝ) / 3) ^ m₂ = V at *
    have c1 : (v - V) / 4 * u ≤ 1 / 4 := by nlinarith
    have c2 : 0 ≤ (v - V) / 4 * u := by nlinarith
    have c3 : (u - U) / 4 * v ≤ 1 / 4 := by nlinarith
    have c4 : 0 ≤ (u - U) / 4 * v := by nlinarith
    refine ⟨1 / 2, (v - V) / 4, 1 / 2, 1 / 3, (u - U) / 4, 1 / 2 + (v - V) / 4 * u - (u - U) / 4 * v,
      ?_, ?_, by norm_num, by norm_num, by linarith, by linarith, by norm_num, ?_, ?_⟩
    · simp only [rbValid, Bool.and_eq_true, decide_eq_true_eq]
      refine ⟨⟨⟨⟨⟨⟨⟨?_, ?_⟩, ?_⟩, ?_⟩, ?_⟩, ?_⟩, ?_⟩, ?_⟩ <;> linarith
    · simp only [rbValid, Bool.and_eq_true, decide_eq_true_eq]
      refine ⟨⟨⟨⟨⟨⟨⟨?_, ?_⟩, ?_⟩, ?_⟩, ?_⟩, ?_⟩, ?_⟩, ?_⟩ <;> linarith
    · rw [toldApart_iff, not_not, rbPr0, rbPr0, hu, hv]; ring
    · rw [toldApart_iff, not_not, rbPr0, rbPr0, hU, hV]; ring
  rcases lt_trichotomy m₁ m₂ with h | h | h
  · exact key m₁ m₂ h
  · obtain ⟨p, A, B, p', A', B', h1, h2, h3, h4, h5, h6, h7, h8, -⟩ := key m₁ (m₁ + 1) (by omega)
    exact ⟨p, A, B, p', A', B', h1, h2, h3, h4, h5, h6, h7, h8, h ▸ h8⟩
  · obtain ⟨p, A, B, p', A', B', h1, h2, h3, h4, h5, h6, h7, h8, h9⟩ := key m₂ m₁ h
    exact ⟨p, A, B, p', A', B', h1, h2, h3, h4, h5, h6, h7, h9, h8⟩

/-- **C139, benchmarking: three lengths suffice**, whatever they are, unless `p` is 0 or 1 or `A` is 0: no
other valid parameters have the same survival probabilities at all three. -/
theorem C139_rb_three_lengths (m₁ m₂ m₃ : ℕ) (h12 : m₁ < m₂) (h23 : m₂ < m₃) (p A B p' A' B' : ℝ)
    (hv : rbValid p A B = true) (hv' : rbValid p' A' B' = true) (hp : p ∈ Set.Ioo 0 1) (hA : A ≠ 0)
    (hne : (p, A, B) ≠ (p', A', B')) :
    ToldApart (rbPr0 p A B m₁) (rbPr0 p' A' B' m₁) ∨ ToldApart (rbPr0 p A B m₂) (rbPr0 p' A' B' m₂) ∨
      ToldApart (rbPr0 p A B m₃) (rbPr0 p' A' B' m₃) := by
  by_contra hc
  simp only [not_or, toldApart_iff, not_not, rbPr0] at hc
  obtain ⟨e1, e2, e3⟩ := hc
  obtain ⟨-, -, hA0, -⟩ := rbValid_bounds hv
  obtain ⟨hp0', hp1', hA0', -⟩ := rbValid_bounds hv'
  have hApos : 0 < A := lt_of_le_of_ne hA0 (Ne.symm hA)
  have q12 : p ^ m₂ < p ^ m₁ := pow_lt_pow_right_of_lt_one₀ hp.1 hp.2 h12
  have q23 : p ^ m₃ < p ^ m₂ := pow_lt_pow_right_of_lt_one₀ hp.1 hp.2 h23
  have d12 : A * (p ^ m₁ - p ^ m₂) = A' * (p' ^ m₁ - p' ^ m₂) := by linarith
  have d23 : A * (p ^ m₂ - p ^ m₃) = A' * (p' ^ m₂ - p' ^ m₃) := by linarith
  have d13 : A * (p ^ m₁ - p ^ m₃) = A' * (p' ^ m₁ - p' ^ m₃) := by linarith
  have pos12 : 0 < A' * (p' ^ m₁ - p' ^ m₂) := d12 ▸ mul_pos hApos (by linarith)
  have pos23 : 0 < A' * (p' ^ m₂ - p' ^ m₃) := d23 ▸ mul_pos hApos (by linarith)
  have hA' : 0 < A' := by
    rcases eq_or_lt_of_le hA0' with h | h
    · rw [← h, zero_mul] at pos12; exact absurd pos12 (lt_irrefl _)
    · exact h
  have hp0 : 0 < p' := by
    rcases eq_or_lt_of_le hp0' with h | h
    · rw [← h, zero_pow (by omega), zero_pow (by omega), sub_self, mul_zero] at pos23
      exact absurd pos23 (lt_irrefl _)
    · exact h
  have hp1 : p' < 1 := by
    rcases eq_or_lt_of_le hp1' with h | h
    · rw [h, one_pow, one_pow, sub_self, mul_zero] at pos12; exact absurd pos12 (lt_irrefl _)
    · exact h
  have fac : ∀ x : ℝ, 0 < x → x < 1 → (x ^ m₁ - x ^ m₃) / (x ^ m₁ - x ^ m₂) =
      (1 - x ^ (m₃ - m₁)) / (1 - x ^ (m₂ - m₁)) := by
    intro x h0 h1
    have hz := (pow_pos h0 m₁).ne'
    rw [show x ^ m₃ = x ^ m₁ * x ^ (m₃ - m₁) by rw [← pow_add]; congr 1; omega,
      show x ^ m₂ = x ^ m₁ * x ^ (m₂ - m₁) by rw [← pow_add]; congr 1; omega,
      show ∀ y : ℝ, x ^ m₁ - x ^ m₁ * y = x ^ m₁ * (1 - y) from fun y => by ring,
      show ∀ y : ℝ, x ^ m₁ - x ^ m₁ * y = x ^ m₁ * (1 - y) from fun y => by ring,
      mul_div_mul_left _ _ hz]
  have ratio : (p ^ m₁ - p ^ m₃) / (p ^ m₁ - p ^ m₂) = (p' ^ m₁ - p' ^ m₃) / (p' ^ m₁ - p' ^ m₂) := by
    rw [← mul_div_mul_left _ _ hApos.ne', d13, d12, mul_div_mul_left _ _ hA'.ne']
  rw [fac p hp.1 hp.2, fac p' hp0 hp1] at ratio
  have hpp : p = p' := by
    rcases lt_trichotomy p p' with h | h | h
    · exact absurd ratio (geometric_ratio (by omega) (by omega) hp.1.le h hp1).ne
    · exact h
    · exact absurd ratio (geometric_ratio (by omega) (by omega) hp0.le h hp.2).ne'
  subst hpp
  have hAA : A = A' := mul_right_cancel₀ (sub_pos.mpr q12).ne' d12
  subst hAA
  exact hne (by rw [show B = B' by linarith])

/-- **C139, benchmarking: what is invisible.**  At `p = 1` only `A + B` matters, at `A = 0` only `B`. -/
theorem C139_rb_degenerate (m : ℕ) (p p' A A' B B' : ℝ) :
    (A + B = A' + B' → ¬ ToldApart (rbPr0 1 A B m) (rbPr0 1 A' B' m)) ∧
    ¬ ToldApart (rbPr0 p 0 B m) (rbPr0 p' 0 B m) := by
  constructor
  · intro h
    rw [toldApart_iff, not_not, rbPr0, rbPr0, one_pow]
    linarith
  · rw [toldApart_iff, not_not, rbPr0, rbPr0]
    ring

/-- **C139, interleaved benchmarking.**  Reference sequences of three lengths and interleaved sequences of
one positive length suffice for all four parameters, unless `p` is 0 or 1 or `A` is 0. -/
theorem C139_rb_interleaved (m₁ m₂ m₃ m : ℕ) (h12 : m₁ < m₂) (h23 : m₂ < m₃) (hm : m ≠ 0)
    (pt p A B pt' p' A' B' : ℝ) (hv : rbValidIl pt p A B = true) (hv' : rbValidIl pt' p' A' B' = true)
    (hp : p ∈ Set.Ioo 0 1) (hA : A ≠ 0) (hne : (pt, p, A, B) ≠ (pt', p', A', B')) :
    (∃ k ∈ [m₁, m₂, m₃], ToldApart (rbPr0Il pt p A B k true) (rbPr0Il pt' p' A' B' k true)) ∨
      ToldApart (rbPr0Il pt p A B m false) (rbPr0Il pt' p' A' B' m false) := by
  by_contra hc
  rw [not_or] at hc
  obtain ⟨href, hint⟩ := hc
  have refl : ∀ q x y z : ℝ, ∀ k : ℕ, rbPr0Il q x y z k true = rbPr0 x y z k := fun q x y z k => rfl
  have val : ∀ q x y z : ℝ, rbValidIl q x y z = true → rbValid x y z = true ∧ 0 ≤ q := by
    intro q x y z h
    simp only [rbValidIl, rbValid, Bool.and_eq_true, decide_eq_true_eq] at h ⊢
    tauto
  have same : (p, A, B) = (p', A', B') := by
    by_contra h
    rcases C139_rb_three_lengths m₁ m₂ m₃ h12 h23 p A B p' A' B' (val _ _ _ _ hv).1
      (val _ _ _ _ hv').1 hp hA h with h | h | h
    · exact href ⟨m₁, by simp, by rw [refl, refl]; exact h⟩
    · exact href ⟨m₂, by simp, by rw [refl, refl]; exact h⟩
    · exact href ⟨m₃, by simp, by rw [refl, refl]; exact h⟩
  simp only [Prod.mk.injEq] at same
  obtain ⟨rfl, rfl, rfl⟩ := same
  simp only [toldApart_iff, not_not, rbPr0Il, Bool.false_eq_true, if_false] at hint
  have h1 : A * (pt * p) ^ m = A * (pt' * p) ^ m := by linarith
  have h2 := mul_left_cancel₀ hA h1
  have h3 := (pow_left_inj₀ (mul_nonneg (val _ _ _ _ hv).2 hp.1.le)
    (mul_nonneg (val _ _ _ _ hv').2 hp.1.le) hm).mp h2
  exact hne (by rw [mul_right_cancel₀ hp.1.ne' h3])

/-! ## Coins -/

/-- **C139, noisy coins.**  A toss through noise tells two different biases apart exactly if the two
sides are read differently. -/
theorem C139_noisy_coin (p p' a b : ℝ) (hne : p ≠ p') :
    ToldApart (noisyCoinPr0 p a b) (noisyCoinPr0 p' a b) ↔ a ≠ b := by
  rw [toldApart_iff, not_iff_not, noisyCoinPr0, noisyCoinPr0]
  constructor
  · intro h
    have : (p - p') * (a - b) = 0 := by linarith
    rcases mul_eq_zero.mp this with h | h
    · exact absurd (sub_eq_zero.mp h) hne
    · exact sub_eq_zero.mp h
  · rintro rfl; ring

/-- **C139, repetitions.**  Counting the outcomes of any positive number of repetitions (`BinomialModel`)
tells apart exactly what a single experiment does. -/
theorem C139_repetitions (N : ℕ) (hN : N ≠ 0) (p q : ℝ) (hp : p ∈ Set.Icc 0 1) (hq : q ∈ Set.Icc 0 1) :
    (∃ outcomes, binomialLikelihood N outcomes (twoOutcome p 1) ≠
      binomialLikelihood N outcomes (twoOutcome q 1)) ↔ ToldApart p q := by
  rw [toldApart_iff]
  constructor
  · rintro ⟨os, h⟩ rfl; exact h rfl
  · intro hne
    refine ⟨[0], fun h => hne ?_⟩
    have hp' : 0 ≤ 1 - p ∧ p ≥ 0 := ⟨by linarith [hp.2], hp.1⟩
    have hq' : 0 ≤ 1 - q ∧ q ≥ 0 := ⟨by linarith [hq.2], hq.1⟩
    simp [binomialLikelihood, binomialPdf, twoOutcome, hp', hq', hp.1, hq.1, hp.2, hq.2] at h
    exact (pow_left_inj₀ hp.1 hq.1 hN).mp h

/-! ## What this means for the weights -/

section
variable {O E R : Type*} [MeasurableSpace O] [MeasurableSpace E] {n : ℕ} {env : Env ℝ O E R} {check : Bool} {cfg : SmcConfig ℝ}
  {w : Fin n → ℝ} {x : Fin n → List ℝ} {s : Smc ℝ O R}

/-- **C139, weights of what is not told apart.**  Two particles with equal likelihoods for all the data
keep the ratio of their prior weights, however many data there are. -/
theorem C139_ratio_kept (h : Resting cfg env check w x s) (ds : List (O × E))
    (hok : (feed cfg env check ds s).2 = .ok ()) (j k : Fin n)
    (hsame : ∀ d ∈ ds, env.likelihood d.1 (x j) d.2 = env.likelihood d.1 (x k) d.2) :
    (feed cfg env check ds s).1.weights.getD j 0 * w k =
      (feed cfg env check ds s).1.weights.getD k 0 * w j := by
  obtain ⟨-, h2⟩ := C97_path_posterior cfg env h.good check h.off h.policy h.thresh.1 h.thresh.2
    ds w (fun i _ => x i) h.nonneg h.sum s h.weights h.locs (moves_static env h.static _ _ x)
  obtain ⟨h3, -⟩ := h2 hok
  simp only [pathLike_static] at h3
  have hp : (ds.map fun d => env.likelihood d.1 (x j) d.2) =
      ds.map fun d => env.likelihood d.1 (x k) d.2 := List.map_congr_left hsame
  have get : ∀ (f : Fin n → ℝ) (i : Fin n), (List.ofFn f).getD i 0 = f i := by
    intro f i
    simp [List.getD]
  rw [h3, get, get, hp]
  ring

end

section
variable {Ω R : Type*} [MeasurableSpace Ω] {P : Measure Ω} [IsProbabilityMeasure P] {m n : ℕ}
  {env : Env ℝ (Fin 2) (Fin m) R} {check : Bool} {cfg : SmcConfig ℝ}
  {w : Fin n → ℝ} {x : Fin n → List ℝ} {s : Smc ℝ (Fin 2) R} {μ : Measure (Fin 2 × Fin m)}
  {D : ℕ → Ω → Fin 2 × Fin m}

/-- **C139, frequencies are learnt.**  Precession data from a true frequency among the particles, with
durations chosen at random from a finite list: if one of the durations in use is at most `π/Ω` and all
particles are different frequencies between 0 and `Ω`, the weight of the truth tends to one. -/
theorem C139_frequency_learnt (h : Resting cfg env check w x s) (hD : IidData P μ D) (τ : Fin m → ℝ)
    (f : Fin n → ℝ) (hx : ∀ i, x i = [f i])
    (hL : ∀ o i e, env.likelihood o (x i) e = twoOutcome (precessionPr0 (f i) (τ e)) o.val)
    (i : Fin n) (hwi : 0 < w i) (q : Fin m → ℝ) (hq : DrawnFrom env.likelihood (x i) q μ)
    (hf : Function.Injective f) (Ω' : ℝ) (hΩ : ∀ j, f j ∈ Set.Icc 0 Ω')
    (e : Fin m) (hqe : 0 < q e) (hτ : 0 < τ e) (hτΩ : τ e * Ω' ≤ Real.pi) :
    ∀ᵐ v ∂P, (∀ t, (feed cfg env check (firstData D t v) s).2 = .ok ()) →
      Tendsto (fun t => (feed cfg env check (firstData D t v) s).1.weights.getD i 0) atTop (𝓝 1) ∧
      Tendsto (fun t => cloudMean (fun y => y.getD 0 0) (feed cfg env check (firstData D t v) s).1)
        atTop (𝓝 (f i)) := by
  have hone : ∀ k e, ∑ o, env.likelihood o (x k) e = 1 := by
    intro k e
    rw [Fin.sum_univ_two, hL, hL]
    simp [twoOutcome]
  have := C106_learns h hD i hwi q hq hone fun j hj => by
    obtain ⟨o, ho⟩ := C139_short_times (f j) (f i) Ω' (τ e) (hΩ j) (hΩ i) hτ hτΩ (hf.ne hj)
    exact ⟨o, e, hqe, by rw [hL, hL]; exact ho⟩
  filter_upwards [this] with v hv hok
  obtain ⟨h1, h2⟩ := hv hok
  refine ⟨h1, ?_⟩
  have := h2 fun y => y.getD 0 0
  rwa [hx i] at this

end

/-! ## Examples -/

/-- At unit time the frequencies 1 and `2π - 1` look alike, and at a quarter of that time they do not. -/
example : ¬ ToldApart (precessionPr0 1 1) (precessionPr0 (2 * Real.pi - 1) 1) ∧
    ToldApart (precessionPr0 1 (1 / 4)) (precessionPr0 (2 * Real.pi - 1) (1 / 4)) := by
  refine ⟨(C139_aliases _ _ _).mpr ⟨1, Or.inr (by push_cast; ring)⟩, ?_⟩
  have hπ := Real.two_le_pi
  refine C139_short_times 1 (2 * Real.pi - 1) (2 * Real.pi) (1 / 4) ⟨by norm_num, by linarith⟩
    ⟨by linarith, by linarith⟩ (by norm_num) (by linarith) (by intro h; linarith)

/-- Durations 1, √2 and √3 have pairwise irrational ratios: they tell all frequencies apart. -/
example (ω ω' : ℝ) (h : 0 ≤ ω) (h' : 0 ≤ ω') (hne : ω ≠ ω') :
    ∃ i, ToldApart (precessionPr0 ω (![1, Real.sqrt 2, Real.sqrt 3] i))
      (precessionPr0 ω' (![1, Real.sqrt 2, Real.sqrt 3] i)) := by
  have h2 : Irrational (Real.sqrt 2) := irrational_sqrt_two
  have h3 : Irrational (Real.sqrt 3) := by
    simpa using (Nat.prime_three).irrational_sqrt
  have h6 : Irrational (Real.sqrt 6) := by
    rw [show (6 : ℝ) = ((6 : ℕ) : ℝ) by norm_num, irrational_sqrt_natCast_iff]
    rintro ⟨k, hk⟩
    have : k ≤ 2 := by nlinarith
    interval_cases k <;> omega
  have s23 : Real.sqrt 2 * Real.sqrt 3 = Real.sqrt 6 := by
    rw [← Real.sqrt_mul (by norm_num)]; norm_num
  have q2 : Real.sqrt 2 * Real.sqrt 2 = 2 := Real.mul_self_sqrt (by norm_num)
  have q3 : Real.sqrt 3 * Real.sqrt 3 = 3 := Real.mul_self_sqrt (by norm_num)
  have p2 : Real.sqrt 2 ≠ 0 := by positivity
  have p3 : Real.sqrt 3 ≠ 0 := by positivity
  refine C139_three_times _ ?_ ω ω' h h' hne
  intro i j hij
  have e23 : Real.sqrt 2 / Real.sqrt 3 = Real.sqrt 6 / (3 : ℕ) := by
    rw [← s23]; push_cast; rw [div_eq_div_iff p3 (by norm_num), mul_assoc, q3]
  have e32 : Real.sqrt 3 / Real.sqrt 2 = Real.sqrt 6 / (2 : ℕ) := by
    rw [← s23]; push_cast; rw [div_eq_div_iff p2 (by norm_num), mul_right_comm, q2, mul_comm]
  fin_cases i <;> fin_cases j <;> first | exact absurd rfl hij | skip
  · simpa using h2.inv
  · simpa using h3.inv
  · simpa using h2
  · change Irrational (Real.sqrt 2 / Real.sqrt 3); rw [e23]; exact h6.div_natCast (by norm_num)
  · simpa using h3
  · change Irrational (Real.sqrt 3 / Real.sqrt 2); rw [e32]; exact h6.div_natCast (by norm_num)

/-- Valid benchmarking parameters in the interior. -/
example : rbValid (0.95 : ℚ) 0.3 0.5 = true := by decide +kernel

/-- Survival probabilities at lengths 0, 1 and 3 tell two such parameters apart. -/
example : ToldApart (rbPr0 (9 / 10) (1 / 2) (1 / 2) 0) (rbPr0 (8 / 10) (1 / 2) (1 / 2) 0) ∨
    ToldApart (rbPr0 (9 / 10) (1 / 2) (1 / 2) 1) (rbPr0 (8 / 10) (1 / 2) (1 / 2) 1) ∨
    ToldApart (rbPr0 (9 / 10) (1 / 2) (1 / 2) 3) (rbPr0 (8 / 10) (1 / 2) (1 / 2) 3) := by
  refine C139_rb_three_lengths 0 1 3 (by norm_num) (by norm_num) _ _ _ _ _ _ ?_ ?_ (by norm_num)
    (by norm_num) (by norm_num)
  · simp [rbValid]; norm_num
  · simp [rbValid]; norm_num

/-- The default base 9/8 of `ExpSparseHeuristic`, with scale 1: frequencies 1 and 3 are told apart by
the first experiment, 1 and `1 + 2π 8³` by none of the first three, but by some later one. -/
example : let h : ExpSparse ℝ Unit Unit := ⟨[], 1, 9 / 8, none, none⟩
    (∀ t, SparseTime h 0 t → ToldApart (precessionPr0 1 t) (precessionPr0 3 t)) ∧
    (∀ k < 3, ∀ t, SparseTime h k t →
      ¬ ToldApart (precessionPr0 1 t) (precessionPr0 (1 + 2 * Real.pi * 8 ^ 3) t)) ∧
    ∃ k t, SparseTime h k t ∧
      ToldApart (precessionPr0 1 t) (precessionPr0 (1 + 2 * Real.pi * 8 ^ 3) t) := by
  intro h
  have hπ : 3 < Real.pi := Real.pi_gt_three
  obtain ⟨h1, h2, h3⟩ := C139_sparse_times h () rfl one_pos 9 8 (by decide) (by decide) (by decide)
    (by simp [h])
  refine ⟨fun t ht => h1 t ht 1 ?_ 3 ?_ (by norm_num), fun k hk t ht => ?_,
    h3 _ _ (by norm_num) (by positivity) (by
      have : 0 < Real.pi * 8 ^ 3 := by positivity
      intro h; linarith)⟩
  · simp only [h, div_one]; exact ⟨by norm_num, by linarith⟩
  · simp only [h, div_one]; exact ⟨by norm_num, by linarith⟩
  · have := h2 3 1 k hk t ht
    simpa [h] using this

/-- Precession experiments of durations 1 and 2. -/
noncomputable def spinEnv (xs : List (List ℝ)) : Env ℝ (Fin 2) (Fin 2) Unit where
  likelihood o x e := twoOutcome (precessionPr0 (x.getD 0 0) (![1, 2] e)) o.val
  timestep r l _ := (l, r)
  canon l := l
  clearCacheRaises := false
  prior r n := ((xs ++ List.replicate n []).take n, r)
  resampler r w l := (.ok (w, l), r)
  kl _ _ _ _ := 0

/-- Two frequencies. -/
noncomputable def spinFreq (i : Fin 2) : ℝ := ![Real.pi / 3, 2 * Real.pi / 3] i

theorem spin_pr0 (i e : Fin 2) : precessionPr0 (spinFreq i) (![1, 2] e) =
    if i = 0 ∧ e = 0 then 3 / 4 else 1 / 4 := by
  have h1 : Real.cos (2 * Real.pi / 3) = -(1 / 2) := by
    rw [show 2 * Real.pi / 3 = Real.pi - Real.pi / 3 by ring, Real.cos_pi_sub, Real.cos_pi_div_three]
  have h2 : Real.cos (4 * Real.pi / 3) = -(1 / 2) := by
    rw [show 4 * Real.pi / 3 = Real.pi / 3 + Real.pi by ring, Real.cos_add_pi, Real.cos_pi_div_three]
  rw [precessionPr0, inversion_cos, sub_zero]
  fin_cases i <;> fin_cases e
  · simp [spinFreq]; norm_num
  · simp only [spinFreq]
    rw [show (![(1 : ℝ), 2] ⟨1, by omega⟩) * (![Real.pi / 3, 2 * Real.pi / 3] ⟨0, by omega⟩) =
      2 * Real.pi / 3 by simp; ring, h1]; norm_num
  · simp only [spinFreq]
    rw [show (![(1 : ℝ), 2] ⟨0, by omega⟩) * (![Real.pi / 3, 2 * Real.pi / 3] ⟨1, by omega⟩) =
      2 * Real.pi / 3 by simp, h1]; norm_num
  · simp only [spinFreq]
    rw [show (![(1 : ℝ), 2] ⟨1, by omega⟩) * (![Real.pi / 3, 2 * Real.pi / 3] ⟨1, by omega⟩) =
      4 * Real.pi / 3 by simp; ring, h2]; norm_num

theorem spin_resting (check : Bool) :
    Resting phaseCfg (spinEnv (List.ofFn fun i => [spinFreq i])) check (fun _ : Fin 2 => 1 / 2)
      (fun i => [spinFreq i])
      (construct phaseCfg (spinEnv (List.ofFn fun i => [spinFreq i])) 2 false ()).1 where
  good :=
    { like_nonneg := fun o x e => by
        have h0 : 0 ≤ precessionPr0 (x.getD 0 0) (![1, 2] e) := sq_nonneg _
        have h1 : precessionPr0 (x.getD 0 0) (![1, 2] e) ≤ 1 := Real.cos_sq_le_one _
        simp only [spinEnv, twoOutcome]
        split
        · exact h0
        · linarith
      prior_len := fun r n => by simp [spinEnv]; omega
      canon_len := fun l => rfl
      timestep_len := fun r l e => rfl
      resampler_ok := fun r w l w' l' hw hl h => by
        simp only [spinEnv, Except.ok.injEq, Prod.mk.injEq] at h
        obtain ⟨rfl, rfl⟩ := h
        exact ⟨hw, hl⟩ }
  static r l e := rfl
  off := Or.inr le_rfl
  policy := rfl
  thresh := by
    have hε : (eps : ℝ) ≤ 1 / 40 := by unfold eps; norm_num
    exact ⟨by show (eps : ℝ) ≤ 10 * eps; linarith [eps_pos (K := ℝ)],
      by show 10 * (eps : ℝ) < 1; linarith⟩
  nonneg _ := by norm_num
  sum := by norm_num
  weights := by simp [construct, reset, spinEnv, phaseCfg, List.replicate]
  locs := by simp [construct, reset, spinEnv, phaseCfg]

/-- Outcomes of the first frequency, with both durations equally likely. -/
noncomputable def spinLaw : Measure (Fin 2 × Fin 2) :=
  ENNReal.ofReal (3 / 8) • Measure.dirac (0, 0) + ENNReal.ofReal (1 / 8) • Measure.dirac (1, 0) +
    (ENNReal.ofReal (1 / 8) • Measure.dirac (0, 1) + ENNReal.ofReal (3 / 8) • Measure.dirac (1, 1))

instance : IsProbabilityMeasure spinLaw where
  measure_univ := by
    simp only [spinLaw, Measure.add_apply, Measure.smul_apply, measure_univ, smul_eq_mul, mul_one]
    rw [← ENNReal.ofReal_add (by norm_num) (by norm_num),
      ← ENNReal.ofReal_add (by norm_num) (by norm_num), ← ENNReal.ofReal_add (by norm_num) (by norm_num)]
    norm_num

theorem spin_data : IidData (Measure.infinitePi fun _ : ℕ => spinLaw) spinLaw fun t v => v t where
  meas t := measurable_pi_apply t
  law t := Measure.infinitePi_map_eval _ t
  indep i j hij := (ProbabilityTheory.iIndepFun_infinitePi (P := fun _ : ℕ => spinLaw) (X := fun _ x => x)
    (fun _ => measurable_id)).indepFun hij

theorem spin_like (o i e : Fin 2) :
    (spinEnv (List.ofFn fun i => [spinFreq i])).likelihood o [spinFreq i] e =
      if (o = 0 ↔ i = 0 ∧ e = 0) then 3 / 4 else 1 / 4 := by
  have h := spin_pr0 i e
  simp only [spinEnv, List.getD_cons_zero, h, twoOutcome]
  fin_cases o <;> fin_cases i <;> fin_cases e <;> simp <;> norm_num

/-- Case for C139: data of the first of two frequencies, which only the shorter of the two durations tells
apart; the updater learns which one, and no run is rejected. -/
example : ∀ᵐ v ∂(Measure.infinitePi fun _ : ℕ => spinLaw),
    Tendsto (fun t => (feed phaseCfg (spinEnv (List.ofFn fun i => [spinFreq i])) true
        (firstData (fun t (v : ℕ → Fin 2 × Fin 2) => v t) t v)
        (construct phaseCfg (spinEnv (List.ofFn fun i => [spinFreq i])) 2 false ()).1).1.weights.getD 0 0)
      atTop (𝓝 1) := by
  have hπ := Real.pi_pos
  have hdrawn : DrawnFrom (spinEnv (List.ofFn fun i => [spinFreq i])).likelihood [spinFreq 0]
      (fun _ => 1 / 2) spinLaw :=
    { nonneg := fun _ => by norm_num
      sum := by norm_num
      law := fun o e => by
        rw [spin_like]
        fin_cases o <;> fin_cases e <;> simp [spinLaw, measureReal_def] <;> norm_num }
  have hL := C139_frequency_learnt (spin_resting true) spin_data ![1, 2] spinFreq (fun _ => rfl)
    (fun o i e => rfl) 0 (by norm_num) (fun _ => 1 / 2) hdrawn
    (fun i j hij => by
      fin_cases i <;> fin_cases j <;> simp [spinFreq] at hij ⊢ <;> linarith)
    Real.pi (fun j => by fin_cases j <;> simp [spinFreq] <;> constructor <;> linarith)
    0 (by norm_num) (by norm_num) (by simp)
  filter_upwards [hL] with v hv
  refine (hv fun t => C106_accepted (spin_resting true) _ fun d _ i => ?_).1
  have hε : (eps : ℝ) ≤ 1 / 40 := by unfold eps; norm_num
  rw [spin_like]
  split <;> linarith

end QInfer
