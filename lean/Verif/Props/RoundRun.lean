import Verif.Model.RoundRun
import Verif.Props.SimpleEst
import Verif.Props.RoundDraw
import Verif.Props.Unbiased
import Mathlib.MeasureTheory.Measure.Lebesgue.Basic

/-!
# C156: whole runs in rounded arithmetic
-/

namespace QInfer

open scoped BigOperators
open MeasureTheory

variable {n : ℕ} {u : ℝ} {rnd : ℝ → ℝ} {radd : ℝ → ℝ → ℝ}

/-- Bayes' rule for one datum. -/
noncomputable def Spec.bayesStep (W L : Fin n → ℝ) (i : Fin n) : ℝ := W i * L i / ∑ j, W j * L j

/-- Effective sample size. -/
noncomputable def Spec.clearEss (W : Fin n → ℝ) : ℝ := 1 / ∑ i, W i ^ 2

/-- The run in exact arithmetic, for data whose decisions are clear: `k` updates were made since all weights were
equal.  The total likelihood is not near the guard; the effective sample size is not within a factor of the threshold;
if it is below, every variate lies in the interval of its parent, away from the ends by a factor. -/
inductive Spec.Clear {n : ℕ} {S : Type} (c : ℝ) (D : ℕ) (thr : ℝ) : ℕ → List (RoundStep n S) → (Fin n → ℝ) → (Fin n → S) →
    ℕ → (Fin n → ℝ) → (Fin n → S) → Prop
  | nil (k : ℕ) (W : Fin n → ℝ) (x : Fin n → S) : Spec.Clear c D thr k [] W x k W x
  | keep {k k' : ℕ} {d : RoundStep n S} {ds : List (RoundStep n S)} {W W' : Fin n → ℝ} {x x' : Fin n → S}
      (hL : ∀ i, 0 ≤ d.like (x i)) (hguard : c ^ (4 * k + 2 * D + 2) / 2 ^ 52 ≤ ∑ i, W i * d.like (x i))
      (hess : c ^ (8 * (k + 1) + 3 * D + 5) * (n * thr) ≤ Spec.clearEss (Spec.bayesStep W fun i => d.like (x i)))
      (hrest : Spec.Clear c D thr (k + 1) ds (Spec.bayesStep W fun i => d.like (x i)) x k' W' x') :
      Spec.Clear c D thr k (d :: ds) W x k' W' x'
  | copy {k k' : ℕ} {d : RoundStep n S} {ds : List (RoundStep n S)} {W W' : Fin n → ℝ} {x x' : Fin n → S}
      (par : Fin n → Fin n)
      (hL : ∀ i, 0 ≤ d.like (x i)) (hguard : c ^ (4 * k + 2 * D + 2) / 2 ^ 52 ≤ ∑ i, W i * d.like (x i))
      (hess : c ^ (8 * (k + 1) + 3 * D + 5) * Spec.clearEss (Spec.bayesStep W fun i => d.like (x i)) < n * thr)
      (hlow : ∀ i, c ^ (4 * (k + 1) + D + 1 + n) * (∑ j with j < par i, Spec.bayesStep W (fun i => d.like (x i)) j) ≤
        d.variates i)
      (hhigh : ∀ i, c ^ (4 * (k + 1) + D + 1 + n) * d.variates i <
        ∑ j with j ≤ par i, Spec.bayesStep W (fun i => d.like (x i)) j)
      (hrest : Spec.Clear c D thr 0 ds (fun _ => 1 / n) (x ∘ par) k' W' x') :
      Spec.Clear c D thr k (d :: ds) W x k' W' x'

/-! ## Helper lemmas -/

theorem rel_one_le (h : Spec.Relative u rnd radd) : 1 ≤ 1 / (1 - u) := by
  have := h.small
  have := h.nonneg
  rw [le_div_iff₀ (by linarith)]
  linarith

theorem near_nonneg {c x y : ℝ} (hc : 0 < c) (hx : 0 ≤ x) (h : Spec.Near c x y) : 0 ≤ y := by
  have := h.2
  by_contra hn
  push Not at hn
  nlinarith

theorem near_pos {c x y : ℝ} (hc : 0 < c) (hx : 0 < x) (h : Spec.Near c x y) : 0 < y := by
  have := h.2
  by_contra hn
  push Not at hn
  nlinarith

theorem near_scale {c x y a : ℝ} (ha : 0 ≤ a) (h : Spec.Near c x y) : Spec.Near c (a * x) (a * y) :=
  ⟨by nlinarith [mul_le_mul_of_nonneg_left h.1 ha], by nlinarith [mul_le_mul_of_nonneg_left h.2 ha]⟩

/-- Normalised numbers sum to one up to a factor. -/
theorem norm_near (h : Spec.Relative u rnd radd) {c : ℝ} (hc : c = 1 / (1 - u)) (t : SumTree (Fin n)) {D : ℕ}
    (ht : t.leaves.Perm (List.finRange n)) (hD : t.depth ≤ D) (f : Fin n → ℝ) (hf : ∀ i, 0 ≤ f i)
    (hpos : 0 < t.sum radd f) : Spec.Near (c ^ (D + 1)) 1 (∑ i, rnd (f i / t.sum radd f)) := by
  have hc1 : 1 ≤ c := hc ▸ rel_one_le h
  have hc0 : 0 < c := by linarith
  obtain ⟨hs0, hs⟩ := sumTree_near hc1 (by rw [hc]; exact near_add h) f hf t
  rw [leaves_sum t ht] at hs
  obtain ⟨M, hM⟩ : ∃ M, M = t.sum radd f := ⟨_, rfl⟩
  rw [← hM] at hs hpos ⊢
  have h1 : Spec.Near c (∑ i, f i / M) (∑ i, rnd (f i / M)) :=
    Spec.Near.sum _ fun i _ => by rw [hc]; exact near_rnd h (div_nonneg (hf i) hpos.le)
  have h2 : Spec.Near (c ^ t.depth) 1 (∑ i, f i / M) := by
    rw [← Finset.sum_div]
    constructor
    · rw [div_le_iff₀ hpos, mul_one]; exact hs.2
    · rw [← mul_div_assoc, le_div_iff₀ hpos, one_mul]; exact hs.1
  have h3 := h2.trans h1 (by positivity) hc0.le
  rw [← pow_succ] at h3
  have hnn : 0 ≤ ∑ i, rnd (f i / M) := near_nonneg (pow_pos hc0 _) zero_le_one h3
  exact h3.mono (pow_le_pow_right₀ hc1 (by omega)) zero_le_one hnn

/-- Weights in proportion, and with total near one, are near. -/
theorem prop_near {c : ℝ} (hc1 : 1 ≤ c) {D k : ℕ} {Z : ℝ} {W w : Fin n → ℝ} (hW : ∀ i, 0 ≤ W i)
    (hW1 : ∑ i, W i = 1) (hp : ∀ i, Spec.Near (c ^ (2 * k)) (Z * W i) (w i)) (hs : Spec.Near (c ^ (D + 1)) 1 (∑ i, w i)) :
    Spec.Near (c ^ (2 * k + D + 1)) 1 Z ∧ ∀ i, Spec.Near (c ^ (4 * k + D + 1)) (W i) (w i) := by
  have hc0 : 0 < c := by linarith
  have hsum : Spec.Near (c ^ (2 * k)) Z (∑ i, w i) := by
    have := Spec.Near.sum Finset.univ fun i _ => hp i
    rwa [← Finset.mul_sum, hW1, mul_one] at this
  have hsw : Spec.Near (c ^ (2 * k)) (∑ i, w i) Z := ⟨hsum.2, hsum.1⟩
  have hz : Spec.Near (c ^ (2 * k + D + 1)) 1 Z := by
    have := hs.trans hsw (by positivity) (by positivity)
    rwa [← pow_add, show D + 1 + 2 * k = 2 * k + D + 1 by ring] at this
  refine ⟨hz, fun i => ?_⟩
  have hz' : Spec.Near (c ^ (2 * k + D + 1)) (W i) (Z * W i) := by
    have := near_scale (hW i) hz
    rwa [mul_one, mul_comm (W i)] at this
  have := hz'.trans (hp i) (by positivity) (by positivity)
  rwa [← pow_add, show 2 * k + D + 1 + 2 * k = 4 * k + D + 1 by ring] at this

/-- One update: the rounded weights stay in proportion to the exact ones, and their total stays near one. -/
theorem update_near (h : Spec.Relative u rnd radd) {c : ℝ} (hc : c = 1 / (1 - u)) (t : SumTree (Fin n)) {D k : ℕ}
    (ht : t.leaves.Perm (List.finRange n)) (hD : t.depth ≤ D) {Z : ℝ} (hZ : 0 < Z) {W w L : Fin n → ℝ} (hW : ∀ i, 0 ≤ W i)
    (hW1 : ∑ i, W i = 1) (hp : ∀ i, Spec.Near (c ^ (2 * k)) (Z * W i) (w i)) (hs : Spec.Near (c ^ (D + 1)) 1 (∑ i, w i))
    (hL : ∀ i, 0 ≤ L i) (hguard : c ^ (4 * k + 2 * D + 2) / 2 ^ 52 ≤ ∑ i, W i * L i) :
    (∃ Z' > 0, (∀ i, Spec.Near (c ^ (2 * (k + 1))) (Z' * Spec.bayesStep W L i) ((hypRound rnd radd t w L).1 i)) ∧
        Z' * (hypRound rnd radd t w L).2 = Z * ∑ i, W i * L i) ∧
      0 < (hypRound rnd radd t w L).2 ∧ Spec.Near (c ^ (4 * k + 2 * D + 2)) (∑ i, W i * L i) (hypRound rnd radd t w L).2 ∧
      Spec.Near (c ^ (D + 1)) 1 (∑ i, (hypRound rnd radd t w L).1 i) := by
  have hc1 : 1 ≤ c := hc ▸ rel_one_le h
  have hc0 : 0 < c := by linarith
  have hw : ∀ i, 0 ≤ w i := fun i => near_nonneg (pow_pos hc0 _) (mul_nonneg hZ.le (hW i)) (hp i)
  obtain ⟨N, hN⟩ : ∃ N, N = ∑ i, W i * L i := ⟨_, rfl⟩
  obtain ⟨g, hg⟩ : ∃ g : Fin n → ℝ, g = fun i => rnd (w i * L i) := ⟨_, rfl⟩
  have hg1 : ∀ i, Spec.Near (c ^ (2 * k + 1)) (Z * (W i * L i)) (g i) := by
    intro i
    have h1 : Spec.Near (c ^ (2 * k)) (Z * (W i * L i)) (w i * L i) := by
      have := near_scale (hL i) (hp i)
      rwa [show L i * (Z * W i) = Z * (W i * L i) by ring, mul_comm (L i)] at this
    have h2 : Spec.Near c (w i * L i) (g i) := by
      rw [hg, hc]; exact near_rnd h (mul_nonneg (hw i) (hL i))
    have := h1.trans h2 (by positivity) hc0.le
    rwa [← pow_succ] at this
  have hg0 : ∀ i, 0 ≤ g i := fun i =>
    near_nonneg (pow_pos hc0 _) (mul_nonneg hZ.le (mul_nonneg (hW i) (hL i))) (hg1 i)
  have hNpos : 0 < N := by
    rw [hN]
    exact lt_of_lt_of_le (by positivity) hguard
  obtain ⟨hs0, hst⟩ := sumTree_near hc1 (by rw [hc]; exact near_add h) g hg0 t
  rw [leaves_sum t ht] at hst
  have hM : Spec.Near (c ^ (2 * k + 1 + t.depth)) (Z * N) (t.sum radd g) := by
    have := Spec.Near.sum Finset.univ fun i _ => hg1 i
    rw [← Finset.mul_sum, ← hN] at this
    have := this.trans hst (by positivity) (by positivity)
    rwa [← pow_add] at this
  have hMpos : 0 < t.sum radd g := near_pos (pow_pos hc0 _) (mul_pos hZ hNpos) hM
  have hz := (prop_near hc1 hW hW1 hp hs).1
  have hMN : Spec.Near (c ^ (4 * k + 2 * D + 2)) N (t.sum radd g) := by
    have h1 : Spec.Near (c ^ (2 * k + 1 + D)) (Z * N) (t.sum radd g) :=
      hM.mono (pow_le_pow_right₀ hc1 (by omega)) (mul_pos hZ hNpos).le hMpos.le
    have h2 : Spec.Near (c ^ (2 * k + D + 1)) N (Z * N) := by
      have := near_scale hNpos.le hz
      rwa [mul_one, mul_comm N] at this
    have := h2.trans h1 (by positivity) (by positivity)
    rwa [← pow_add, show 2 * k + D + 1 + (2 * k + 1 + D) = 4 * k + 2 * D + 2 by ring] at this
  have hge : 1 / 2 ^ 52 ≤ t.sum radd g := by
    have h4 : c ^ (4 * k + 2 * D + 2) * (1 / 2 ^ 52) ≤ c ^ (4 * k + 2 * D + 2) * t.sum radd g := by
      rw [mul_one_div]
      exact (hN ▸ hguard).trans hMN.2
    exact le_of_mul_le_mul_left h4 (by positivity)
  have heq : ∀ i, (hypRound rnd radd t w L).1 i = rnd (g i / t.sum radd g) := by
    intro i
    simp only [hypRound, ← hg]
    rw [if_neg (by rw [abs_of_pos hMpos]; exact not_lt.2 hge), hg]
  have hsnd : (hypRound rnd radd t w L).2 = t.sum radd g := by simp only [hypRound, hg]
  rw [hsnd, ← hN]
  refine ⟨⟨Z * N / t.sum radd g, div_pos (mul_pos hZ hNpos) hMpos, fun i => ?_, div_mul_cancel₀ _ hMpos.ne'⟩, hMpos, hMN, ?_⟩
  · rw [heq i]
    have h1 : Spec.Near (c ^ (2 * k + 1)) (Z * N / t.sum radd g * Spec.bayesStep W L i) (g i / t.sum radd g) := by
      have := near_scale (inv_nonneg.2 hMpos.le) (hg1 i)
      rw [inv_mul_eq_div, inv_mul_eq_div] at this
      convert this using 1
      unfold Spec.bayesStep
      rw [← hN]
      field_simp
    have h2 : Spec.Near c (g i / t.sum radd g) (rnd (g i / t.sum radd g)) := by
      rw [hc]; exact near_rnd h (div_nonneg (hg0 i) hMpos.le)
    have := h1.trans h2 (by positivity) hc0.le
    rwa [← pow_succ, show 2 * k + 1 + 1 = 2 * (k + 1) by ring] at this
  · simp only [heq]
    exact norm_near h hc t ht hD g hg0 hMpos

/-- The effective sample size of rounded weights. -/
theorem ess_near (h : Spec.Relative u rnd radd) {c : ℝ} (hc : c = 1 / (1 - u)) (t : SumTree (Fin n)) {D k : ℕ}
    (ht : t.leaves.Perm (List.finRange n)) (hD : t.depth ≤ D) {W w : Fin n → ℝ} (hW : ∀ i, 0 ≤ W i)
    (hW1 : ∑ i, W i = 1) (hp : ∀ i, Spec.Near (c ^ k) (W i) (w i)) :
    Spec.Near (c ^ (2 * k + D + 2)) (Spec.clearEss W) (essRound rnd radd t w) := by
  have hc1 : 1 ≤ c := hc ▸ rel_one_le h
  have hc0 : 0 < c := by linarith
  have hw : ∀ i, 0 ≤ w i := fun i => near_nonneg (pow_pos hc0 _) (hW i) (hp i)
  have hpos : 0 < ∑ i, W i ^ 2 := by
    refine lt_of_le_of_ne (Finset.sum_nonneg fun i _ => sq_nonneg _) fun h0 => ?_
    have h1 := (Finset.sum_eq_zero_iff_of_nonneg fun i _ => sq_nonneg (W i)).1 h0.symm
    have : ∑ i, W i = 0 := Finset.sum_eq_zero fun i hi => pow_eq_zero_iff two_ne_zero |>.1 (h1 i hi)
    rw [hW1] at this
    exact one_ne_zero this
  have hsq : ∀ i, Spec.Near (c ^ (2 * k + 1)) (W i ^ 2) (rnd (w i ^ 2)) := by
    intro i
    have h1 := (hp i).mul (hp i) (by positivity) (hW i) (hw i) (hW i) (hw i)
    rw [← pow_add, ← sq, ← sq, ← two_mul] at h1
    have h2 : Spec.Near c (w i ^ 2) (rnd (w i ^ 2)) := by rw [hc]; exact near_rnd h (sq_nonneg _)
    have := h1.trans h2 (by positivity) hc0.le
    rwa [← pow_succ] at this
  have hr0 : ∀ i, 0 ≤ rnd (w i ^ 2) := fun i => near_nonneg (pow_pos hc0 _) (sq_nonneg _) (hsq i)
  obtain ⟨hs0, hst⟩ := sumTree_near hc1 (by rw [hc]; exact near_add h) (fun i => rnd (w i ^ 2)) hr0 t
  rw [leaves_sum t ht] at hst
  have hS := (Spec.Near.sum Finset.univ fun i _ => hsq i).trans hst (by positivity) (by positivity)
  rw [← pow_add] at hS
  have hSpos := near_pos (pow_pos hc0 _) hpos hS
  have hinv := near_inv hpos hSpos hS
  have hfin : Spec.Near c (1 / t.sum radd fun i => rnd (w i ^ 2)) (essRound rnd radd t w) := by
    unfold essRound
    rw [hc]
    exact near_rnd h (one_div_nonneg.2 hSpos.le)
  have := hinv.trans hfin (by positivity) hc0.le
  rw [← pow_succ] at this
  have hE : 0 ≤ 1 / ∑ i, W i ^ 2 := one_div_nonneg.2 hpos.le
  exact this.mono (pow_le_pow_right₀ hc1 (by omega)) hE (near_nonneg (pow_pos hc0 _) hE this)

/-- Rounded cumulative sums of rounded weights. -/
theorem cum_near (h : Spec.Relative u rnd radd) {c : ℝ} (hc : c = 1 / (1 - u)) {k : ℕ} {W w : Fin n → ℝ}
    (hW : ∀ i, 0 ≤ W i) (hp : ∀ i, Spec.Near (c ^ k) (W i) (w i)) (i : Fin n) :
    Spec.Near (c ^ (k + n)) (∑ j with j ≤ i, W j)
      ((cumRound radd (List.ofFn w))[(i : ℕ)]'(by rw [cumRound_length, List.length_ofFn]; exact i.2)) := by
  have hc1 : 1 ≤ c := hc ▸ rel_one_le h
  have hc0 : 0 < c := by linarith
  have hu := h.nonneg
  have hu1 := h.small
  have hw : ∀ i, 0 ≤ w i := fun i => near_nonneg (pow_pos hc0 _) (hW i) (hp i)
  obtain ⟨h1, h2, -⟩ := C155_lengths h (List.ofFn w) (by
    intro y hy
    obtain ⟨j, rfl⟩ := List.mem_ofFn.1 hy
    exact hw j) i (by rw [List.length_ofFn]; exact i.2)
  have hsum : ((List.ofFn w).take ((i : ℕ) + 1)).sum = ∑ j with j ≤ i, w j := by
    rw [List.sum_take_ofFn]
    refine Finset.sum_congr (Finset.filter_congr fun j _ => ?_) fun _ _ => rfl
    rw [Fin.le_def]; omega
  rw [hsum] at h1 h2
  have hs0 : 0 ≤ ∑ j with j ≤ i, w j := Finset.sum_nonneg fun j _ => hw j
  have hS0 : 0 ≤ ∑ j with j ≤ i, W j := Finset.sum_nonneg fun j _ => hW j
  have hcu : 1 + u ≤ c := by rw [hc, le_div_iff₀ (by linarith)]; nlinarith
  have hcu' : c * (1 - u) = 1 := by rw [hc, one_div, inv_mul_cancel₀ (by linarith)]
  have hn : Spec.Near (c ^ (i : ℕ)) (∑ j with j ≤ i, w j)
      ((cumRound radd (List.ofFn w))[(i : ℕ)]'(by rw [cumRound_length, List.length_ofFn]; exact i.2)) := by
    constructor
    · exact h2.trans (mul_le_mul_of_nonneg_right (pow_le_pow_left₀ (by linarith) hcu _) hs0)
    · have := mul_le_mul_of_nonneg_left h1 (pow_nonneg hc0.le (i : ℕ))
      rwa [← mul_assoc, ← mul_pow, hcu', one_pow, one_mul] at this
  have := (Spec.Near.sum (Finset.univ.filter (· ≤ i)) fun j _ => hp j).trans hn (by positivity) (by positivity)
  rw [← pow_add] at this
  exact this.mono (pow_le_pow_right₀ hc1 (by have := i.2; omega)) hS0 (near_nonneg (pow_pos hc0 _) hS0 this)

/-- The index `searchsorted` finds, from the neighbours alone. -/
theorem searchsorted_of (a : List ℝ) (v : ℝ) (i : ℕ) (hi : i < a.length) (h1 : ∀ j (hj : j < a.length), j < i → a[j] ≤ v)
    (h2 : v < a[i]) : searchsortedRight a v = i := by
  unfold searchsortedRight
  induction a generalizing i with
  | nil => simp at hi
  | cons b l ih =>
    rw [List.takeWhile_cons]
    cases i with
    | zero =>
      have : ¬ b ≤ v := not_le.2 h2
      simp [this]
    | succ i =>
      have hb : b ≤ v := h1 0 (by simp) (by omega)
      simp only [hb, decide_true, if_true, List.length_cons]
      rw [ih i (by simpa using hi) (fun j hj hji => h1 (j + 1) (by simpa using hj) (by omega)) h2]

/-- Away from the ends of the intervals the rounded draw finds the exact parent. -/
theorem parent_clear (h : Spec.Relative u rnd radd) {c : ℝ} (hc : c = 1 / (1 - u)) {k : ℕ} {W w : Fin n → ℝ}
    (hW : ∀ i, 0 ≤ W i) (hp : ∀ i, Spec.Near (c ^ k) (W i) (w i)) (i : Fin n) (v : ℝ)
    (hlow : c ^ (k + n) * (∑ j with j < i, W j) ≤ v) (hhigh : c ^ (k + n) * v < ∑ j with j ≤ i, W j) :
    searchsortedRight (cumRound radd (List.ofFn w)) v = i := by
  have hc1 : 1 ≤ c := hc ▸ rel_one_le h
  have hc0 : 0 < c := by linarith
  have hlen : (cumRound radd (List.ofFn w)).length = n := by rw [cumRound_length, List.length_ofFn]
  refine searchsorted_of _ _ _ (by rw [hlen]; exact i.2) (fun j hj hji => ?_) ?_
  · have hjn : j < n := by omega
    refine (cum_near h hc hW hp ⟨j, hjn⟩).1.trans ((mul_le_mul_of_nonneg_left ?_ (by positivity)).trans hlow)
    refine Finset.sum_le_sum_of_subset_of_nonneg (fun m hm => ?_) fun m _ _ => hW m
    rw [Finset.mem_filter] at hm ⊢
    exact ⟨hm.1, lt_of_le_of_lt hm.2 hji⟩
  · have := (cum_near h hc hW hp i).2
    exact lt_of_mul_lt_mul_left (hhigh.trans_le this) (by positivity)

/-- Equal weights after resampling. -/
theorem fresh_near (h : Spec.Relative u rnd radd) {c : ℝ} (hc : c = 1 / (1 - u)) (hn : 0 < n) (t : SumTree (Fin n)) {D : ℕ}
    (ht : t.leaves.Perm (List.finRange n)) (hD : t.depth ≤ D) :
    (∃ Z > 0, ∀ i, Spec.Near (c ^ (2 * 0)) (Z * (1 / n)) (freshRound rnd radd t i)) ∧
      Spec.Near (c ^ (D + 1)) 1 (∑ i, freshRound rnd radd t i) := by
  have hc1 : 1 ≤ c := hc ▸ rel_one_le h
  have hc0 : 0 < c := by linarith
  have hn0 : (0 : ℝ) < n := Nat.cast_pos.2 hn
  have hq : 0 < rnd (1 / n) := by
    refine near_pos (c := 1 / (1 - u)) (hc ▸ hc0) (one_div_pos.2 hn0) (near_rnd h (one_div_nonneg.2 hn0.le))
  obtain ⟨q, hqd⟩ : ∃ q, q = rnd (1 / n) := ⟨_, rfl⟩
  rw [← hqd] at hq
  obtain ⟨hs0, hst⟩ := sumTree_near hc1 (by rw [hc]; exact near_add h) (fun _ : Fin n => q) (fun _ => hq.le) t
  rw [leaves_sum t ht] at hst
  have hsp : 0 < ∑ _i : Fin n, q := by simp; exact mul_pos hn0 hq
  have hM := near_pos (pow_pos hc0 _) hsp hst
  have hf : ∀ i, freshRound rnd radd t i = rnd (q / t.sum radd fun _ => q) := by
    intro i; simp only [freshRound, ← hqd]
  have hpos : 0 < rnd (q / t.sum radd fun _ => q) :=
    near_pos (c := 1 / (1 - u)) (hc ▸ hc0) (div_pos hq hM) (near_rnd h (div_nonneg hq.le hM.le))
  refine ⟨⟨n * rnd (q / t.sum radd fun _ => q), mul_pos hn0 hpos, fun i => ?_⟩, ?_⟩
  · rw [hf, mul_zero, pow_zero, mul_one_div, mul_div_assoc, mul_div_cancel₀ _ hn0.ne']
    exact Spec.Near.refl le_rfl hpos.le
  · simp only [hf]
    exact norm_near h hc t ht hD (fun _ => q) (fun _ => hq.le) hM

theorem bayesStep_nonneg {W L : Fin n → ℝ} (hW : ∀ i, 0 ≤ W i) (hL : ∀ i, 0 ≤ L i) (i : Fin n) :
    0 ≤ Spec.bayesStep W L i :=
  div_nonneg (mul_nonneg (hW i) (hL i)) (Finset.sum_nonneg fun j _ => mul_nonneg (hW j) (hL j))

theorem bayesStep_sum {W L : Fin n → ℝ} (h : 0 < ∑ j, W j * L j) : ∑ i, Spec.bayesStep W L i = 1 := by
  unfold Spec.bayesStep
  rw [← Finset.sum_div, div_self h.ne']

/-- Drawing with parents that are known. -/
theorem parents_eq {S : Type} (w v : Fin n → ℝ) (x : Fin n → S) (par : Fin n → Fin n)
    (h : ∀ i, searchsortedRight (cumRound radd (List.ofFn w)) (v i) = par i) :
    lwParentsRound radd (List.ofFn w) (List.ofFn x) id (List.ofFn v) =
      .ok (List.ofFn fun i => (par i : ℕ), List.ofFn fun i => x (par i)) := by
  have hjs : (List.ofFn v).map (searchsortedRight (cumRound radd (List.ofFn w))) = List.ofFn fun i => (par i : ℕ) := by
    rw [List.map_ofFn]
    congr 1
    funext i
    exact h i
  unfold lwParentsRound
  dsimp only
  rw [hjs, if_pos]
  · congr 2
    have hx : (fun j => ((List.ofFn x)[j]?).map id) ∘ (fun i => (par i : ℕ)) = fun i => some (x (par i)) := by
      funext i
      simp
    rw [← List.map_id (List.ofFn fun i => x (par i)), ← List.filterMap_eq_map]
    have e1 : (List.ofFn fun i => (par i : ℕ)) = (List.finRange n).map fun i => (par i : ℕ) := by
      rw [List.ofFn_eq_map]
    have e2 : (List.ofFn fun i => x (par i)) = (List.finRange n).map fun i => x (par i) := by
      rw [List.ofFn_eq_map]
    rw [e1, e2, List.filterMap_map, List.filterMap_map, hx]
    rfl
  · rw [List.all_eq_true]
    intro j hj
    obtain ⟨i, rfl⟩ := List.mem_ofFn.1 hj
    simp

/-- What is kept along a run: `w` is proportional to `W`, with factor `Z`, and sums to one, up to factors. -/
structure Spec.Tracks (c : ℝ) (D k : ℕ) (Z : ℝ) (W w : Fin n → ℝ) : Prop where
  nonneg : ∀ i, 0 ≤ W i
  sum : ∑ i, W i = 1
  pos : 0 < Z
  near : ∀ i, Spec.Near (c ^ (2 * k)) (Z * W i) (w i)
  total : Spec.Near (c ^ (D + 1)) 1 (∑ i, w i)

/-- The orders of addition of a step. -/
def Spec.Orders {S : Type} (D : ℕ) (d : RoundStep n S) : Prop :=
  ∀ t ∈ [d.order, d.orderEss, d.orderNew], t.leaves.Perm (List.finRange n) ∧ t.depth ≤ D

/-- A step without resampling. -/
theorem keep_step (h : Spec.Relative u rnd radd) {c : ℝ} (hc : c = 1 / (1 - u)) {S : Type} {D k : ℕ} {thr : ℝ} (hthr : 0 ≤ thr)
    {d : RoundStep n S} (ho : Spec.Orders D d) {Z : ℝ} {W w : Fin n → ℝ} {x : Fin n → S} (ht : Spec.Tracks c D k Z W w)
    (hL : ∀ i, 0 ≤ d.like (x i)) (hguard : c ^ (4 * k + 2 * D + 2) / 2 ^ 52 ≤ ∑ i, W i * d.like (x i))
    (hess : c ^ (8 * (k + 1) + 3 * D + 5) * (n * thr) ≤ Spec.clearEss (Spec.bayesStep W fun i => d.like (x i))) :
    ∃ w' Z', stepRound rnd radd thr d w x = .ok (w', x) ∧
      Spec.Tracks c D (k + 1) Z' (Spec.bayesStep W fun i => d.like (x i)) w' ∧
      Z' * (hypRound rnd radd d.order w fun i => d.like (x i)).2 = Z * ∑ i, W i * d.like (x i) ∧
      rnd (n * thr) ≤ essRound rnd radd d.orderEss (hypRound rnd radd d.order w fun i => d.like (x i)).1 := by
  have hc1 : 1 ≤ c := hc ▸ rel_one_le h
  have hc0 : 0 < c := by linarith
  have hrt : Spec.Near c (n * thr) (rnd (n * thr)) := by rw [hc]; exact near_rnd h (by positivity)
  obtain ⟨hW, hW1, hZ, hp, hs⟩ := ht
  obtain ⟨⟨Z1, hZ1, hp1, hZM⟩, -, -, hs1⟩ :=
    update_near h hc d.order (ho _ (by simp)).1 (ho _ (by simp)).2 hZ hW hW1 hp hs hL hguard
  have hpos : 0 < ∑ i, W i * d.like (x i) := lt_of_lt_of_le (by positivity) hguard
  have hV := bayesStep_nonneg hW hL
  have hV1 := bayesStep_sum hpos
  have hB := (prop_near hc1 hV hV1 hp1 hs1).2
  have hE := ess_near h hc d.orderEss (ho _ (by simp)).1 (ho _ (by simp)).2 hV hV1 hB
  have hno : rnd (n * thr) ≤ essRound rnd radd d.orderEss (hypRound rnd radd d.order w fun i => d.like (x i)).1 := by
    have h1 := hess.trans hE.2
    rw [show 8 * (k + 1) + 3 * D + 5 = 2 * (4 * (k + 1) + D + 1) + D + 2 + 1 by ring, pow_succ, mul_assoc] at h1
    exact hrt.1.trans (le_of_mul_le_mul_left h1 (by positivity))
  refine ⟨_, Z1, ?_, ⟨hV, hV1, hZ1, hp1, hs1⟩, hZM, hno⟩
  simp only [stepRound]
  rw [if_neg (not_lt.2 hno)]

/-- A step with resampling. -/
theorem copy_step (h : Spec.Relative u rnd radd) {c : ℝ} (hc : c = 1 / (1 - u)) {S : Type} {D k : ℕ} {thr : ℝ} (hthr : 0 ≤ thr)
    {d : RoundStep n S} (ho : Spec.Orders D d) {Z : ℝ} {W w : Fin n → ℝ} {x : Fin n → S} (ht : Spec.Tracks c D k Z W w)
    (par : Fin n → Fin n)
    (hL : ∀ i, 0 ≤ d.like (x i)) (hguard : c ^ (4 * k + 2 * D + 2) / 2 ^ 52 ≤ ∑ i, W i * d.like (x i))
    (hess : c ^ (8 * (k + 1) + 3 * D + 5) * Spec.clearEss (Spec.bayesStep W fun i => d.like (x i)) < n * thr)
    (hlow : ∀ i, c ^ (4 * (k + 1) + D + 1 + n) * (∑ j with j < par i, Spec.bayesStep W (fun i => d.like (x i)) j) ≤
      d.variates i)
    (hhigh : ∀ i, c ^ (4 * (k + 1) + D + 1 + n) * d.variates i <
      ∑ j with j ≤ par i, Spec.bayesStep W (fun i => d.like (x i)) j) :
    ∃ w' Z' Z1, stepRound rnd radd thr d w x = .ok (w', x ∘ par) ∧ Spec.Tracks c D 0 Z' (fun _ => 1 / n) w' ∧
      Z1 * (hypRound rnd radd d.order w fun i => d.like (x i)).2 = Z * ∑ i, W i * d.like (x i) ∧
      Spec.Near (c ^ (2 * (k + 1) + D + 1)) 1 Z1 ∧ essRound rnd radd d.orderEss
        (hypRound rnd radd d.order w fun i => d.like (x i)).1 < rnd (n * thr) := by
  have hc1 : 1 ≤ c := hc ▸ rel_one_le h
  have hc0 : 0 < c := by linarith
  have hrt : Spec.Near c (n * thr) (rnd (n * thr)) := by rw [hc]; exact near_rnd h (by positivity)
  obtain ⟨hW, hW1, hZ, hp, hs⟩ := ht
  have hn : 0 < n := pos_of_sum hW1
  have hn0 : (0 : ℝ) < n := Nat.cast_pos.2 hn
  obtain ⟨⟨Z1, hZ1, hp1, hZM⟩, -, -, hs1⟩ :=
    update_near h hc d.order (ho _ (by simp)).1 (ho _ (by simp)).2 hZ hW hW1 hp hs hL hguard
  have hpos : 0 < ∑ i, W i * d.like (x i) := lt_of_lt_of_le (by positivity) hguard
  have hV := bayesStep_nonneg hW hL
  have hV1 := bayesStep_sum hpos
  obtain ⟨hz1, hB⟩ := prop_near hc1 hV hV1 hp1 hs1
  have hE := ess_near h hc d.orderEss (ho _ (by simp)).1 (ho _ (by simp)).2 hV hV1 hB
  have hyes : essRound rnd radd d.orderEss (hypRound rnd radd d.order w fun i => d.like (x i)).1 < rnd (n * thr) := by
    have h1 := mul_le_mul_of_nonneg_left hE.1 hc0.le
    have h2 := hess
    rw [show 8 * (k + 1) + 3 * D + 5 = 2 * (4 * (k + 1) + D + 1) + D + 2 + 1 by ring, pow_succ', mul_assoc] at h2
    exact lt_of_mul_lt_mul_left ((h1.trans_lt h2).trans_le hrt.2) hc0.le
  have hpar := fun i => parent_clear h hc hV hB (par i) (d.variates i) (hlow i) (hhigh i)
  obtain ⟨⟨Z0, hZ0, hf⟩, hfs⟩ := fresh_near h hc hn d.orderNew (ho _ (by simp)).1 (ho _ (by simp)).2
  refine ⟨freshRound rnd radd d.orderNew, Z0, Z1, ?_, ⟨fun _ => by positivity, by simp [hn0.ne'], hZ0, hf, hfs⟩, hZM, hz1, hyes⟩
  simp only [stepRound]
  rw [if_pos hyes, parents_eq _ _ x par hpar]
  have hloc : (fun i : Fin n => (List.ofFn fun i => x (par i)).getD i (x i)) = x ∘ par := by
    funext i
    simp
  simp only [hloc]

/-- The invariant of a run. -/
theorem clear_run (h : Spec.Relative u rnd radd) {c : ℝ} (hc : c = 1 / (1 - u)) {S : Type} {D : ℕ} {thr : ℝ} (hthr : 0 ≤ thr)
    {k k' : ℕ} {ds : List (RoundStep n S)} {W W' : Fin n → ℝ} {x x' : Fin n → S} (hd : ∀ d ∈ ds, Spec.Orders D d)
    (hrun : Spec.Clear c D thr k ds W x k' W' x') (w : Fin n → ℝ) (Z : ℝ) (ht : Spec.Tracks c D k Z W w) :
    ∃ w', runRound rnd radd thr ds w x = .ok (w', x') ∧ ∀ i, Spec.Near (c ^ (4 * k' + D + 1)) (W' i) (w' i) := by
  have hc1 : 1 ≤ c := hc ▸ rel_one_le h
  induction hrun generalizing w Z with
  | nil k W x => exact ⟨w, rfl, (prop_near hc1 ht.nonneg ht.sum ht.near ht.total).2⟩
  | @keep k k' d ds W W' x x' hL hguard hess hrest ih =>
    obtain ⟨w1, Z1, h1, h2, -, -⟩ := keep_step h hc hthr (hd d List.mem_cons_self) ht hL hguard hess
    obtain ⟨w', h3, h4⟩ := ih (fun d' hd' => hd d' (List.mem_cons_of_mem _ hd')) w1 Z1 h2
    refine ⟨w', ?_, h4⟩
    rw [runRound, h1]
    exact h3
  | @copy k k' d ds W W' x x' par hL hguard hess hlow hhigh hrest ih =>
    obtain ⟨w1, Z1, -, h1, h2, -⟩ := copy_step h hc hthr (hd d List.mem_cons_self) ht par hL hguard hess hlow hhigh
    obtain ⟨w', h3, h4⟩ := ih (fun d' hd' => hd d' (List.mem_cons_of_mem _ hd')) w1 Z1 h2
    refine ⟨w', ?_, h4⟩
    rw [runRound, h1]
    exact h3

/-- A larger margin is enough. -/
theorem clear_mono {S : Type} {D : ℕ} {thr a c : ℝ} (ha : 1 ≤ a) (hac : a ≤ c) (hthr : 0 ≤ thr) {k k' : ℕ}
    {ds : List (RoundStep n S)} {W W' : Fin n → ℝ} {x x' : Fin n → S} (hW : ∀ i, 0 ≤ W i)
    (hrun : Spec.Clear c D thr k ds W x k' W' x') : Spec.Clear a D thr k ds W x k' W' x' := by
  have hp : ∀ m, a ^ m ≤ c ^ m := fun m => pow_le_pow_left₀ (by linarith) hac m
  induction hrun with
  | nil k W x => exact .nil k W x
  | @keep k k' d ds W W' x x' hL hguard hess hrest ih =>
    refine .keep hL (le_trans (by gcongr) hguard) (le_trans (mul_le_mul_of_nonneg_right (hp _) (by positivity)) hess)
      (ih (bayesStep_nonneg hW hL))
  | @copy k k' d ds W W' x x' par hL hguard hess hlow hhigh hrest ih =>
    have hV := bayesStep_nonneg hW hL
    have h0 : ∀ i, 0 ≤ ∑ j with j < par i, Spec.bayesStep W (fun i => d.like (x i)) j :=
      fun i => Finset.sum_nonneg fun j _ => hV j
    have hv : ∀ i, 0 ≤ d.variates i := fun i => le_trans (mul_nonneg (pow_nonneg (by linarith) _) (h0 i)) (hlow i)
    have hE : 0 ≤ Spec.clearEss (Spec.bayesStep W fun i => d.like (x i)) :=
      one_div_nonneg.2 (Finset.sum_nonneg fun j _ => sq_nonneg _)
    exact .copy par hL (le_trans (by gcongr) hguard) (lt_of_le_of_lt (mul_le_mul_of_nonneg_right (hp _) hE) hess)
      (fun i => le_trans (mul_le_mul_of_nonneg_right (hp _) (h0 i)) (hlow i))
      (fun i => lt_of_le_of_lt (mul_le_mul_of_nonneg_right (hp _) (hv i)) (hhigh i))
      (ih fun _ => by positivity)

theorem relative_id : Spec.Relative 0 (id : ℝ → ℝ) (· + ·) where
  nonneg := le_rfl
  small := by norm_num
  rnd x := by simp
  add x y := by simp

/-- Weights at the start, smc.py 307. -/
theorem start_tracks (h : Spec.Relative u rnd radd) {c : ℝ} (hc : c = 1 / (1 - u)) (hn : 0 < n) (D : ℕ) :
    Spec.Tracks c D 0 (n * rnd (1 / n)) (fun _ : Fin n => 1 / (n : ℝ)) (fun _ => rnd (1 / n)) ∧
      Spec.Near c 1 (n * rnd (1 / n)) := by
  have hn0 : (0 : ℝ) < n := Nat.cast_pos.2 hn
  have hc1 : 1 ≤ c := hc ▸ rel_one_le h
  have hq : Spec.Near c (1 / n) (rnd (1 / n)) := by rw [hc]; exact near_rnd h (by positivity)
  have hq0 : 0 < rnd (1 / n) := near_pos (by linarith) (by positivity) hq
  have hz := near_scale hn0.le hq
  rw [mul_one_div_cancel hn0.ne'] at hz
  refine ⟨⟨fun _ => by positivity, by simp [hn0.ne'], mul_pos hn0 hq0, fun i => ?_, ?_⟩, hz⟩
  · rw [mul_zero, pow_zero, mul_one_div, mul_div_assoc, mul_div_cancel₀ _ hn0.ne']
    exact Spec.Near.refl le_rfl hq0.le
  · have h2 : ∑ _i : Fin n, rnd (1 / n) = n * rnd (1 / n) := by simp
    rw [h2]
    exact hz.mono (le_self_pow₀ hc1 (by omega)) zero_le_one (mul_nonneg hn0.le hq0.le)

/-! ## Theorems -/

/-- **C156, runs.**  An updater starts with equal weights.  If every decision of a run in exact arithmetic is clear, the
run in rounded arithmetic makes the same decisions: it ends without an error, with the same locations, and its weights are
those of the exact run up to a factor that does not depend on the number of data before the last resampling. -/
theorem C156_run (h : Spec.Relative u rnd radd) {S : Type} {D : ℕ} {thr : ℝ} (hthr : 0 ≤ thr) (hn : 0 < n) {k : ℕ}
    {ds : List (RoundStep n S)} {W : Fin n → ℝ} {x x' : Fin n → S}
    (hd : ∀ d ∈ ds, ∀ t ∈ [d.order, d.orderEss, d.orderNew], t.leaves.Perm (List.finRange n) ∧ t.depth ≤ D)
    (hrun : Spec.Clear (1 / (1 - u)) D thr 0 ds (fun _ => 1 / n) x k W x') :
    runRound id (· + ·) thr ds (fun _ => 1 / n) x = .ok (W, x') ∧
      ∃ w, runRound rnd radd thr ds (fun _ => rnd (1 / n)) x = .ok (w, x') ∧
        ∀ i, Spec.Near ((1 / (1 - u)) ^ (4 * k + D + 1)) (W i) (w i) := by
  have hn0 : (0 : ℝ) < n := Nat.cast_pos.2 hn
  have hW : ∀ i : Fin n, (0 : ℝ) ≤ (fun _ => 1 / (n : ℝ)) i := fun _ => by positivity
  have hW1 : ∑ i : Fin n, (fun _ => 1 / (n : ℝ)) i = 1 := by simp [hn0.ne']
  have start : ∀ {u : ℝ} {rnd : ℝ → ℝ} {radd : ℝ → ℝ → ℝ}, Spec.Relative u rnd radd →
      Spec.Clear (1 / (1 - u)) D thr 0 ds (fun _ => 1 / n) x k W x' →
      ∃ w, runRound rnd radd thr ds (fun _ => rnd (1 / n)) x = .ok (w, x') ∧
        ∀ i, Spec.Near ((1 / (1 - u)) ^ (4 * k + D + 1)) (W i) (w i) := by
    intro u rnd radd h hrun
    exact clear_run h rfl hthr hd hrun _ _ (start_tracks h rfl hn D).1
  refine ⟨?_, start h hrun⟩
  have hex := clear_mono (a := 1 / (1 - 0)) (by norm_num) (by simpa using rel_one_le h) hthr hW hrun
  obtain ⟨w, h1, h2⟩ := start relative_id hex
  have : w = W := by
    funext i
    have := h2 i
    simp only [sub_zero, div_one, one_pow, Spec.Near, one_mul] at this
    exact le_antisymm this.1 this.2
  rw [← this]
  exact h1

/-- **C156, decisions that are not clear are rare.**  For a uniform variate, the parent drawn in rounded arithmetic
differs from the exact one with a probability of at most `n (g - 1 / g)`. -/
theorem C156_chance (h : Spec.Relative u rnd radd) {k : ℕ} {W w : Fin n → ℝ} (hW : ∀ i, 0 ≤ W i) (hW1 : ∑ i, W i = 1)
    (hp : ∀ i, Spec.Near ((1 / (1 - u)) ^ k) (W i) (w i)) :
    volume {v ∈ Set.Ico (0 : ℝ) 1 |
        searchsortedRight (cumRound radd (List.ofFn w)) v ≠ searchsortedRight (cumsum (List.ofFn W)) v} ≤
      ENNReal.ofReal (n * ((1 / (1 - u)) ^ (k + n) - 1 / (1 / (1 - u)) ^ (k + n))) := by
  obtain ⟨c, hc⟩ : ∃ c, c = 1 / (1 - u) := ⟨_, rfl⟩
  rw [← hc] at hp ⊢
  have hc1 : 1 ≤ c := hc ▸ rel_one_le h
  obtain ⟨G, hG⟩ : ∃ G, G = c ^ (k + n) := ⟨_, rfl⟩
  have hG1 : 1 ≤ G := hG ▸ one_le_pow₀ hc1
  have hG0 : 0 < G := by linarith
  obtain ⟨C, hC⟩ : ∃ C : Fin n → ℝ, C = fun i => ∑ j with j ≤ i, W j := ⟨_, rfl⟩
  have hC0 : ∀ i, 0 ≤ C i := fun i => hC ▸ Finset.sum_nonneg fun j _ => hW j
  have hC1 : ∀ i, C i ≤ 1 := fun i => by
    rw [hC, ← hW1]
    exact Finset.sum_le_sum_of_subset_of_nonneg (Finset.filter_subset _ _) fun j _ _ => hW j
  have hprev : ∀ i : Fin n, (∑ j with j < i, W j = 0) ∨ ∃ i' : Fin n, i' < i ∧ ∑ j with j < i, W j = C i' := by
    intro i
    rcases Nat.eq_zero_or_pos i with h0 | h0
    · left
      refine Finset.sum_eq_zero fun j hj => ?_
      have := (Finset.mem_filter.1 hj).2
      rw [Fin.lt_def] at this
      omega
    · right
      refine ⟨⟨i - 1, by omega⟩, by rw [Fin.lt_def]; simp; omega, ?_⟩
      rw [hC]
      refine Finset.sum_congr (Finset.filter_congr fun j _ => ?_) fun _ _ => rfl
      rw [Fin.lt_def, Fin.le_def]; simp; omega
  have hsub : {v ∈ Set.Ico (0 : ℝ) 1 |
      searchsortedRight (cumRound radd (List.ofFn w)) v ≠ searchsortedRight (cumsum (List.ofFn W)) v} ⊆
        ⋃ i : Fin n, Set.Ico (C i / G) (G * C i) := by
    rintro v ⟨⟨hv0, hv1⟩, hne⟩
    by_contra hout
    simp only [Set.mem_iUnion, Set.mem_Ico, not_exists, not_and, not_lt] at hout
    apply hne
    have hex : ∃ i : Fin n, v < C i := by
      by_contra hno
      push Not at hno
      have hn : 0 < n := by
        rcases Nat.eq_zero_or_pos n with h0 | h0
        · subst h0; simp at hW1
        · exact h0
      have := hno ⟨n - 1, by omega⟩
      have hall : C ⟨n - 1, by omega⟩ = 1 := by
        rw [hC, ← hW1]
        refine Finset.sum_congr (Finset.filter_true_of_mem fun j _ => ?_) fun _ _ => rfl
        rw [Fin.le_def]; simp; omega
      linarith
    obtain ⟨i, hi, hmin⟩ : ∃ i : Fin n, v < C i ∧ ∀ j < i, C j ≤ v := by
      obtain ⟨i, hi, hm⟩ := WellFounded.has_min (wellFounded_lt (α := Fin n)) {i | v < C i} hex
      exact ⟨i, hi, fun j hj => not_lt.1 fun hlt => hm j hlt hj⟩
    have hhigh : G * v < C i := by
      have : v < C i / G := by
        by_contra hge
        have := hout i (not_lt.1 hge)
        nlinarith [hC0 i]
      rwa [lt_div_iff₀ hG0, mul_comm] at this
    have hlow : G * (∑ j with j < i, W j) ≤ v := by
      rcases hprev i with h0 | ⟨i', hi', h0⟩
      · rw [h0, mul_zero]; exact hv0
      · rw [h0]
        refine hout i' ((div_le_iff₀ hG0).2 ?_)
        have := hmin i' hi'
        nlinarith
    have e1 := parent_clear h hc hW hp i v (hG ▸ hlow) (by rw [hC] at hhigh; exact hG ▸ hhigh)
    have e2 := parent_clear (u := 0) relative_id (c := 1) (by norm_num) (k := 0) hW
      (fun j => by rw [pow_zero]; exact Spec.Near.refl le_rfl (hW j)) i v
      (by
        rw [one_pow, one_mul]
        have : 0 ≤ ∑ j with j < i, W j := Finset.sum_nonneg fun j _ => hW j
        nlinarith)
      (by
        rw [one_pow, one_mul]
        rw [hC] at hi
        exact hi)
    rw [e1, ← C155_exact.1, e2]
  refine (measure_mono hsub).trans ((measure_iUnion_fintype_le _ _).trans ?_)
  simp only [Real.volume_Ico]
  rw [← ENNReal.ofReal_sum_of_nonneg]
  · refine ENNReal.ofReal_le_ofReal ?_
    have hGi : 1 / G ≤ 1 := by rw [div_le_iff₀ hG0]; linarith
    calc ∑ i, (G * C i - C i / G) ≤ ∑ _i : Fin n, (G - 1 / G) := by
          refine Finset.sum_le_sum fun i _ => ?_
          have : C i / G = C i * (1 / G) := by ring
          nlinarith [hC1 i, hC0 i]
      _ = _ := by simp [hG, mul_sub]
  · intro i _
    have : C i / G ≤ C i := div_le_self (hC0 i) hG1
    nlinarith [hC0 i]

/-- In exact arithmetic every variate below one has a parent. -/
theorem exact_parent {W : Fin n → ℝ} (hW : ∀ i, 0 ≤ W i) (hW1 : ∑ i, W i = 1) {v : ℝ} (hv0 : 0 ≤ v) (hv1 : v < 1) :
    ∃ i : Fin n, searchsortedRight (cumRound (· + ·) (List.ofFn W)) v = i := by
  have hn := pos_of_sum hW1
  have hex : ∃ i : Fin n, v < ∑ j with j ≤ i, W j := by
    refine ⟨⟨n - 1, by omega⟩, ?_⟩
    have hall : ∑ j with j ≤ (⟨n - 1, by omega⟩ : Fin n), W j = 1 := by
      rw [← hW1]
      refine Finset.sum_congr (Finset.filter_true_of_mem fun j _ => ?_) fun _ _ => rfl
      rw [Fin.le_def]; simp; omega
    rw [hall]
    exact hv1
  obtain ⟨i, hi, hm⟩ := WellFounded.has_min (wellFounded_lt (α := Fin n)) {i | v < ∑ j with j ≤ i, W j} hex
  refine ⟨i, parent_clear (u := 0) relative_id (c := 1) (by norm_num) (k := 0) hW
    (fun j => by rw [pow_zero]; exact Spec.Near.refl le_rfl (hW j)) i v ?_ (by rw [one_pow, one_mul]; exact hi)⟩
  rw [one_pow, one_mul]
  rcases Nat.eq_zero_or_pos i with h0 | h0
  · rw [Finset.sum_eq_zero]
    · exact hv0
    · intro j hj
      have := (Finset.mem_filter.1 hj).2
      rw [Fin.lt_def] at this
      omega
  · have h1 := hm ⟨i - 1, by omega⟩
    have h2 : ¬ v < ∑ j with j ≤ (⟨i - 1, by omega⟩ : Fin n), W j := fun hlt =>
      h1 hlt (by rw [Fin.lt_def]; simp; omega)
    rw [not_lt] at h2
    refine le_trans (le_of_eq ?_) h2
    refine Finset.sum_congr (Finset.filter_congr fun j _ => ?_) fun _ _ => rfl
    rw [Fin.lt_def, Fin.le_def]; simp; omega

/-- Whether one call of `update` resamples. -/
theorem boot_count {O E : Type} {cfg : SmcConfig ℝ} {env : Env ℝ O E (List (List ℝ))} {p : LwSetup}
    (h : Spec.Boot cfg env p fun _ x => x) (o : O) (e : E) (hL : ∀ x, eps ≤ env.likelihood o x e) (w : Fin n → ℝ)
    (hw : ∀ i, 0 ≤ w i) (hs : ∑ i, w i = 1) (x : Fin n → List ℝ) (s : Smc ℝ O (List (List ℝ)))
    (hsw : s.weights = List.ofFn w) (hsl : s.locs = List.ofFn x) {m : ℕ} (v : Fin m → Fin n → Spec.Unit01)
    (hsv : s.seed = Spec.stock v) (hm : 0 < m) :
    (nEss (List.ofFn fun i => w i * env.likelihood o (x i) e / ∑ j, w j * env.likelihood o (x j) e) <
        (((n : ℝ) * cfg.resampleThresh : ℝ) : WithTop ℝ) →
      (update cfg env s o e true).1.resampleCount = s.resampleCount + 1) ∧
    (¬ nEss (List.ofFn fun i => w i * env.likelihood o (x i) e / ∑ j, w j * env.likelihood o (x j) e) <
        (((n : ℝ) * cfg.resampleThresh : ℝ) : WithTop ℝ) →
      (update cfg env s o e true).1.resampleCount = s.resampleCount) := by
  obtain ⟨-, -, -, t, ht, -, -, hno⟩ := boot_update h false o e hL w hw hs x s hsw hsl v hsv hm
  obtain ⟨h2, h3, -⟩ := hno fun hc => absurd hc.1 (by decide)
  have hu : update cfg env s o e true = maybeResample cfg env (update cfg env s o e false).1 := by
    rcases update_split cfg env s o e with ⟨hu, -⟩ | ⟨-, hu⟩
    · exact hu
    · rcases hu with hu | hu
      · rw [h.policy] at hu; exact absurd hu (by decide)
      · rw [ht] at hu; exact absurd rfl hu
  have hf := update_false_count cfg env s o e
  have hc := maybeResample_count cfg env (update cfg env s o e false).1
  dsimp only at hc
  rw [← hu, hf, ht] at hc
  dsimp only at hc
  rw [h2, h3, List.length_ofFn] at hc
  rcases hc with ⟨h1, h4, -⟩ | ⟨h1, h4, -⟩
  · exact ⟨fun _ => h4, fun hn => absurd h1 hn⟩
  · exact ⟨fun hy => absurd hy h1, fun _ => h4⟩

/-- One call of `update` of an updater that resamples by copies, in terms of the rounded pieces without rounding. -/
theorem exact_step {O E : Type} {cfg : SmcConfig ℝ} {env : Env ℝ O E (List (List ℝ))} {p : LwSetup}
    (h : Spec.Boot cfg env p fun _ x => x) (o : O) (e : E) (hL : ∀ x, eps ≤ env.likelihood o x e) (d : RoundStep n (List ℝ))
    (hd : ∀ t ∈ [d.order, d.orderEss, d.orderNew], t.leaves.Perm (List.finRange n))
    (hlike : d.like = fun x => env.likelihood o x e) (w : Fin n → ℝ) (hw : ∀ i, 0 ≤ w i) (hs : ∑ i, w i = 1)
    (x : Fin n → List ℝ) (s : Smc ℝ O (List (List ℝ))) (hsw : s.weights = List.ofFn w) (hsl : s.locs = List.ofFn x)
    {m : ℕ} (v : Fin (m + 1) → Fin n → Spec.Unit01) (hsv : s.seed = Spec.stock v)
    (hv : d.variates = fun i => (v 0 i : ℝ)) :
    ∃ t w' x', update cfg env s o e true = (t, .ok ()) ∧ stepRound id (· + ·) cfg.resampleThresh d w x = .ok (w', x') ∧
      t.weights = List.ofFn w' ∧ t.locs = List.ofFn x' ∧ (∀ i, 0 ≤ w' i) ∧ ∑ i, w' i = 1 ∧
      t.normRecord = s.normRecord ++ [(hypRound id (· + ·) d.order w fun i => d.like (x i)).2] ∧
      ((essRound id (· + ·) d.orderEss (hypRound id (· + ·) d.order w fun i => d.like (x i)).1 < id (n * cfg.resampleThresh) ∧
          t.seed = Spec.stock (Fin.tail v) ∧ t.resampleCount = s.resampleCount + 1) ∨
        (¬ essRound id (· + ·) d.orderEss (hypRound id (· + ·) d.order w fun i => d.like (x i)).1 <
            id (n * cfg.resampleThresh) ∧ t.seed = Spec.stock v ∧ t.resampleCount = s.resampleCount)) := by
  have hn := pos_of_sum hs
  have hn0 : (0 : ℝ) < n := Nat.cast_pos.2 hn
  obtain ⟨hZ, hw', hs', t, ht, hnr, hyes, hno⟩ := boot_update h true o e hL w hw hs x s hsw hsl v hsv (Nat.succ_pos m)
  obtain ⟨w', hwd⟩ : ∃ w' : Fin n → ℝ, w' = fun i => w i * env.likelihood o (x i) e / ∑ j, w j * env.likelihood o (x j) e :=
    ⟨_, rfl⟩
  rw [← hwd] at hyes hno
  have hw0 : ∀ i, 0 ≤ w' i := by rw [hwd]; exact hw'
  have hw1 : ∑ i, w' i = 1 := by rw [hwd]; exact hs'
  have hsum : ∀ (t : SumTree (Fin n)) (f : Fin n → ℝ), t.leaves.Perm (List.finRange n) →
      t.sum (· + ·) f = ∑ i, f i := by
    intro t f ht
    rw [← leaves_sum t ht]
    clear ht
    induction t with
    | leaf i => simp [SumTree.sum, SumTree.leaves]
    | node l r ihl ihr => simp [SumTree.sum, SumTree.leaves, ihl, ihr]
  have hZe : (1 : ℝ) / 2 ^ 52 ≤ ∑ j, w j * env.likelihood o (x j) e := by
    have heps : (eps : ℝ) = 1 / 2 ^ 52 := by unfold eps; norm_num
    calc (1 : ℝ) / 2 ^ 52 = ∑ j, w j * eps := by rw [← Finset.sum_mul, hs, one_mul, heps]
      _ ≤ _ := Finset.sum_le_sum fun j _ => mul_le_mul_of_nonneg_left (hL _) (hw j)
  have hhyp : (hypRound id (· + ·) d.order w fun i => d.like (x i)).1 = w' := by
    funext i
    rw [hwd]
    simp only [hypRound, id, hlike]
    rw [hsum _ _ (hd _ (by simp)), if_neg (by rw [abs_of_pos hZ]; exact not_lt.2 hZe)]
  have hsq : ∑ i, w' i ^ 2 ≠ 0 := by
    intro h0
    have h1 := (Finset.sum_eq_zero_iff_of_nonneg fun i _ => sq_nonneg (w' i)).1 h0
    have : ∑ i, w' i = 0 := Finset.sum_eq_zero fun i hi => pow_eq_zero_iff two_ne_zero |>.1 (h1 i hi)
    rw [hw1] at this
    exact one_ne_zero this
  have hess : nEss (List.ofFn w') = (essRound id (· + ·) d.orderEss w' : WithTop ℝ) :=
    (C154_exact (d := 1) d.orderEss d.orderEss d.orderEss (hd _ (by simp)) (hd _ (by simp)) (hd _ (by simp)) w'
      (fun _ _ => 0) 0 0).2.2 hsq
  have hnorm : (hypRound id (· + ·) d.order w fun i => d.like (x i)).2 = ∑ j, w j * env.likelihood o (x j) e := by
    simp only [hypRound, id, hlike]
    rw [hsum _ _ (hd _ (by simp))]
  have hcount := boot_count h o e hL w hw hs x s hsw hsl v hsv (Nat.succ_pos m)
  rw [ht, ← hwd] at hcount
  rw [hhyp, hnorm]
  by_cases hlt : essRound id (· + ·) d.orderEss w' < n * cfg.resampleThresh
  · have hc := WithTop.coe_lt_coe.2 hlt
    rw [← hess] at hc
    obtain ⟨e1, e2, e3⟩ := hyes ⟨rfl, hc⟩
    choose par hpar using fun i => exact_parent hw0 hw1 (v 0 i).2.1 (v 0 i).2.2
    have hq : ∀ i, parent w' hn (v 0 i) = par i := by
      intro i
      apply Fin.ext
      show sampleIdx (List.ofFn w') (v 0 i) = par i
      rw [← C155_exact.2.1]
      unfold sampleIdxRound
      rw [hpar i, List.length_ofFn]
      have := (par i).2
      omega
    refine ⟨t, fun _ => 1 / n, fun i => x (par i), ht, ?_, e1, ?_, fun _ => by positivity, by simp [hn0.ne'], hnr,
      Or.inl ⟨by simpa using hlt, ?_, hcount.1 hc⟩⟩
    · simp only [stepRound]
      rw [hhyp, if_pos (by simpa using hlt), hv, parents_eq w' _ x par hpar]
      have hloc : (fun i : Fin n => (List.ofFn fun i => x (par i)).getD i (x i)) = fun i => x (par i) := by
        funext i
        simp
      have hfr : freshRound id (· + ·) d.orderNew = fun _ : Fin n => 1 / (n : ℝ) := by
        funext i
        simp only [freshRound, id]
        rw [hsum _ _ (hd _ (by simp))]
        simp [hn0.ne']
      simp only [hloc, hfr]
    · rw [e2]
      congr 1
      funext i
      show x (parent w' hn (v 0 i)) = x (par i)
      rw [hq i]
    · rw [e3]
      simp [Spec.stock, List.ofFn_succ, Fin.tail]
  · have hc : ¬ nEss (List.ofFn w') < (((n : ℝ) * cfg.resampleThresh : ℝ) : WithTop ℝ) := by
      rw [hess]; exact fun h => hlt (WithTop.coe_lt_coe.1 h)
    obtain ⟨e1, e2, e3⟩ := hno fun h => hc h.2
    refine ⟨t, w', x, ht, ?_, e1, e2, hw0, hw1, hnr, Or.inr ⟨by simpa using hlt, e3, hcount.2 hc⟩⟩
    simp only [stepRound]
    rw [hhyp, if_neg (by simpa using hlt)]

/-- **C156, the exact step is the model's update.**  An updater of the model that resamples by copies and whose locations
do not move does in one call of `update` what `stepRound` does without rounding. -/
theorem C156_update {O E : Type} {cfg : SmcConfig ℝ} {env : Env ℝ O E (List (List ℝ))} {p : LwSetup}
    (h : Spec.Boot cfg env p fun _ x => x) (o : O) (e : E) (hL : ∀ x, eps ≤ env.likelihood o x e) (d : RoundStep n (List ℝ))
    (hd : ∀ t ∈ [d.order, d.orderEss, d.orderNew], t.leaves.Perm (List.finRange n))
    (hlike : d.like = fun x => env.likelihood o x e) (w : Fin n → ℝ) (hw : ∀ i, 0 ≤ w i) (hs : ∑ i, w i = 1)
    (x : Fin n → List ℝ) (s : Smc ℝ O (List (List ℝ))) (hsw : s.weights = List.ofFn w) (hsl : s.locs = List.ofFn x)
    {m : ℕ} (v : Fin (m + 1) → Fin n → Spec.Unit01) (hsv : s.seed = Spec.stock v)
    (hv : d.variates = fun i => (v 0 i : ℝ)) :
    ∃ t w' x', update cfg env s o e true = (t, .ok ()) ∧ stepRound id (· + ·) cfg.resampleThresh d w x = .ok (w', x') ∧
      t.weights = List.ofFn w' ∧ t.locs = List.ofFn x' := by
  obtain ⟨t, w', x', h1, h2, h3, h4, -⟩ := exact_step h o e hL d hd hlike w hw hs x s hsw hsl v hsv hv
  exact ⟨t, w', x', h1, h2, h3, h4⟩

/-- Margins of the example. -/
theorem margin_small {m : ℕ} (hm : m ≤ 40) : (1 / (1 - 1 / 2 ^ 53) : ℝ) ^ m ≤ 21 / 20 := by
  have h1 : (1 : ℝ) ≤ 1 / (1 - 1 / 2 ^ 53) := by norm_num
  have h2 : (1 / (1 - 1 / 2 ^ 53) : ℝ) ≤ 1001 / 1000 := by norm_num
  calc (1 / (1 - 1 / 2 ^ 53) : ℝ) ^ m ≤ (1 / (1 - 1 / 2 ^ 53)) ^ 40 := pow_le_pow_right₀ h1 hm
    _ ≤ (1001 / 1000) ^ 40 := pow_le_pow_left₀ (by linarith) h2 40
    _ ≤ 21 / 20 := by norm_num

/-- Two particles and one order of addition. -/
noncomputable def pairStep (v : Fin 2 → ℝ) : RoundStep 2 ℝ where
  order := .node (.leaf 0) (.leaf 1)
  orderEss := .node (.leaf 1) (.leaf 0)
  orderNew := .node (.leaf 0) (.leaf 1)
  like y := y
  variates := v

/-- A run of two particles at 1/4 and 3/4 with threshold 3/4, whose decisions are clear. -/
theorem pair_clear {c : ℝ} (hc : 0 < c) (hm : ∀ m ≤ 40, c ^ m ≤ 21 / 20) :
    Spec.Clear c 1 (3 / 4) 0 [pairStep ![0, 0], pairStep ![1 / 2, 1 / 20], pairStep ![0, 0]]
      (fun _ => 1 / (2 : ℕ)) ![1 / 4, 3 / 4] 1 ![3 / 4, 1 / 4] ![3 / 4, 1 / 4] := by
  have hp : ∀ m, 0 < c ^ m := fun m => pow_pos hc m
  have hl : ∀ (v : Fin 2 → ℝ) (x : Fin 2 → ℝ), (fun i => (pairStep v).like (x i)) = x := fun v x => rfl
  have b1 : Spec.bayesStep (fun _ => 1 / (2 : ℕ)) (![1 / 4, 3 / 4] : Fin 2 → ℝ) = ![1 / 4, 3 / 4] := by
    funext i; fin_cases i <;> simp [Spec.bayesStep, Fin.sum_univ_two] <;> norm_num
  have b2 : Spec.bayesStep ![1 / 4, 3 / 4] (![1 / 4, 3 / 4] : Fin 2 → ℝ) = ![1 / 10, 9 / 10] := by
    funext i; fin_cases i <;> simp [Spec.bayesStep, Fin.sum_univ_two] <;> norm_num
  have b3 : Spec.bayesStep (fun _ => 1 / (2 : ℕ)) (![3 / 4, 1 / 4] : Fin 2 → ℝ) = ![3 / 4, 1 / 4] := by
    funext i; fin_cases i <;> simp [Spec.bayesStep, Fin.sum_univ_two] <;> norm_num
  have e1 : Spec.clearEss (![1 / 4, 3 / 4] : Fin 2 → ℝ) = 8 / 5 := by
    simp [Spec.clearEss, Fin.sum_univ_two]; norm_num
  have e2 : Spec.clearEss (![1 / 10, 9 / 10] : Fin 2 → ℝ) = 50 / 41 := by
    simp [Spec.clearEss, Fin.sum_univ_two]; norm_num
  have e3 : Spec.clearEss (![3 / 4, 1 / 4] : Fin 2 → ℝ) = 8 / 5 := by
    simp [Spec.clearEss, Fin.sum_univ_two]; norm_num
  have hx : (![1 / 4, 3 / 4] : Fin 2 → ℝ) ∘ ![1, 0] = ![3 / 4, 1 / 4] := by
    funext i; fin_cases i <;> rfl
  refine .keep ?_ ?_ ?_ ?_
  · intro i; fin_cases i <;> norm_num [pairStep]
  · have := hm (4 * 0 + 2 * 1 + 2) (by norm_num)
    norm_num [pairStep, Fin.sum_univ_two] at this ⊢
    linarith
  · rw [hl, b1, e1]
    have := hm (8 * (0 + 1) + 3 * 1 + 5) (by norm_num)
    push_cast
    linarith
  rw [hl, b1]
  refine .copy ![1, 0] ?_ ?_ ?_ ?_ ?_ ?_
  · intro i; fin_cases i <;> norm_num [pairStep]
  · have := hm (4 * (0 + 1) + 2 * 1 + 2) (by norm_num)
    norm_num [pairStep, Fin.sum_univ_two] at this ⊢
    linarith
  · rw [hl, b2, e2]
    have := hm (8 * (0 + 1 + 1) + 3 * 1 + 5) (by norm_num)
    push_cast
    linarith
  · rw [hl, b2]
    have := hm (4 * (0 + 1 + 1) + 1 + 1 + 2) (by norm_num)
    intro i
    fin_cases i
    · have : ∑ j with j < (![1, 0] : Fin 2 → Fin 2) 0, (![1 / 10, 9 / 10] : Fin 2 → ℝ) j = 1 / 10 := by
        rw [Finset.sum_filter, Fin.sum_univ_two]; simp
      simp only [Fin.zero_eta, this]
      simp only [pairStep, Matrix.cons_val_zero]
      linarith
    · have : ∑ j with j < (![1, 0] : Fin 2 → Fin 2) 1, (![1 / 10, 9 / 10] : Fin 2 → ℝ) j = 0 := by
        rw [Finset.sum_filter, Fin.sum_univ_two]; simp
      simp only [Fin.mk_one, this]
      simp [pairStep]
  · rw [hl, b2]
    have := hm (4 * (0 + 1 + 1) + 1 + 1 + 2) (by norm_num)
    intro i
    fin_cases i
    · have : ∑ j with j ≤ (![1, 0] : Fin 2 → Fin 2) 0, (![1 / 10, 9 / 10] : Fin 2 → ℝ) j = 1 := by
        rw [Finset.sum_filter, Fin.sum_univ_two]; simp; norm_num
      simp only [Fin.zero_eta, this]
      simp only [pairStep, Matrix.cons_val_zero]
      linarith
    · have : ∑ j with j ≤ (![1, 0] : Fin 2 → Fin 2) 1, (![1 / 10, 9 / 10] : Fin 2 → ℝ) j = 1 / 10 := by
        rw [Finset.sum_filter, Fin.sum_univ_two]; simp
      simp only [Fin.mk_one, this]
      simp only [pairStep, Matrix.cons_val_one, Matrix.cons_val_zero]
      linarith
  rw [hx]
  have hlast : Spec.Clear c 1 (3 / 4) (0 + 1) [] (Spec.bayesStep (fun _ => 1 / (2 : ℕ)) (![3 / 4, 1 / 4] : Fin 2 → ℝ))
      (![3 / 4, 1 / 4] : Fin 2 → ℝ) 1 ![3 / 4, 1 / 4] ![3 / 4, 1 / 4] := by
    rw [b3]
    exact .nil 1 _ _
  refine .keep ?_ ?_ ?_ hlast
  · intro i; fin_cases i <;> norm_num [pairStep]
  · have := hm (4 * 0 + 2 * 1 + 2) (by norm_num)
    norm_num [pairStep, Fin.sum_univ_two] at this ⊢
    linarith
  · rw [hl, b3, e3]
    have := hm (8 * (0 + 1) + 3 * 1 + 5) (by norm_num)
    push_cast
    linarith

/-- Case for C156: in binary64 two particles at 1/4 and 3/4 with threshold 3/4 take three data whose likelihood is the
location.  After the second the effective sample size is 50/41 < 3/2, so the particles are drawn anew and change places;
the weights after the third are near 3/4 and 1/4. -/
example : ∃ w, runRound (Spec.nearest 53) (fun a b => Spec.nearest 53 (a + b)) (3 / 4)
      [pairStep ![0, 0], pairStep ![1 / 2, 1 / 20], pairStep ![0, 0]] (fun _ => Spec.nearest 53 (1 / (2 : ℕ))) ![1 / 4, 3 / 4] =
        .ok (w, ![3 / 4, 1 / 4]) ∧ ∀ i, Spec.Near ((1 / (1 - 1 / 2 ^ 53)) ^ 6) (![3 / 4, 1 / 4] i) (w i) := by
  obtain ⟨-, w, h1, h2⟩ := C156_run (C154_nearest 53 (by norm_num)) (by norm_num) (by norm_num) (D := 1) (by
    intro d hd t ht
    simp only [List.mem_cons, List.not_mem_nil, or_false] at hd
    rcases hd with rfl | rfl | rfl <;> simp only [pairStep, List.mem_cons, List.not_mem_nil, or_false] at ht <;>
      rcases ht with rfl | rfl | rfl <;> exact ⟨by decide, by decide⟩) (pair_clear (by norm_num) fun m h => margin_small h)
  exact ⟨w, h1, h2⟩

/-- Case for C156, chances: the weights 1/3 and 2/3 rounded to binary64. -/
example : volume {v ∈ Set.Ico (0 : ℝ) 1 |
      searchsortedRight (cumRound (fun a b => Spec.nearest 53 (a + b))
        (List.ofFn fun i : Fin 2 => Spec.nearest 53 ((![1 / 3, 2 / 3] : Fin 2 → ℝ) i))) v ≠
      searchsortedRight (cumsum (List.ofFn (![1 / 3, 2 / 3] : Fin 2 → ℝ))) v} ≤
    ENNReal.ofReal ((2 : ℕ) * ((1 / (1 - 1 / 2 ^ 53)) ^ (1 + 2) - 1 / (1 / (1 - 1 / 2 ^ 53)) ^ (1 + 2))) := by
  have hW : ∀ i, 0 ≤ (![1 / 3, 2 / 3] : Fin 2 → ℝ) i := by
    intro i; fin_cases i <;> norm_num
  refine C156_chance (C154_nearest 53 (by norm_num)) hW (by rw [Fin.sum_univ_two]; norm_num) fun i => ?_
  rw [pow_one]
  exact near_rnd (C154_nearest 53 (by norm_num)) (hW i)

/-- The updater of C108 whose phases stay where they are. -/
noncomputable def stillEnv : Env ℝ Bool ℝ (List (List ℝ)) := { copyEnv with timestep := fun r l _ => (l, r) }

/-- Case for C156, the exact step: two phases, resampled as soon as their weights differ. -/
example (v : Fin 1 → Fin 2 → Spec.Unit01) (o : Bool) :
    let d : RoundStep 2 (List ℝ) :=
      { order := .node (.leaf 0) (.leaf 1), orderEss := .node (.leaf 0) (.leaf 1), orderNew := .node (.leaf 1) (.leaf 0),
        like := fun x => stillEnv.likelihood o x 1, variates := fun i => (v 0 i : ℝ) }
    ∃ t w' x', update copyCfg stillEnv (copyStart v) o 1 true = (t, .ok ()) ∧
      stepRound id (· + ·) 1 d (fun _ => 1 / 2) (fun i => [(2 * i.val - 1 : ℝ) * (Real.pi / 2)]) = .ok (w', x') ∧
        t.weights = List.ofFn w' ∧ t.locs = List.ofFn x' := by
  intro d
  have hb : Spec.Boot copyCfg stillEnv copySetup fun _ x => x :=
    { copy_boot with
      resampler := rfl
      step := fun r l e => by simp [stillEnv] }
  refine C156_update hb o 1 (fun x => ?_) d ?_ rfl _ (fun _ => by norm_num) (by norm_num) _ (copyStart v) rfl rfl v rfl rfl
  · show (eps : ℝ) ≤ 1 / 2 + (if o then 1 else -1) * Real.sin (x.getD 0 0) / 4
    have h1 := Real.neg_one_le_sin (x.getD 0 0)
    have h2 := Real.sin_le_one (x.getD 0 0)
    have h3 : (eps : ℝ) ≤ 1 / 4 := by unfold eps; norm_num
    generalize Real.sin (x.getD 0 0) = y at h1 h2 ⊢
    cases o <;> simp <;> linarith
  · intro t ht
    simp only [d, List.mem_cons, List.not_mem_nil, or_false] at ht
    rcases ht with rfl | rfl | rfl <;> decide

end QInfer
