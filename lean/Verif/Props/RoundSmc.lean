import Verif.Model.RoundSmc
import Verif.Lemmas.Smc
import Mathlib.Algebra.Order.BigOperators.Group.Finset
import Mathlib.Algebra.BigOperators.Ring.Finset
import Mathlib.Algebra.BigOperators.Field
import Mathlib.Algebra.BigOperators.Fin
import Mathlib.Tactic.Positivity
import Mathlib.Tactic.GCongr
import Mathlib.Tactic.FieldSimp
import Mathlib.Tactic.FinCases
import Mathlib.Data.Real.Archimedean
import Mathlib.Algebra.Order.Ring.Pow

/-!
# C103: rounding does not spoil the posterior
-/

namespace QInfer

open scoped BigOperators

/-- Equal up to a factor `c`. -/
def Spec.Near (c x y : ℝ) : Prop := y ≤ c * x ∧ x ≤ c * y

/-- Rounding of non-negative numbers: up to a factor `c` from `tiny` on, zero stays zero; additions up to the
same factor. -/
structure Spec.Rounding (c tiny : ℝ) (rnd : ℝ → ℝ) (radd : ℝ → ℝ → ℝ) : Prop where
  one_le : 1 ≤ c
  zero : rnd 0 = 0
  nonneg : ∀ x, 0 ≤ x → 0 ≤ rnd x
  near : ∀ x, tiny ≤ x → Spec.Near c x (rnd x)
  add : ∀ x y, 0 ≤ x → 0 ≤ y → Spec.Near c (x + y) (radd x y)

/-- Rounding with an absolute error `η` besides the factor `c`, for results of any size. -/
structure Spec.RoundingAbs (c η : ℝ) (rnd : ℝ → ℝ) (radd : ℝ → ℝ → ℝ) : Prop where
  one_le : 1 ≤ c
  nonneg : ∀ x, 0 ≤ x → 0 ≤ rnd x
  le : ∀ x, 0 ≤ x → rnd x ≤ c * x + η
  ge : ∀ x, 0 ≤ x → x ≤ c * (rnd x + η)
  add : ∀ x y, 0 ≤ x → 0 ≤ y → Spec.Near c (x + y) (radd x y)

/-- Bayes' rule for several data: weights times the product of the likelihoods, normalised. -/
noncomputable def Spec.bayes {n : Nat} (w : Fin n → ℝ) (Ls : List (Fin n → ℝ)) (i : Fin n) : ℝ :=
  w i * (Ls.map fun L => L i).prod / ∑ j, w j * (Ls.map fun L => L j).prod

theorem Spec.Near.mul {a b x y u v : ℝ} (h : Spec.Near a x y) (h' : Spec.Near b u v) (ha : 0 ≤ a) (hx : 0 ≤ x)
    (hy : 0 ≤ y) (hu : 0 ≤ u) (hv : 0 ≤ v) : Spec.Near (a * b) (x * u) (y * v) := by
  constructor
  · calc y * v ≤ (a * x) * (b * u) := mul_le_mul h.1 h'.1 hv (mul_nonneg ha hx)
      _ = a * b * (x * u) := by ring
  · calc x * u ≤ (a * y) * (b * v) := mul_le_mul h.2 h'.2 hu (mul_nonneg ha hy)
      _ = a * b * (y * v) := by ring

theorem Spec.Near.trans {a b x y z : ℝ} (h : Spec.Near a x y) (h' : Spec.Near b y z) (ha : 0 ≤ a) (hb : 0 ≤ b) :
    Spec.Near (a * b) x z := by
  constructor
  · calc z ≤ b * y := h'.1
      _ ≤ b * (a * x) := mul_le_mul_of_nonneg_left h.1 hb
      _ = a * b * x := by ring
  · calc x ≤ a * y := h.2
      _ ≤ a * (b * z) := mul_le_mul_of_nonneg_left h'.2 ha
      _ = a * b * z := by ring

theorem Spec.Near.refl {a x : ℝ} (ha : 1 ≤ a) (hx : 0 ≤ x) : Spec.Near a x x :=
  ⟨by nlinarith, by nlinarith⟩

theorem Spec.Near.mono {a b x y : ℝ} (h : Spec.Near a x y) (hab : a ≤ b) (hx : 0 ≤ x) (hy : 0 ≤ y) :
    Spec.Near b x y :=
  ⟨h.1.trans (mul_le_mul_of_nonneg_right hab hx), h.2.trans (mul_le_mul_of_nonneg_right hab hy)⟩

theorem Spec.Near.sum {ι : Type} (s : Finset ι) {a : ℝ} {f g : ι → ℝ} (h : ∀ i ∈ s, Spec.Near a (f i) (g i)) :
    Spec.Near a (∑ i ∈ s, f i) (∑ i ∈ s, g i) := by
  constructor
  · rw [Finset.mul_sum]; exact Finset.sum_le_sum fun i hi => (h i hi).1
  · rw [Finset.mul_sum]; exact Finset.sum_le_sum fun i hi => (h i hi).2

/-- Sums computed in any order. -/
theorem sumTree_near {ι : Type} {c : ℝ} (hc : 1 ≤ c) {radd : ℝ → ℝ → ℝ}
    (hadd : ∀ x y, 0 ≤ x → 0 ≤ y → Spec.Near c (x + y) (radd x y)) (f : ι → ℝ) (hf : ∀ i, 0 ≤ f i)
    (t : SumTree ι) : 0 ≤ t.sum radd f ∧ Spec.Near (c ^ t.depth) (t.leaves.map f).sum (t.sum radd f) := by
  have hc0 : 0 ≤ c := by linarith
  induction t with
  | leaf i => exact ⟨hf i, by simpa [SumTree.leaves, SumTree.depth, SumTree.sum] using Spec.Near.refl le_rfl (hf i)⟩
  | node l r ihl ihr =>
    have hs : ∀ t : SumTree ι, 0 ≤ (t.leaves.map f).sum := fun t =>
      List.sum_nonneg (by simpa using fun i _ => hf i)
    have hl := ihl.2.mono (pow_le_pow_right₀ hc (le_max_left l.depth r.depth)) (hs l) ihl.1
    have hr := ihr.2.mono (pow_le_pow_right₀ hc (le_max_right l.depth r.depth)) (hs r) ihr.1
    have hsum : Spec.Near (c ^ max l.depth r.depth) ((l.leaves.map f).sum + (r.leaves.map f).sum)
        (l.sum radd f + r.sum radd f) := by
      constructor
      · rw [mul_add]; exact add_le_add hl.1 hr.1
      · rw [mul_add]; exact add_le_add hl.2 hr.2
    have ha := hadd _ _ ihl.1 ihr.1
    have hnn : 0 ≤ radd (l.sum radd f) (r.sum radd f) := by
      by_contra hneg
      push Not at hneg
      have h1 := ha.2
      have h2 := add_nonneg ihl.1 ihr.1
      nlinarith
    refine ⟨hnn, ?_⟩
    have := hsum.trans ha (by positivity) hc0
    rw [← pow_succ] at this
    simpa [SumTree.leaves, SumTree.depth, SumTree.sum] using this

theorem leaves_sum {n : Nat} (t : SumTree (Fin n)) (ht : t.leaves.Perm (List.finRange n)) (f : Fin n → ℝ) :
    (t.leaves.map f).sum = ∑ i, f i := by
  rw [(ht.map f).sum_eq, ← List.ofFn_eq_map, List.sum_ofFn]

/-- **C103, the model.**  Without rounding this is the update of the exact model. -/
theorem C103_exact {O E ω : Type} {n : Nat} (env : Env ℝ O E ω) (t : SumTree (Fin n))
    (ht : t.leaves.Perm (List.finRange n)) (w : Fin n → ℝ) (x : Fin n → List ℝ) (o : O) (e : E) :
    hypCell env (List.ofFn w) (List.ofFn x) o e =
      .ok (List.ofFn (hypRound id (· + ·) t w fun i => env.likelihood o (x i) e).1,
        List.ofFn (fun i => env.likelihood o (x i) e),
        (hypRound id (· + ·) t w fun i => env.likelihood o (x i) e).2) := by
  have hsum : ∀ (f : Fin n → ℝ) (t : SumTree (Fin n)), t.sum (· + ·) f = (t.leaves.map f).sum := by
    intro f t
    induction t with
    | leaf i => simp [SumTree.sum, SumTree.leaves]
    | node l r ihl ihr => simp [SumTree.sum, SumTree.leaves, ihl, ihr]
  have hz : List.zipWith (· * ·) (List.ofFn w) (List.ofFn fun i => env.likelihood o (x i) e) =
      List.ofFn fun i => w i * env.likelihood o (x i) e := by
    apply List.ext_getElem
    · simp
    · intro k h1 h2; simp
  have hrow : env.likeRow (List.ofFn x) o e = List.ofFn fun i => env.likelihood o (x i) e := by
    simp [Env.likeRow, List.map_ofFn, Function.comp_def]
  unfold hypCell
  dsimp only
  rw [hrow, bcast_eq _ _ _ (by simp), hz]
  dsimp only
  rw [List.sum_ofFn, List.map_ofFn]
  simp only [hypRound, hsum, leaves_sum t ht, id, eps, Function.comp_def]
  by_cases h : |∑ i, w i * env.likelihood o (x i) e| < 1 / 2 ^ 52 <;> simp only [h, if_true, if_false]

/-- **C103, no drift.**  After every update whose normalization passes the guard the weights sum to one up to
the error of a single normalization, however many updates came before. -/
theorem C103_normalised {n : Nat} {c η : ℝ} {rnd : ℝ → ℝ} {radd : ℝ → ℝ → ℝ} (hr : Spec.RoundingAbs c η rnd radd)
    (t : SumTree (Fin n)) (ht : t.leaves.Perm (List.finRange n)) (w L : Fin n → ℝ) (hw : ∀ i, 0 ≤ w i)
    (hL : ∀ i, 0 ≤ L i) (hn : 1 / 2 ^ 52 ≤ (hypRound rnd radd t w L).2) :
    (∀ i, 0 ≤ (hypRound rnd radd t w L).1 i) ∧
    ∑ i, (hypRound rnd radd t w L).1 i ≤ c ^ (t.depth + 1) + n * η ∧
    1 ≤ c ^ (t.depth + 1) * (∑ i, (hypRound rnd radd t w L).1 i + n * η) := by
  have hc := hr.one_le
  have hc0 : 0 ≤ c := by linarith
  have hhyp : ∀ i, 0 ≤ rnd (w i * L i) := fun i => hr.nonneg _ (mul_nonneg (hw i) (hL i))
  obtain ⟨hs0, hs⟩ := sumTree_near hc hr.add (fun i => rnd (w i * L i)) hhyp t
  rw [leaves_sum t ht] at hs
  simp only [hypRound] at hn ⊢
  set N := t.sum radd fun i => rnd (w i * L i) with hN
  have hNpos : 0 < N := lt_of_lt_of_le (by positivity) hn
  rw [if_neg (by rw [abs_of_pos hNpos]; exact not_lt.2 hn)]
  have hq : ∀ i, 0 ≤ rnd (w i * L i) / N := fun i => div_nonneg (hhyp i) hNpos.le
  have hsq : ∑ i, rnd (w i * L i) / N = (∑ i, rnd (w i * L i)) / N := by rw [Finset.sum_div]
  refine ⟨fun i => hr.nonneg _ (hq i), ?_, ?_⟩
  · calc ∑ i, rnd (rnd (w i * L i) / N) ≤ ∑ i, (c * (rnd (w i * L i) / N) + η) :=
          Finset.sum_le_sum fun i _ => hr.le _ (hq i)
      _ = c * ((∑ i, rnd (w i * L i)) / N) + n * η := by
          rw [Finset.sum_add_distrib, ← Finset.mul_sum, hsq]; simp
      _ ≤ c * c ^ t.depth + n * η := by
          have : (∑ i, rnd (w i * L i)) / N ≤ c ^ t.depth := by rw [div_le_iff₀ hNpos]; exact hs.2
          have := mul_le_mul_of_nonneg_left this hc0
          linarith
      _ = _ := by ring
  · have h1 : (∑ i, rnd (w i * L i)) / N ≤ c * (∑ i, rnd (rnd (w i * L i) / N) + n * η) := by
      rw [← hsq]
      calc ∑ i, rnd (w i * L i) / N ≤ ∑ i, c * (rnd (rnd (w i * L i) / N) + η) :=
            Finset.sum_le_sum fun i _ => hr.ge _ (hq i)
        _ = _ := by rw [← Finset.mul_sum, Finset.sum_add_distrib]; simp
    have h2 : 1 ≤ c ^ t.depth * ((∑ i, rnd (w i * L i)) / N) := by
      rw [← mul_div_assoc, le_div_iff₀ hNpos, one_mul]; exact hs.1
    calc (1 : ℝ) ≤ c ^ t.depth * ((∑ i, rnd (w i * L i)) / N) := h2
      _ ≤ c ^ t.depth * (c * (∑ i, rnd (rnd (w i * L i) / N) + n * η)) :=
          mul_le_mul_of_nonneg_left h1 (by positivity)
      _ = _ := by ring

/-- One update when nothing underflows. -/
theorem hypRound_step {n : Nat} {c tiny : ℝ} {rnd : ℝ → ℝ} {radd : ℝ → ℝ → ℝ} (hr : Spec.Rounding c tiny rnd radd)
    (htiny : 0 < tiny) (D : Nat) (t : SumTree (Fin n)) (ht : t.leaves.Perm (List.finRange n)) (hD : t.depth ≤ D)
    (w L : Fin n → ℝ) (m ℓ : ℝ) (hm : ∀ i, m ≤ w i) (hℓ : 0 < ℓ) (hL : ∀ i, ℓ ≤ L i ∧ L i ≤ 1)
    (hw : Spec.Near (c ^ (D + 1)) 1 (∑ i, w i)) (hguard : c ^ (2 * D + 2) / 2 ^ 52 ≤ ℓ)
    (hmt : tiny ≤ m * (ℓ / c ^ (2 * D + 4))) :
    (∀ i, m * (ℓ / c ^ (2 * D + 4)) ≤ (hypRound rnd radd t w L).1 i) ∧
    Spec.Near (c ^ (D + 1)) 1 (∑ i, (hypRound rnd radd t w L).1 i) ∧
    ∃ Z, 0 < Z ∧ ∀ i, Spec.Near (c ^ 2) (w i * L i) (Z * (hypRound rnd radd t w L).1 i) := by
  have hc := hr.one_le
  have hc0 : 0 < c := by linarith
  have hq0 : 0 < ℓ / c ^ (2 * D + 4) := by positivity
  have hm0 : 0 < m := by
    by_contra hneg
    push Not at hneg
    nlinarith
  have hw0 : ∀ i, 0 < w i := fun i => lt_of_lt_of_le hm0 (hm i)
  have hL0 : ∀ i, 0 < L i := fun i => lt_of_lt_of_le hℓ (hL i).1
  have hpow : ∀ k, 1 ≤ c ^ k := fun k => one_le_pow₀ hc
  have hmℓ : ∀ i, m * ℓ ≤ w i * L i := fun i =>
    mul_le_mul (hm i) (hL i).1 hℓ.le (hw0 i).le
  have hbig : tiny ≤ m * ℓ := by
    refine hmt.trans (mul_le_mul_of_nonneg_left ?_ hm0.le)
    exact div_le_self hℓ.le (hpow _)
  have hprod : ∀ i, Spec.Near c (w i * L i) (rnd (w i * L i)) := fun i => hr.near _ (hbig.trans (hmℓ i))
  have hhyp0 : ∀ i, 0 < rnd (w i * L i) := by
    intro i
    have h1 := (hprod i).2
    have h2 : 0 < w i * L i := mul_pos (hw0 i) (hL0 i)
    by_contra hneg
    push Not at hneg
    nlinarith
  obtain ⟨hs0, hs'⟩ := sumTree_near hc hr.add (fun i => rnd (w i * L i)) (fun i => (hhyp0 i).le) t
  rw [leaves_sum t ht] at hs'
  simp only [hypRound]
  set N := t.sum radd fun i => rnd (w i * L i) with hN
  have hsumpos : 0 ≤ ∑ i, rnd (w i * L i) := Finset.sum_nonneg fun i _ => (hhyp0 i).le
  have hs := hs'.mono (pow_le_pow_right₀ hc hD) hsumpos hs0
  have hsp : Spec.Near c (∑ i, w i * L i) (∑ i, rnd (w i * L i)) := Spec.Near.sum _ fun i _ => hprod i
  have hNwL : Spec.Near (c ^ (D + 1)) (∑ i, w i * L i) N := by
    have := hsp.trans hs hc0.le (by positivity)
    rwa [← pow_succ'] at this
  have hwsum : 0 ≤ ∑ i, w i := Finset.sum_nonneg fun i _ => (hw0 i).le
  have hwLle : ∑ i, w i * L i ≤ ∑ i, w i := Finset.sum_le_sum fun i _ => by nlinarith [hw0 i, (hL i).2]
  have hwLge : ℓ * ∑ i, w i ≤ ∑ i, w i * L i := by
    rw [Finset.mul_sum]
    exact Finset.sum_le_sum fun i _ => by nlinarith [hw0 i, (hL i).1]
  have hNle : N ≤ c ^ (2 * D + 2) := by
    calc N ≤ c ^ (D + 1) * ∑ i, w i * L i := hNwL.1
      _ ≤ c ^ (D + 1) * ∑ i, w i := mul_le_mul_of_nonneg_left hwLle (by positivity)
      _ ≤ c ^ (D + 1) * (c ^ (D + 1) * 1) := mul_le_mul_of_nonneg_left hw.1 (by positivity)
      _ = c ^ (2 * D + 2) := by ring
  have hNge : ℓ ≤ c ^ (2 * D + 2) * N := by
    calc ℓ = ℓ * 1 := by ring
      _ ≤ ℓ * (c ^ (D + 1) * ∑ i, w i) := mul_le_mul_of_nonneg_left hw.2 hℓ.le
      _ = c ^ (D + 1) * (ℓ * ∑ i, w i) := by ring
      _ ≤ c ^ (D + 1) * (c ^ (D + 1) * N) :=
          mul_le_mul_of_nonneg_left (hwLge.trans hNwL.2) (by positivity)
      _ = c ^ (2 * D + 2) * N := by ring
  have hNguard : 1 / 2 ^ 52 ≤ N := by
    have h1 := hguard.trans hNge
    rw [div_eq_mul_one_div] at h1
    exact le_of_mul_le_mul_left h1 (by positivity)
  have hNpos : 0 < N := lt_of_lt_of_le (by positivity) hNguard
  rw [if_neg (by rw [abs_of_pos hNpos]; exact not_lt.2 hNguard)]
  have hquo : ∀ i, c * (m * (ℓ / c ^ (2 * D + 4))) ≤ rnd (w i * L i) / N := by
    intro i
    rw [le_div_iff₀ hNpos]
    have h1 : m * ℓ ≤ c * rnd (w i * L i) := (hmℓ i).trans (hprod i).2
    have h2 : c * (m * (ℓ / c ^ (2 * D + 4))) * N ≤ c * (m * (ℓ / c ^ (2 * D + 4))) * c ^ (2 * D + 2) :=
      mul_le_mul_of_nonneg_left hNle (by positivity)
    have h3 : c * (m * (ℓ / c ^ (2 * D + 4))) * c ^ (2 * D + 2) = m * ℓ / c := by
      rw [show c ^ (2 * D + 4) = c ^ (2 * D + 2) * (c * c) by ring]
      field_simp
    have h4 : m * ℓ / c ≤ rnd (w i * L i) := by rw [div_le_iff₀ hc0, mul_comm _ c]; exact h1
    linarith
  have hmc : m * (ℓ / c ^ (2 * D + 4)) ≤ c * (m * (ℓ / c ^ (2 * D + 4))) := by
    have : 0 < m * (ℓ / c ^ (2 * D + 4)) := mul_pos hm0 hq0
    nlinarith
  have hqn : ∀ i, Spec.Near c (rnd (w i * L i) / N) (rnd (rnd (w i * L i) / N)) := fun i =>
    hr.near _ (hmt.trans (hmc.trans (hquo i)))
  refine ⟨fun i => ?_, ?_, N, hNpos, fun i => ?_⟩
  · exact le_of_mul_le_mul_left ((hquo i).trans (hqn i).2) hc0
  · have h1 : Spec.Near c ((∑ i, rnd (w i * L i)) / N) (∑ i, rnd (rnd (w i * L i) / N)) := by
      rw [Finset.sum_div]; exact Spec.Near.sum _ fun i _ => hqn i
    have h2 : Spec.Near (c ^ D) 1 ((∑ i, rnd (w i * L i)) / N) := by
      constructor
      · rw [div_le_iff₀ hNpos, mul_one]; exact hs.2
      · rw [← mul_div_assoc, le_div_iff₀ hNpos, one_mul]; exact hs.1
    have := h2.trans h1 (by positivity) hc0.le
    rwa [← pow_succ] at this
  · have h1 : Spec.Near c (rnd (w i * L i)) (N * rnd (rnd (w i * L i) / N)) := by
      have e : rnd (w i * L i) = N * (rnd (w i * L i) / N) := by field_simp
      have h := hqn i
      constructor
      · calc N * rnd (rnd (w i * L i) / N) ≤ N * (c * (rnd (w i * L i) / N)) :=
              mul_le_mul_of_nonneg_left h.1 hNpos.le
          _ = c * rnd (w i * L i) := by field_simp
      · calc rnd (w i * L i) = N * (rnd (w i * L i) / N) := e
          _ ≤ N * (c * rnd (rnd (w i * L i) / N)) := mul_le_mul_of_nonneg_left h.2 hNpos.le
          _ = c * (N * rnd (rnd (w i * L i) / N)) := by ring
    have := (hprod i).trans h1 hc0.le hc0.le
    rwa [← sq] at this

/-- A datum with rounded and exact likelihoods: the order of additions, what the model computes, what it
should have computed. -/
structure Spec.Datum (n : Nat) where
  order : SumTree (Fin n)
  computed : Fin n → ℝ
  exact : Fin n → ℝ

theorem roundRun_near {n : Nat} {c b tiny : ℝ} {rnd : ℝ → ℝ} {radd : ℝ → ℝ → ℝ}
    (hr : Spec.Rounding c tiny rnd radd) (hb : 1 ≤ b) (htiny : 0 < tiny) (D : Nat) (ℓ : ℝ) (hℓ : 0 < ℓ)
    (hguard : c ^ (2 * D + 2) / 2 ^ 52 ≤ ℓ) (data : List (Spec.Datum n))
    (hdata : ∀ d ∈ data, d.order.leaves.Perm (List.finRange n) ∧ d.order.depth ≤ D ∧
      ∀ i, ℓ ≤ d.computed i ∧ d.computed i ≤ 1 ∧ 0 ≤ d.exact i ∧ Spec.Near b (d.exact i) (d.computed i))
    (w : Fin n → ℝ) (m : ℝ) (hm : ∀ i, m ≤ w i) (hm0 : 0 < m) (hw : Spec.Near (c ^ (D + 1)) 1 (∑ i, w i))
    (hmt : tiny ≤ m * (ℓ / c ^ (2 * D + 4)) ^ data.length) :
    (∀ i, 0 < roundRun rnd radd (data.map fun d => (d.order, d.computed)) w i) ∧
    Spec.Near (c ^ (D + 1)) 1 (∑ i, roundRun rnd radd (data.map fun d => (d.order, d.computed)) w i) ∧
    ∃ Z, 0 < Z ∧ ∀ i, Spec.Near ((c ^ 2 * b) ^ data.length) (w i * (data.map fun d => d.exact i).prod)
      (Z * roundRun rnd radd (data.map fun d => (d.order, d.computed)) w i) := by
  have hc := hr.one_le
  have hc0 : 0 < c := by linarith
  have hb0 : 0 < b := by linarith
  induction data generalizing w m with
  | nil =>
    exact ⟨fun i => lt_of_lt_of_le hm0 (hm i), by simpa [roundRun] using hw, 1, one_pos, fun i => by
      simpa [roundRun] using Spec.Near.refl le_rfl (hm0.le.trans (hm i))⟩
  | cons d data ih =>
    obtain ⟨hperm, hdep, hLs⟩ := hdata d (by simp)
    set q := ℓ / c ^ (2 * D + 4) with hq
    have hq0 : 0 < q := by positivity
    have hL1 : 0 < n → ℓ ≤ 1 := fun hn => (hLs ⟨0, hn⟩).1.trans (hLs ⟨0, hn⟩).2.1
    rcases Nat.eq_zero_or_pos n with hn | hn
    · subst hn
      have h0 := hw.2
      simp at h0
      exact absurd h0 (by norm_num)
    have hq1 : q ≤ 1 := by
      rw [hq, div_le_one (by positivity)]
      exact (hL1 hn).trans (one_le_pow₀ hc)
    have hmt1 : tiny ≤ m * q := by
      refine hmt.trans ?_
      rw [List.length_cons, pow_succ', ← mul_assoc]
      exact mul_le_of_le_one_right (by positivity) (pow_le_one₀ hq0.le hq1)
    obtain ⟨s1, s2, Z1, hZ1, s3⟩ := hypRound_step hr htiny D d.order hperm hdep w d.computed m ℓ hm hℓ
      (fun i => ⟨(hLs i).1, (hLs i).2.1⟩) hw hguard hmt1
    obtain ⟨r1, r2, Z2, hZ2, r3⟩ := ih (fun d' hd' => hdata d' (by simp [hd'])) _ (m * q) s1 (by positivity) s2
      (by rw [List.length_cons, pow_succ', ← mul_assoc] at hmt; exact hmt)
    refine ⟨r1, r2, Z1 * Z2, by positivity, fun i => ?_⟩
    have hw0 : 0 ≤ w i := hm0.le.trans (hm i)
    have hex0 : 0 ≤ d.exact i := (hLs i).2.2.1
    have hP0 : 0 ≤ (data.map fun d => d.exact i).prod := by
      have : ∀ l : List (Spec.Datum n), (∀ d' ∈ l, 0 ≤ d'.exact i) → 0 ≤ (l.map fun d => d.exact i).prod := by
        intro l hl
        induction l with
        | nil => simp
        | cons a l ihl =>
          simp only [List.map_cons, List.prod_cons]
          exact mul_nonneg (hl a (by simp)) (ihl fun d' hd' => hl d' (by simp [hd']))
      exact this data fun d' hd' => ((hdata d' (by simp [hd'])).2.2 i).2.2.1
    have hcomp0 : 0 ≤ d.computed i := hℓ.le.trans (hLs i).1
    set w1 := (hypRound rnd radd d.order w d.computed).1 i with hw1
    have hw10 : 0 ≤ w1 := (by positivity : (0 : ℝ) ≤ m * q).trans (s1 i)
    set v := roundRun rnd radd (data.map fun d => (d.order, d.computed)) (hypRound rnd radd d.order w d.computed).1 i
      with hv
    have hv0 : 0 < v := r1 i
    have e1 : Spec.Near b (w i * d.exact i) (w i * d.computed i) := by
      have h := (hLs i).2.2.2
      constructor
      · calc w i * d.computed i ≤ w i * (b * d.exact i) := mul_le_mul_of_nonneg_left h.1 hw0
          _ = _ := by ring
      · calc w i * d.exact i ≤ w i * (b * d.computed i) := mul_le_mul_of_nonneg_left h.2 hw0
          _ = _ := by ring
    have e2 : Spec.Near (b * c ^ 2) (w i * d.exact i) (Z1 * w1) := e1.trans (s3 i) hb0.le (by positivity)
    have e3 : Spec.Near (b * c ^ 2) (w i * (d.exact i * (data.map fun d => d.exact i).prod))
        (Z1 * (w1 * (data.map fun d => d.exact i).prod)) := by
      constructor
      · calc Z1 * (w1 * (data.map fun d => d.exact i).prod) = Z1 * w1 * (data.map fun d => d.exact i).prod := by ring
          _ ≤ (b * c ^ 2 * (w i * d.exact i)) * (data.map fun d => d.exact i).prod :=
              mul_le_mul_of_nonneg_right e2.1 hP0
          _ = _ := by ring
      · calc w i * (d.exact i * (data.map fun d => d.exact i).prod) =
              w i * d.exact i * (data.map fun d => d.exact i).prod := by ring
          _ ≤ (b * c ^ 2 * (Z1 * w1)) * (data.map fun d => d.exact i).prod := mul_le_mul_of_nonneg_right e2.2 hP0
          _ = _ := by ring
    have e4 : Spec.Near ((c ^ 2 * b) ^ data.length) (Z1 * (w1 * (data.map fun d => d.exact i).prod))
        (Z1 * (Z2 * v)) := by
      have h := r3 i
      constructor
      · calc Z1 * (Z2 * v) ≤ Z1 * ((c ^ 2 * b) ^ data.length * (w1 * (data.map fun d => d.exact i).prod)) :=
              mul_le_mul_of_nonneg_left h.1 hZ1.le
          _ = _ := by ring
      · calc Z1 * (w1 * (data.map fun d => d.exact i).prod) ≤ Z1 * ((c ^ 2 * b) ^ data.length * (Z2 * v)) :=
              mul_le_mul_of_nonneg_left h.2 hZ1.le
          _ = _ := by ring
    have e5 := e3.trans e4 (by positivity) (by positivity)
    have e6 : b * c ^ 2 * (c ^ 2 * b) ^ data.length = (c ^ 2 * b) ^ (data.length + 1) := by ring
    rw [e6] at e5
    simp only [List.map_cons, List.prod_cons, List.length_cons, roundRun]
    rw [show Z1 * Z2 * v = Z1 * (Z2 * v) by ring]
    exact e5

/-- **C103, posterior.**  If nothing can underflow, every weight after `k` updates agrees with Bayes' rule up to
the factor `(c² b)^(2k) c^(D + 1)`: `c` for an operation, `b` for the likelihoods, `D` for the depth of the
sums.  The error grows linearly with the number of data, not faster. -/
theorem C103_posterior {n : Nat} {c b tiny : ℝ} {rnd : ℝ → ℝ} {radd : ℝ → ℝ → ℝ}
    (hr : Spec.Rounding c tiny rnd radd) (hb : 1 ≤ b) (htiny : 0 < tiny) (D : Nat) (ℓ : ℝ) (hℓ : 0 < ℓ)
    (hguard : c ^ (2 * D + 2) / 2 ^ 52 ≤ ℓ) (data : List (Spec.Datum n))
    (hdata : ∀ d ∈ data, d.order.leaves.Perm (List.finRange n) ∧ d.order.depth ≤ D ∧
      ∀ i, ℓ ≤ d.computed i ∧ d.computed i ≤ 1 ∧ 0 ≤ d.exact i ∧ Spec.Near b (d.exact i) (d.computed i))
    (w : Fin n → ℝ) (w₀ : ℝ) (hw₀ : 0 < w₀) (hw : ∀ i, w₀ ≤ w i) (hw1 : ∑ i, w i = 1)
    (hunder : tiny ≤ w₀ * (ℓ / c ^ (2 * D + 4)) ^ data.length) (i : Fin n) :
    Spec.Near ((c ^ 2 * b) ^ (2 * data.length) * c ^ (D + 1)) (Spec.bayes w (data.map (·.exact)) i)
      (roundRun rnd radd (data.map fun d => (d.order, d.computed)) w i) := by
  have hc := hr.one_le
  have hc0 : 0 < c := by linarith
  have hb0 : 0 < b := by linarith
  obtain ⟨r1, r2, Z, hZ, r3⟩ := roundRun_near hr hb htiny D ℓ hℓ hguard data hdata w w₀ hw hw₀
    (by rw [hw1]; exact Spec.Near.refl (one_le_pow₀ hc) zero_le_one) hunder
  set v := roundRun rnd radd (data.map fun d => (d.order, d.computed)) w with hv
  set A := (c ^ 2 * b) ^ data.length with hA
  have hA0 : 0 < A := by positivity
  have hsum : Spec.Near A (∑ j, w j * (data.map fun d => d.exact j).prod) (Z * ∑ j, v j) := by
    rw [Finset.mul_sum]; exact Spec.Near.sum _ fun j _ => r3 j
  set U := ∑ j, w j * (data.map fun d => d.exact j).prod with hU
  set S := ∑ j, v j with hS
  have hS0 : 0 < S := by
    have := r2.2
    by_contra hneg
    push Not at hneg
    have h1 : c ^ (D + 1) * S ≤ 0 := mul_nonpos_of_nonneg_of_nonpos (by positivity) hneg
    linarith
  have hU0 : 0 < U := by
    have h1 := hsum.1
    have h2 : 0 < Z * S := by positivity
    by_contra hneg
    push Not at hneg
    have h3 : A * U ≤ 0 := mul_nonpos_of_nonneg_of_nonpos hA0.le hneg
    linarith
  have hpost : Spec.bayes w (data.map (·.exact)) i = w i * (data.map fun d => d.exact i).prod / U := by
    simp only [Spec.bayes, List.map_map, Function.comp_def, hU]
  have hA2 : (c ^ 2 * b) ^ (2 * data.length) = A * A := by rw [hA]; ring
  rw [hpost, hA2]
  set u := w i * (data.map fun d => d.exact i).prod with hu
  have h3 := r3 i
  have hv0 := r1 i
  constructor
  · -- `v ≤ A u / Z`, `1 / Z ≤ A S / U`
    rw [← mul_div_assoc, le_div_iff₀ hU0]
    calc v i * U ≤ v i * (A * (Z * S)) := mul_le_mul_of_nonneg_left hsum.2 hv0.le
      _ = A * S * (Z * v i) := by ring
      _ ≤ A * S * (A * u) := mul_le_mul_of_nonneg_left h3.1 (by positivity)
      _ = A * A * u * S := by ring
      _ ≤ A * A * u * (c ^ (D + 1) * 1) := by
          refine mul_le_mul_of_nonneg_left r2.1 ?_
          have : 0 ≤ u := by
            have h4 : 0 < Z * v i := by positivity
            by_contra hneg
            push Not at hneg
            have h5 : A * u ≤ 0 := mul_nonpos_of_nonneg_of_nonpos hA0.le hneg.le
            linarith [h3.1]
          positivity
      _ = A * A * c ^ (D + 1) * u := by ring
  · rw [div_le_iff₀ hU0]
    calc u ≤ A * (Z * v i) := h3.2
      _ = A * v i * Z * 1 := by ring
      _ ≤ A * v i * Z * (c ^ (D + 1) * S) := mul_le_mul_of_nonneg_left r2.2 (by positivity)
      _ = A * c ^ (D + 1) * v i * (Z * S) := by ring
      _ ≤ A * c ^ (D + 1) * v i * (A * U) := mul_le_mul_of_nonneg_left hsum.1 (by positivity)
      _ = _ := by ring

theorem near_mean {n : Nat} {C : ℝ} (hC : 1 ≤ C) (p v f : Fin n → ℝ) (hp : ∀ i, 0 ≤ p i)
    (h : ∀ i, Spec.Near C (p i) (v i)) : |∑ i, v i * f i - ∑ i, p i * f i| ≤ (C - 1) * ∑ i, p i * |f i| := by
  rw [← Finset.sum_sub_distrib, Finset.mul_sum]
  refine (Finset.abs_sum_le_sum_abs _ _).trans (Finset.sum_le_sum fun i _ => ?_)
  rw [← sub_mul, abs_mul, ← mul_assoc]
  refine mul_le_mul_of_nonneg_right ?_ (abs_nonneg _)
  obtain ⟨h1, h2⟩ := h i
  have hv : 0 ≤ v i := by
    by_contra hneg
    push Not at hneg
    have : C * v i < 0 := mul_neg_of_pos_of_neg (by linarith) hneg
    linarith [hp i]
  rw [abs_le]
  constructor
  · nlinarith [hp i]
  · nlinarith [hp i]

/-- **C103, estimates.**  Means over such weights are off by at most the same relative error. -/
theorem C103_mean {n : Nat} {c b tiny : ℝ} {rnd : ℝ → ℝ} {radd : ℝ → ℝ → ℝ}
    (hr : Spec.Rounding c tiny rnd radd) (hb : 1 ≤ b) (htiny : 0 < tiny) (D : Nat) (ℓ : ℝ) (hℓ : 0 < ℓ)
    (hguard : c ^ (2 * D + 2) / 2 ^ 52 ≤ ℓ) (data : List (Spec.Datum n))
    (hdata : ∀ d ∈ data, d.order.leaves.Perm (List.finRange n) ∧ d.order.depth ≤ D ∧
      ∀ i, ℓ ≤ d.computed i ∧ d.computed i ≤ 1 ∧ 0 ≤ d.exact i ∧ Spec.Near b (d.exact i) (d.computed i))
    (w : Fin n → ℝ) (w₀ : ℝ) (hw₀ : 0 < w₀) (hw : ∀ i, w₀ ≤ w i) (hw1 : ∑ i, w i = 1)
    (hunder : tiny ≤ w₀ * (ℓ / c ^ (2 * D + 4)) ^ data.length) (f : Fin n → ℝ) :
    |∑ i, roundRun rnd radd (data.map fun d => (d.order, d.computed)) w i * f i -
        ∑ i, Spec.bayes w (data.map (·.exact)) i * f i| ≤
      ((c ^ 2 * b) ^ (2 * data.length) * c ^ (D + 1) - 1) * ∑ i, Spec.bayes w (data.map (·.exact)) i * |f i| := by
  have hc := hr.one_le
  have hpr : ∀ i, 0 ≤ ((data.map (·.exact)).map fun L => L i).prod := by
    intro i
    have : ∀ l : List (Spec.Datum n), (∀ d' ∈ l, 0 ≤ d'.exact i) →
        0 ≤ ((l.map (·.exact)).map fun L => L i).prod := by
      intro l hl
      induction l with
      | nil => simp
      | cons a l ihl =>
        simp only [List.map_cons, List.prod_cons]
        exact mul_nonneg (hl a (by simp)) (ihl fun d' hd' => hl d' (by simp [hd']))
    exact this data fun d' hd' => ((hdata d' hd').2.2 i).2.2.1
  refine near_mean ?_ _ _ f (fun i => ?_) fun i =>
    C103_posterior hr hb htiny D ℓ hℓ hguard data hdata w w₀ hw₀ hw hw1 hunder i
  · exact one_le_mul_of_one_le_of_one_le
      (one_le_pow₀ (one_le_mul_of_one_le_of_one_le (one_le_pow₀ hc) hb)) (one_le_pow₀ hc)
  · unfold Spec.bayes
    have hwn : ∀ j, 0 ≤ w j := fun j => hw₀.le.trans (hw j)
    exact div_nonneg (mul_nonneg (hwn i) (hpr i)) (Finset.sum_nonneg fun j _ => mul_nonneg (hwn j) (hpr j))

/-- Underflow: everything below `tiny` becomes zero. -/
noncomputable def flush (tiny x : ℝ) : ℝ := if x < tiny then 0 else x

theorem flush_rounding {c tiny : ℝ} (hc : 1 ≤ c) (htiny : 0 < tiny) :
    Spec.Rounding c tiny (flush tiny) (· + ·) ∧ Spec.RoundingAbs c tiny (flush tiny) (· + ·) := by
  have hnn : ∀ x, 0 ≤ x → 0 ≤ flush tiny x := by
    intro x hx
    unfold flush
    split_ifs
    · exact le_rfl
    · exact hx
  have hadd : ∀ x y : ℝ, 0 ≤ x → 0 ≤ y → Spec.Near c (x + y) (x + y) := fun x y hx hy =>
    Spec.Near.refl hc (add_nonneg hx hy)
  refine ⟨⟨hc, ?_, hnn, ?_, hadd⟩, hc, hnn, ?_, ?_, hadd⟩
  · simp [flush, htiny]
  · intro x hx
    rw [flush, if_neg (not_lt.2 hx)]
    exact Spec.Near.refl hc (htiny.le.trans hx)
  · intro x hx
    unfold flush
    split_ifs
    · positivity
    · nlinarith
  · intro x hx
    unfold flush
    split_ifs with h
    · nlinarith
    · nlinarith

/-- **C103, finding.**  Underflow is final: for every threshold there are data on two particles for which
Bayes' rule ends with weight 1/2 on both, while the computed weights are 0 and 1.  All normalizations pass the
guard, and no resampling is needed on the way. -/
theorem C103_underflow {tiny : ℝ} (htiny : 0 < tiny) (ht1 : tiny ≤ 1 / 2) :
    ∃ data : List (SumTree (Fin 2) × (Fin 2 → ℝ)),
      (∀ d ∈ data, d.1.leaves.Perm (List.finRange 2) ∧ ∀ i, 0 < d.2 i ∧ d.2 i ≤ 1) ∧
      (∀ i, Spec.bayes (fun _ => 1 / 2) (data.map (·.2)) i = 1 / 2) ∧
      roundRun (flush tiny) (· + ·) data (fun _ => 1 / 2) 0 = 0 ∧
      roundRun (flush tiny) (· + ·) data (fun _ => 1 / 2) 1 = 1 := by
  obtain ⟨K, hK⟩ := exists_pow_lt_of_lt_one htiny (by norm_num : (1 / 2 : ℝ) < 1)
  have hK0 : (0 : ℝ) < (1 / 2) ^ K := by positivity
  let t : SumTree (Fin 2) := .node (.leaf 0) (.leaf 1)
  let L1 : Fin 2 → ℝ := ![(1 / 2) ^ K, 1]
  let L2 : Fin 2 → ℝ := ![1, 1 / 2]
  have htl : t.leaves.Perm (List.finRange 2) := by
    show [(0 : Fin 2), 1].Perm (List.finRange 2)
    decide
  have hstay : ∀ k, roundRun (flush tiny) (· + ·) (List.replicate k (t, L2)) ![0, 1] = ![0, 1] := by
    intro k
    induction k with
    | zero => rfl
    | succ k ih =>
      rw [List.replicate_succ, roundRun]
      have : (hypRound (flush tiny) (· + ·) t ![0, 1] L2).1 = ![0, 1] := by
        have f0 : flush tiny 0 = 0 := by simp [flush, htiny]
        have fh : flush tiny (1 / 2) = 1 / 2 := by rw [flush, if_neg (not_lt.2 ht1)]
        have f1 : flush tiny 1 = 1 := by rw [flush, if_neg (by linarith)]
        have hsum : t.sum (· + ·) (fun i => flush tiny ((![0, 1] : Fin 2 → ℝ) i * L2 i)) = 1 / 2 := by
          simp only [t, SumTree.sum, L2, Matrix.cons_val_zero, Matrix.cons_val_one, zero_mul, one_mul, f0, fh]
          norm_num
        unfold hypRound
        dsimp only
        rw [hsum, if_neg (by norm_num)]
        funext i
        fin_cases i
        · simp [L2, f0]
        · have : flush tiny (1 / 2) / (1 / 2) = 1 := by rw [fh]; norm_num
          simp only [L2, Fin.mk_one, Matrix.cons_val_one, Matrix.cons_val_fin_one, one_mul]
          rw [this, f1]
      rw [this, ih]
  have hfirst : (hypRound (flush tiny) (· + ·) t (fun _ => 1 / 2) L1).1 = ![0, 1] := by
    have fK : flush tiny (1 / 2 * (1 / 2) ^ K) = 0 := by rw [flush, if_pos (by linarith)]
    have f0 : flush tiny 0 = 0 := by simp [flush, htiny]
    have fh : flush tiny (1 / 2) = 1 / 2 := by rw [flush, if_neg (not_lt.2 ht1)]
    have f1 : flush tiny 1 = 1 := by rw [flush, if_neg (by linarith)]
    have hsum : t.sum (· + ·) (fun i => flush tiny (1 / 2 * L1 i)) = 1 / 2 := by
      simp only [t, SumTree.sum, L1, Matrix.cons_val_zero, Matrix.cons_val_one, mul_one, fK, fh]
      norm_num
    unfold hypRound
    dsimp only
    rw [hsum, if_neg (by norm_num)]
    funext i
    fin_cases i
    · simp only [L1, Fin.zero_eta, Matrix.cons_val_zero]
      rw [fK, zero_div, f0]
    · have : flush tiny (1 / 2) / (1 / 2) = 1 := by rw [fh]; norm_num
      simp only [L1, Fin.mk_one, Matrix.cons_val_one, Matrix.cons_val_fin_one, mul_one]
      rw [this, f1]
  refine ⟨(t, L1) :: List.replicate K (t, L2), ?_, ?_, ?_, ?_⟩
  · intro d hd
    rcases List.mem_cons.1 hd with rfl | hd
    · refine ⟨htl, fun i => ?_⟩
      fin_cases i
      · exact ⟨hK0, pow_le_one₀ (by norm_num) (by norm_num)⟩
      · simp [L1]
    · rw [List.eq_of_mem_replicate hd]
      refine ⟨htl, fun i => ?_⟩
      fin_cases i
      · simp [L2]
      · simp [L2]; norm_num
  · intro i
    have h0 : (((t, L1) :: List.replicate K (t, L2)).map (·.2)).map (fun L => L 0) =
        (1 / 2) ^ K :: List.replicate K 1 := by simp [L1, L2]
    have h1 : (((t, L1) :: List.replicate K (t, L2)).map (·.2)).map (fun L => L 1) =
        1 :: List.replicate K (1 / 2) := by simp [L1, L2]
    unfold Spec.bayes
    rw [Fin.sum_univ_two, h0, h1]
    fin_cases i
    · simp only [Fin.zero_eta]
      rw [h0]
      simp only [List.prod_cons, List.prod_replicate, one_pow, mul_one, one_mul]
      field_simp
      norm_num
    · simp only [Fin.mk_one]
      rw [h1]
      simp only [List.prod_cons, List.prod_replicate, one_pow, mul_one, one_mul]
      field_simp
      norm_num
  · rw [roundRun, hfirst, hstay]; rfl
  · rw [roundRun, hfirst, hstay]; rfl

theorem pow_one_add_le (x : ℝ) (hx : 0 ≤ x) (hx1 : x ≤ 1) (m : Nat) : (1 + x) ^ m * (1 - m * x) ≤ 1 := by
  have h1 : 1 + (m : ℝ) * (-x) ≤ (1 + -x) ^ m := one_add_mul_le_pow (by linarith) m
  calc (1 + x) ^ m * (1 - m * x) ≤ (1 + x) ^ m * (1 + -x) ^ m :=
        mul_le_mul_of_nonneg_left (by linarith) (by positivity)
    _ = (1 - x ^ 2) ^ m := by rw [← mul_pow]; congr 1; ring
    _ ≤ 1 := pow_le_one₀ (by nlinarith) (by nlinarith)

/-- Case for C103: double precision, a thousand particles added pairwise with depth at most a thousand, data
with likelihoods from 1/4 to 1, a hundred data: nothing underflows and every weight is right up to
one part in a million. -/
example : let c : ℝ := 1 + 1 / 2 ^ 52
    c ^ (2 * 1000 + 2) / 2 ^ 52 ≤ 1 / 4 ∧ (1 / 2 ^ 1022 : ℝ) ≤ 1 / 1000 * ((1 / 4) / c ^ (2 * 1000 + 4)) ^ 100 ∧
    (c ^ 2 * c) ^ (2 * 100) * c ^ (1000 + 1) ≤ 1 + 1 / 10 ^ 6 := by
  intro c
  have hc1 : 1 ≤ c := by simp only [c]; norm_num
  have hc0 : 0 < c := by linarith
  have hb : ∀ m : Nat, (m : ℝ) ≤ 2 ^ 20 → c ^ m ≤ 1 + 1 / 10 ^ 6 := by
    intro m hm
    have h := pow_one_add_le (1 / 2 ^ 52) (by norm_num) (by norm_num) m
    have h1 : 1 - 1 / 2 ^ 32 ≤ 1 - (m : ℝ) * (1 / 2 ^ 52) := by
      have h2 : (m : ℝ) * (1 / 2 ^ 52) ≤ 2 ^ 20 * (1 / 2 ^ 52) := mul_le_mul_of_nonneg_right hm (by norm_num)
      norm_num at h2 ⊢
      linarith
    have h2 : c ^ m * (1 - 1 / 2 ^ 32) ≤ 1 := (mul_le_mul_of_nonneg_left h1 (by positivity)).trans h
    norm_num at h2 ⊢
    linarith
  have h1 : c ^ (2 * 1000 + 2) ≤ 2 := (hb _ (by norm_num)).trans (by norm_num)
  have h2 : (c ^ (2 * 1000 + 4)) ^ 100 ≤ 2 := by
    rw [← pow_mul]; exact (hb _ (by norm_num)).trans (by norm_num)
  refine ⟨?_, ?_, ?_⟩
  · rw [div_le_iff₀ (by positivity)]
    refine h1.trans (by norm_num)
  · rw [div_pow, ← mul_div_assoc, le_div_iff₀ (by positivity)]
    calc (1 / 2 ^ 1022 : ℝ) * (c ^ (2 * 1000 + 4)) ^ 100 ≤ 1 / 2 ^ 1022 * 2 :=
          mul_le_mul_of_nonneg_left h2 (by positivity)
      _ ≤ 1 / 2 ^ 250 * 2 := mul_le_mul_of_nonneg_right
          (one_div_le_one_div_of_le (by positivity) (pow_le_pow_right₀ (by norm_num) (by norm_num))) (by norm_num)
      _ ≤ _ := by norm_num
  · rw [← pow_succ, ← pow_mul, ← pow_add]
    exact hb _ (by norm_num)

end QInfer
