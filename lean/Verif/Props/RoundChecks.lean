import Verif.Model.RoundChecks
import Verif.Props.RoundRun

/-!
# C156: the checks of `update` in rounded arithmetic
-/

namespace QInfer

open scoped BigOperators

variable {n : ℕ} {u : ℝ} {rnd : ℝ → ℝ} {radd : ℝ → ℝ → ℝ}

/-! ## Helper lemmas -/

/-- A step whose new weights are not negative and add up to more than the threshold passes the checks. -/
theorem checked_step {S : Type} {thr zthr : ℝ} {d : RoundStep n S} {t : SumTree (Fin n)} {w : Fin n → ℝ} {x : Fin n → S}
    (h0 : ∀ i, 0 ≤ (hypRound rnd radd d.order w fun i => d.like (x i)).1 i)
    (hz : zthr < t.sum radd (hypRound rnd radd d.order w fun i => d.like (x i)).1) {r : (Fin n → ℝ) × (Fin n → S)}
    (hr : stepRound rnd radd thr d w x = .ok r) : checkedStepRound rnd radd thr zthr d t w x = .ok (r, 0) := by
  have : maybeResampleRound rnd radd thr d (hypRound rnd radd d.order w fun i => d.like (x i)).1 x = .ok r := hr
  simp only [checkedStepRound]
  rw [if_pos h0, if_pos h0, if_neg (not_le.2 hz), this]

/-- A step with a negative new weight warns and clips. -/
theorem checked_warn {S : Type} {thr zthr : ℝ} {d : RoundStep n S} {t : SumTree (Fin n)} {w v : Fin n → ℝ} {x : Fin n → S}
    (h0 : ¬ ∀ i, 0 ≤ (hypRound rnd radd d.order w fun i => d.like (x i)).1 i)
    (hv : (fun i => min (max ((hypRound rnd radd d.order w fun i => d.like (x i)).1 i) 0) 1) = v) (hz : zthr < t.sum radd v)
    {r : (Fin n → ℝ) × (Fin n → S)} (hr : maybeResampleRound rnd radd thr d v x = .ok r) :
    checkedStepRound rnd radd thr zthr d t w x = .ok (r, 1) := by
  simp only [checkedStepRound]
  rw [if_neg h0, if_neg h0, hv, if_neg (not_le.2 hz), hr]

/-- New weights add up to nearly one, also in rounded additions. -/
theorem total_round (h : Spec.Relative u rnd radd) {c : ℝ} (hc : c = 1 / (1 - u)) {D : ℕ} {t : SumTree (Fin n)}
    (ht : t.leaves.Perm (List.finRange n)) (hD : t.depth ≤ D) {v : Fin n → ℝ} (hv : ∀ i, 0 ≤ v i)
    (hs : Spec.Near (c ^ (D + 1)) 1 (∑ i, v i)) : Spec.Near (c ^ (2 * D + 1)) 1 (t.sum radd v) := by
  have hc1 : 1 ≤ c := hc ▸ rel_one_le h
  have hc0 : 0 < c := by linarith
  obtain ⟨h1, h2⟩ := sumTree_near hc1 (by rw [hc]; exact near_add h) v hv t
  rw [leaves_sum t ht] at h2
  have h3 := hs.trans h2 (by positivity) (by positivity)
  rw [← pow_add] at h3
  exact h3.mono (pow_le_pow_right₀ hc1 (by omega)) zero_le_one h1

theorem clear_checked (h : Spec.Relative u rnd radd) {c : ℝ} (hc : c = 1 / (1 - u)) {S : Type} {D : ℕ} {thr zthr : ℝ}
    (hthr : 0 ≤ thr) (hz : zthr * c ^ (2 * D + 1) < 1) {k k' : ℕ} {ds : List (RoundStep n S)} {W W' : Fin n → ℝ}
    {x x' : Fin n → S} (hrun : Spec.Clear c D thr k ds W x k' W' x') (ts : List (SumTree (Fin n)))
    (hlen : ts.length = ds.length) (hd : ∀ d ∈ ds, Spec.Orders D d)
    (ht : ∀ t ∈ ts, t.leaves.Perm (List.finRange n) ∧ t.depth ≤ D) (w : Fin n → ℝ) (Z : ℝ) (hw : Spec.Tracks c D k Z W w) :
    ∃ w', runRound rnd radd thr ds w x = .ok (w', x') ∧
      checkedRunRound rnd radd thr zthr (ds.zip ts) w x = .ok ((w', x'), 0) := by
  have hc1 : 1 ≤ c := hc ▸ rel_one_le h
  have hc0 : 0 < c := by linarith
  have pass : ∀ {k : ℕ} {d : RoundStep n S} {t : SumTree (Fin n)} {W w : Fin n → ℝ} {x : Fin n → S} {Z : ℝ},
      Spec.Orders D d → t.leaves.Perm (List.finRange n) ∧ t.depth ≤ D → Spec.Tracks c D k Z W w →
      (∀ i, 0 ≤ d.like (x i)) → c ^ (4 * k + 2 * D + 2) / 2 ^ 52 ≤ ∑ i, W i * d.like (x i) →
      (∀ i, 0 ≤ (hypRound rnd radd d.order w fun i => d.like (x i)).1 i) ∧
      zthr < t.sum radd (hypRound rnd radd d.order w fun i => d.like (x i)).1 := by
    intro k d t W w x Z ho ht hw hL hguard
    obtain ⟨⟨Z1, hZ1, hp1, -⟩, -, -, hs1⟩ := update_near h hc d.order (ho _ (by simp)).1 (ho _ (by simp)).2 hw.pos hw.nonneg
      hw.sum hw.near hw.total hL hguard
    have h0 : ∀ i, 0 ≤ (hypRound rnd radd d.order w fun i => d.like (x i)).1 i := fun i =>
      near_nonneg (pow_pos hc0 _) (mul_nonneg hZ1.le (bayesStep_nonneg hw.nonneg hL i)) (hp1 i)
    refine ⟨h0, ?_⟩
    have := (total_round h hc ht.1 ht.2 h0 hs1).2
    have hp : 0 < c ^ (2 * D + 1) := pow_pos hc0 _
    rw [mul_comm] at hz
    exact lt_of_mul_lt_mul_left (lt_of_lt_of_le hz this) hp.le
  induction hrun generalizing w Z ts with
  | nil k W x => exact ⟨w, rfl, by simp [checkedRunRound]⟩
  | @keep k k' d ds W W' x x' hL hguard hess hrest ih =>
    obtain ⟨t, ts, rfl⟩ : ∃ t ts', ts = t :: ts' := by
      cases ts with
      | nil => simp at hlen
      | cons t ts => exact ⟨t, ts, rfl⟩
    obtain ⟨w1, Z1, h1, h2, -, -⟩ := keep_step h hc hthr (hd d List.mem_cons_self) hw hL hguard hess
    obtain ⟨p1, p2⟩ := pass (hd d List.mem_cons_self) (ht t List.mem_cons_self) hw hL hguard
    obtain ⟨w', h3, h4⟩ := ih ts (by simpa using hlen) (fun d' hd' => hd d' (List.mem_cons_of_mem _ hd'))
      (fun t' ht' => ht t' (List.mem_cons_of_mem _ ht')) w1 Z1 h2
    refine ⟨w', ?_, ?_⟩
    · rw [runRound, h1]
      exact h3
    · simp only [List.zip_cons_cons, checkedRunRound]
      rw [checked_step p1 p2 h1]
      simp only [h4]
  | @copy k k' d ds W W' x x' par hL hguard hess hlow hhigh hrest ih =>
    obtain ⟨t, ts, rfl⟩ : ∃ t ts', ts = t :: ts' := by
      cases ts with
      | nil => simp at hlen
      | cons t ts => exact ⟨t, ts, rfl⟩
    obtain ⟨w1, Z1, -, h1, h2, -⟩ := copy_step h hc hthr (hd d List.mem_cons_self) hw par hL hguard hess hlow hhigh
    obtain ⟨p1, p2⟩ := pass (hd d List.mem_cons_self) (ht t List.mem_cons_self) hw hL hguard
    obtain ⟨w', h3, h4⟩ := ih ts (by simpa using hlen) (fun d' hd' => hd d' (List.mem_cons_of_mem _ hd'))
      (fun t' ht' => ht t' (List.mem_cons_of_mem _ ht')) w1 Z1 h2
    refine ⟨w', ?_, ?_⟩
    · rw [runRound, h1]
      exact h3
    · simp only [List.zip_cons_cons, checkedRunRound]
      rw [checked_step p1 p2 h1]
      simp only [h4]

/-! ## Theorems -/

/-- **C156, the checks pass.**  In a clear run no update warns of negative weights or raises for vanishing ones, as long
as `zero_weight_thresh` is below `(1 - u)^(2 D + 1)`: with its checks, `update` does what `runRound` does. -/
theorem C156_checks (h : Spec.Relative u rnd radd) {S : Type} {D : ℕ} {thr zthr : ℝ} (hthr : 0 ≤ thr)
    (hz : zthr < (1 - u) ^ (2 * D + 1)) (hn : 0 < n) {k : ℕ} {ds : List (RoundStep n S)} {ts : List (SumTree (Fin n))}
    (hlen : ts.length = ds.length) {W : Fin n → ℝ} {x x' : Fin n → S}
    (hd : ∀ d ∈ ds, ∀ t ∈ [d.order, d.orderEss, d.orderNew], t.leaves.Perm (List.finRange n) ∧ t.depth ≤ D)
    (ht : ∀ t ∈ ts, t.leaves.Perm (List.finRange n) ∧ t.depth ≤ D)
    (hrun : Spec.Clear (1 / (1 - u)) D thr 0 ds (fun _ => 1 / n) x k W x') :
    ∃ w, runRound rnd radd thr ds (fun _ => rnd (1 / n)) x = .ok (w, x') ∧
      checkedRunRound rnd radd thr zthr (ds.zip ts) (fun _ => rnd (1 / n)) x = .ok ((w, x'), 0) := by
  have hu : 0 < 1 - u := by linarith [h.small]
  refine clear_checked h rfl hthr ?_ hrun ts hlen hd ht _ _ (start_tracks h rfl hn D).1
  rw [div_pow, one_pow, mul_one_div, div_lt_one (pow_pos hu _)]
  exact hz

/-- **C156, the check fires.**  If the outcome has a probability of less than `2⁻⁵²` for the particles, up to the factor of
the rounding, and `zero_weight_thresh` is at least `2⁻⁵²` times `1 / (1 - u)` (the default is ten times `2⁻⁵²`), `update` raises
`RuntimeError` in rounded arithmetic, whatever the orders of the additions. -/
theorem C156_unlikely (h : Spec.Relative u rnd radd) {S : Type} {D : ℕ} {thr zthr : ℝ}
    (hz : 1 / (1 - u) / 2 ^ 52 ≤ zthr) (d : RoundStep n S) (t : SumTree (Fin n))
    (hd : ∀ s ∈ [d.order, t], s.leaves.Perm (List.finRange n) ∧ s.depth ≤ D) (w : Fin n → ℝ) (hw : ∀ i, 0 ≤ w i)
    (x : Fin n → S) (hL : ∀ i, 0 ≤ d.like (x i))
    (hsmall : (1 / (1 - u)) ^ (D + 1) * ∑ i, w i * d.like (x i) < 1 / 2 ^ 52) :
    checkedStepRound rnd radd thr zthr d t w x = .error .runtimeError := by
  obtain ⟨c, hc⟩ : ∃ c, c = 1 / (1 - u) := ⟨_, rfl⟩
  rw [← hc] at hz hsmall
  have hc1 : 1 ≤ c := hc ▸ rel_one_le h
  have hc0 : 0 < c := by linarith
  have hadd : ∀ x y, 0 ≤ x → 0 ≤ y → Spec.Near c (x + y) (radd x y) := by rw [hc]; exact near_add h
  have hrnd : ∀ y, 0 ≤ y → Spec.Near c y (rnd y) := fun y hy => by rw [hc]; exact near_rnd h hy
  obtain ⟨P, hP⟩ : ∃ P, P = ∑ i, w i * d.like (x i) := ⟨_, rfl⟩
  rw [← hP] at hsmall
  have hP0 : 0 ≤ P := hP ▸ Finset.sum_nonneg fun i _ => mul_nonneg (hw i) (hL i)
  obtain ⟨g, hg⟩ : ∃ g : Fin n → ℝ, g = fun i => rnd (w i * d.like (x i)) := ⟨_, rfl⟩
  have hgi : ∀ i, g i = rnd (w i * d.like (x i)) := fun i => by rw [hg]
  have hg0 : ∀ i, 0 ≤ g i := fun i => by
    rw [hgi]; exact near_nonneg hc0 (mul_nonneg (hw i) (hL i)) (hrnd _ (mul_nonneg (hw i) (hL i)))
  have hgs : ∑ i, g i ≤ c * P := by
    rw [hP, Finset.mul_sum]
    exact Finset.sum_le_sum fun i _ => by rw [hgi]; exact (hrnd _ (mul_nonneg (hw i) (hL i))).1
  -- rounded sums of few terms are small
  have hsum : ∀ (s : SumTree (Fin n)) (f : Fin n → ℝ), s.leaves.Perm (List.finRange n) ∧ s.depth ≤ D → (∀ i, 0 ≤ f i) →
      0 ≤ s.sum radd f ∧ s.sum radd f ≤ c ^ D * ∑ i, f i := by
    intro s f hs hf
    obtain ⟨h1, h2⟩ := sumTree_near hc1 hadd f hf s
    rw [leaves_sum s hs.1] at h2
    exact ⟨h1, h2.1.trans (mul_le_mul_of_nonneg_right (pow_le_pow_right₀ hc1 hs.2) (Finset.sum_nonneg fun i _ => hf i))⟩
  obtain ⟨hn0, hn1⟩ := hsum d.order g (hd _ (by simp)) hg0
  have hnorm : |d.order.sum radd g| < 1 / 2 ^ 52 := by
    rw [abs_of_nonneg hn0]
    refine lt_of_le_of_lt (hn1.trans (mul_le_mul_of_nonneg_left hgs (by positivity))) ?_
    rwa [← mul_assoc, ← pow_succ]
  obtain ⟨v, hv⟩ : ∃ v : Fin n → ℝ, v = fun i => rnd (g i) := ⟨_, rfl⟩
  have hvi : ∀ i, v i = rnd (g i) := fun i => by rw [hv]
  have hv0 : ∀ i, 0 ≤ v i := fun i => by rw [hvi]; exact near_nonneg hc0 (hg0 i) (hrnd _ (hg0 i))
  have hvs : ∑ i, v i ≤ c * (c * P) := by
    refine le_trans ?_ (mul_le_mul_of_nonneg_left hgs hc0.le)
    rw [Finset.mul_sum]
    exact Finset.sum_le_sum fun i _ => by rw [hvi]; exact (hrnd _ (hg0 i)).1
  have hhyp : (hypRound rnd radd d.order w fun i => d.like (x i)).1 = v := by
    funext i
    simp only [hypRound, ← hg]
    rw [if_pos hnorm, div_one, hvi, hgi]
  have hle : t.sum radd v ≤ zthr := by
    refine ((hsum t v (hd _ (by simp)) hv0).2.trans (mul_le_mul_of_nonneg_left hvs (by positivity))).trans ?_
    refine le_trans ?_ hz
    rw [show c ^ D * (c * (c * P)) = c * (c ^ (D + 1) * P) by ring, div_eq_mul_one_div]
    exact mul_le_mul_of_nonneg_left hsmall.le hc0.le
  simp only [checkedStepRound]
  rw [hhyp, if_pos hv0, if_pos hle]

/-- **C156, no negative weights.**  Whatever weights and likelihoods `update` meets, negative ones included, the weights
it leaves are not negative, and it warns exactly if one of the new weights was negative before the repair. -/
theorem C156_repaired (h : Spec.Relative u rnd radd) {S : Type} {thr zthr : ℝ} (d : RoundStep n S) (t : SumTree (Fin n))
    (w : Fin n → ℝ) (x : Fin n → S) {w' : Fin n → ℝ} {x' : Fin n → S} {m : ℕ}
    (hr : checkedStepRound rnd radd thr zthr d t w x = .ok ((w', x'), m)) :
    (∀ i, 0 ≤ w' i) ∧ m ≤ 1 ∧
      (m = 1 ↔ ∃ i, (hypRound rnd radd d.order w fun i => d.like (x i)).1 i < 0) := by
  have hc1 : (1 : ℝ) ≤ 1 / (1 - u) := rel_one_le h
  have hc0 : (0 : ℝ) < 1 / (1 - u) := by linarith
  have hrnd : ∀ y, 0 ≤ y → 0 ≤ rnd y := fun y hy => near_nonneg hc0 hy (near_rnd h hy)
  simp only [checkedStepRound] at hr
  generalize (hypRound rnd radd d.order w fun i => d.like (x i)).1 = v at hr ⊢
  obtain ⟨v', hv', h0⟩ : ∃ v' : Fin n → ℝ, v' = (if ∀ i, 0 ≤ v i then v else fun i => min (max (v i) 0) 1) ∧
      ∀ i, 0 ≤ v' i := by
    refine ⟨_, rfl, fun i => ?_⟩
    split_ifs with hv
    · exact hv i
    · exact le_min (le_max_right _ _) zero_le_one
  rw [← hv'] at hr
  split_ifs at hr with _ hv
  all_goals
    cases hm : maybeResampleRound rnd radd thr d v' x with
    | error e => rw [hm] at hr; simp at hr
    | ok r =>
      rw [hm] at hr
      simp only [Except.ok.injEq, Prod.mk.injEq] at hr
      obtain ⟨rfl, rfl⟩ := hr
      refine ⟨?_, by omega, ?_⟩
      · simp only [maybeResampleRound] at hm
        split_ifs at hm
        · cases hp : lwParentsRound radd (List.ofFn v') (List.ofFn x) id (List.ofFn d.variates) with
          | error e => rw [hp] at hm; simp at hm
          | ok q =>
            rw [hp] at hm
            simp only [Except.ok.injEq, Prod.mk.injEq] at hm
            intro i
            rw [← hm.1]
            have hq : 0 ≤ rnd (1 / n) := hrnd _ (by positivity)
            exact hrnd _ (div_nonneg hq (sumTree_near hc1 (near_add h) _ (fun _ => hq) _).1)
        · simp only [Except.ok.injEq, Prod.mk.injEq] at hm
          rw [← hm.1]
          exact h0
      · first
          | exact ⟨fun h => absurd h (by decide), fun ⟨i, hi⟩ => absurd (hv i) (not_le.2 hi)⟩
          | exact ⟨fun _ => by push Not at hv; exact hv, fun _ => rfl⟩

/-- **C156, warnings.**  Runs may be cut anywhere: the second part starts where the first ends, the warnings of both add up, and
a part that raises ends the run.  A run of one datum is one update. -/
theorem C156_parts {S : Type} {thr zthr : ℝ} (a b : List (RoundStep n S × SumTree (Fin n))) (w : Fin n → ℝ) (x : Fin n → S) :
    (∀ e, checkedRunRound rnd radd thr zthr a w x = .error e → checkedRunRound rnd radd thr zthr (a ++ b) w x = .error e) ∧
    (∀ w' x' m, checkedRunRound rnd radd thr zthr a w x = .ok ((w', x'), m) →
      (∀ r k, checkedRunRound rnd radd thr zthr b w' x' = .ok (r, k) →
        checkedRunRound rnd radd thr zthr (a ++ b) w x = .ok (r, m + k)) ∧
      ∀ e, checkedRunRound rnd radd thr zthr b w' x' = .error e →
        checkedRunRound rnd radd thr zthr (a ++ b) w x = .error e) ∧
    ∀ d t, checkedRunRound rnd radd thr zthr [(d, t)] w x = checkedStepRound rnd radd thr zthr d t w x := by
  refine ⟨?_, ?_, fun d t => ?_⟩
  · induction a generalizing w x with
    | nil => intro e he; simp [checkedRunRound] at he
    | cons s a ih =>
      obtain ⟨d, t⟩ := s
      intro e he
      simp only [List.cons_append, checkedRunRound] at he ⊢
      rcases hs : checkedStepRound rnd radd thr zthr d t w x with e1 | ⟨⟨w1, x1⟩, m1⟩
      · rw [hs] at he
        exact he
      · rw [hs] at he
        simp only at he ⊢
        rcases hr : checkedRunRound rnd radd thr zthr a w1 x1 with e2 | ⟨r, m2⟩
        · rw [hr] at he
          rw [ih w1 x1 e2 hr]
          exact he
        · rw [hr] at he
          simp at he
  · induction a generalizing w x with
    | nil =>
      intro w' x' m h
      simp only [checkedRunRound, Except.ok.injEq, Prod.mk.injEq] at h
      obtain ⟨⟨rfl, rfl⟩, rfl⟩ := h
      exact ⟨fun r k hk => by rw [List.nil_append, hk, zero_add], fun e he => by rw [List.nil_append, he]⟩
    | cons s a ih =>
      obtain ⟨d, t⟩ := s
      intro w' x' m h
      simp only [List.cons_append, checkedRunRound] at h ⊢
      rcases hs : checkedStepRound rnd radd thr zthr d t w x with e1 | ⟨⟨w1, x1⟩, m1⟩
      · rw [hs] at h
        simp at h
      · rw [hs] at h
        simp only at h ⊢
        rcases hr : checkedRunRound rnd radd thr zthr a w1 x1 with e2 | ⟨r2, m2⟩
        · rw [hr] at h
          simp at h
        · rw [hr] at h
          simp only [Except.ok.injEq, Prod.mk.injEq] at h
          obtain ⟨rfl, rfl⟩ := h
          obtain ⟨h1, h2⟩ := ih w1 x1 w' x' m2 hr
          exact ⟨fun r k hk => by rw [h1 r k hk, add_assoc], fun e he => by rw [h2 e he]⟩
  · simp only [checkedRunRound]
    rcases checkedStepRound rnd radd thr zthr d t w x with e1 | ⟨⟨w1, x1⟩, m1⟩ <;> rfl

/-- Case: the run of C156 in binary64 with the default `zero_weight_thresh` passes. -/
example : ∃ w x', checkedRunRound (Spec.nearest 53) (fun a b => Spec.nearest 53 (a + b)) (3 / 4) (10 / 2 ^ 52)
    ([pairStep ![0, 0], pairStep ![1 / 2, 1 / 20], pairStep ![0, 0]].zip
      (List.replicate 3 (.node (.leaf 1) (.leaf 0)))) (fun _ => Spec.nearest 53 (1 / (2 : ℕ))) ![1 / 4, 3 / 4] =
      .ok ((w, x'), 0) := by
  obtain ⟨w, -, h⟩ := C156_checks (C154_nearest 53 (by norm_num)) (zthr := 10 / 2 ^ 52) (by norm_num) (D := 1) (by norm_num)
    (by norm_num) (ts := List.replicate 3 (.node (.leaf 1) (.leaf 0))) rfl (by
      intro d hd t ht
      simp only [List.mem_cons, List.not_mem_nil, or_false] at hd
      rcases hd with rfl | rfl | rfl <;> simp only [pairStep, List.mem_cons, List.not_mem_nil, or_false] at ht <;>
        rcases ht with rfl | rfl | rfl <;> exact ⟨by decide, by decide⟩)
    (by
      intro t ht
      obtain rfl := List.eq_of_mem_replicate ht
      exact ⟨by decide, by decide⟩)
    (pair_clear (by norm_num) fun m h => margin_small h)
  exact ⟨w, _, h⟩

/-- Case: an outcome that neither particle allows raises in binary64. -/
example (v : Fin 2 → ℝ) : checkedStepRound (Spec.nearest 53) (fun a b => Spec.nearest 53 (a + b)) (1 / 2) (10 / 2 ^ 52)
    { pairStep v with like := fun _ => 0 } (.node (.leaf 0) (.leaf 1)) (fun _ => 1 / 2) ![1 / 4, 3 / 4] =
      .error .runtimeError :=
  C156_unlikely (C154_nearest 53 (by norm_num)) (D := 1) (by norm_num) _ _ (by
      intro t ht
      simp only [pairStep, List.mem_cons, List.not_mem_nil, or_false] at ht
      rcases ht with rfl | rfl <;> exact ⟨by decide, by decide⟩)
    _ (fun _ => by norm_num) _ (fun _ => le_rfl) (by norm_num)

/-- Case: a negative likelihood leads to a warning and clipped weights. -/
example (v : Fin 2 → ℝ) : checkedStepRound id (· + ·) 0 (10 / 2 ^ 52)
    { pairStep v with like := fun x => 8 * x - 3 } (.node (.leaf 0) (.leaf 1)) (fun _ => 1 / 2)
      ![1 / 4, 3 / 4] = .ok ((![0, 1], ![1 / 4, 3 / 4]), 1) := by
  have hv : (hypRound id (· + ·) (.node (.leaf 0) (.leaf 1)) (fun _ => 1 / 2)
      fun i => 8 * (![1 / 4, 3 / 4] : Fin 2 → ℝ) i - 3).1 = ![-1 / 2, 3 / 2] := by
    funext i
    fin_cases i <;> simp [hypRound, SumTree.sum] <;> norm_num
  refine checked_warn (v := ![0, 1]) ?_ ?_ (by norm_num [SumTree.sum]) ?_
  · simp only [pairStep]
    rw [hv]
    intro h
    have := h 0
    norm_num at this
  · simp only [pairStep]
    rw [hv]
    funext i
    fin_cases i <;> norm_num
  · rw [maybeResampleRound, if_neg (by norm_num [essRound, SumTree.sum, pairStep])]

end QInfer
