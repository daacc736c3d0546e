import Verif.Model.RoundTotal
import Verif.Props.RoundRun

/-!
# C158: the total likelihood in rounded arithmetic
-/

namespace QInfer

open scoped BigOperators

variable {n : ℕ} {u : ℝ} {rnd : ℝ → ℝ} {radd : ℝ → ℝ → ℝ}

/-! ## Helper lemmas -/

theorem near_swap {c x y : ℝ} (h : Spec.Near c x y) : Spec.Near c y x := ⟨h.2, h.1⟩

/-- The record of a run whose decisions are clear, in any arithmetic within the margin. -/
theorem clear_record {S : Type} {D : ℕ} {thr : ℝ} (hthr : 0 ≤ thr) {c : ℝ} (hc : 1 ≤ c) {k k' : ℕ}
    {ds : List (RoundStep n S)} {W W' : Fin n → ℝ} {x x' : Fin n → S} (hd : ∀ d ∈ ds, Spec.Orders D d)
    (hrun : Spec.Clear c D thr k ds W x k' W' x') (hW : ∀ i, 0 ≤ W i) :
    ∃ (L : List ℝ) (m : ℕ), (∀ y ∈ L, 0 < y) ∧ L.length = ds.length ∧
      ∀ {u : ℝ} {rnd : ℝ → ℝ} {radd : ℝ → ℝ → ℝ}, Spec.Relative u rnd radd → ∀ a, a = 1 / (1 - u) → a ≤ c →
        ∀ (w : Fin n → ℝ) (Z : ℝ), Spec.Tracks a D k Z W w →
          ∃ l, recordRound rnd radd thr ds w x = .ok (l, m) ∧
            List.Forall₂ (Spec.Near (a ^ (4 * (k + ds.length) + 2 * D + 2))) L l ∧
            Spec.Near (a ^ (2 * ds.length + m * (2 * D + 2) + 2 * k + D + 1)) (Z * L.prod) l.prod := by
  induction hrun with
  | nil k W x =>
    refine ⟨[], 0, by simp, rfl, fun {u rnd radd} h a ha _ w Z ht => ⟨[], rfl, .nil, ?_⟩⟩
    have ha1 : 1 ≤ a := ha ▸ rel_one_le h
    have := near_swap (prop_near ha1 ht.nonneg ht.sum ht.near ht.total).1
    simpa using this
  | @keep k k' d ds W W' x x' hL hguard hess hrest ih =>
    obtain ⟨L, m, hL0, hlen, key⟩ := ih (fun d' hd' => hd d' (List.mem_cons_of_mem _ hd')) (bayesStep_nonneg hW hL)
    have ho := hd d List.mem_cons_self
    have hN : 0 < ∑ i, W i * d.like (x i) := lt_of_lt_of_le (by positivity) hguard
    refine ⟨(∑ i, W i * d.like (x i)) :: L, m, ?_, by simp [hlen], fun {u rnd radd} h a ha hac w Z ht => ?_⟩
    · intro y hy
      rcases List.mem_cons.1 hy with rfl | hy
      · exact hN
      · exact hL0 y hy
    have ha1 : 1 ≤ a := ha ▸ rel_one_le h
    have ha0 : 0 < a := by linarith
    have hp : ∀ j, a ^ j ≤ c ^ j := fun j => pow_le_pow_left₀ ha0.le hac j
    have hguard' := le_trans (div_le_div_of_nonneg_right (hp (4 * k + 2 * D + 2)) (by positivity)) hguard
    obtain ⟨w1, Z1, h1, h2, h3, h4⟩ := keep_step h ha hthr ho ht hL hguard'
      (le_trans (mul_le_mul_of_nonneg_right (hp _) (by positivity)) hess)
    obtain ⟨-, hM, hMN, -⟩ := update_near h ha d.order (ho _ (by simp)).1 (ho _ (by simp)).2 ht.pos ht.nonneg ht.sum ht.near
      ht.total hL hguard'
    obtain ⟨l, h5, h6, h7⟩ := key h a ha hac w1 Z1 h2
    refine ⟨(hypRound rnd radd d.order w fun i => d.like (x i)).2 :: l, ?_, .cons ?_ ?_, ?_⟩
    · simp only [recordRound]
      rw [h1]
      simp only [h5]
      rw [if_neg (not_lt.2 h4), zero_add]
    · exact hMN.mono (pow_le_pow_right₀ ha1 (by simp only [List.length_cons]; omega)) hN.le hM.le
    · rw [show 4 * (k + (d :: ds).length) + 2 * D + 2 = 4 * (k + 1 + ds.length) + 2 * D + 2 by simp; ring]
      exact h6
    · have := near_scale hM.le h7
      rw [List.prod_cons, List.prod_cons, List.length_cons]
      rw [← mul_assoc, mul_comm _ Z1, h3, mul_assoc] at this
      rwa [show 2 * (ds.length + 1) + m * (2 * D + 2) + 2 * k + D + 1 =
        2 * ds.length + m * (2 * D + 2) + 2 * (k + 1) + D + 1 by ring]
  | @copy k k' d ds W W' x x' par hL hguard hess hlow hhigh hrest ih =>
    obtain ⟨L, m, hL0, hlen, key⟩ := ih (fun d' hd' => hd d' (List.mem_cons_of_mem _ hd')) (fun _ => by positivity)
    have ho := hd d List.mem_cons_self
    have hN : 0 < ∑ i, W i * d.like (x i) := lt_of_lt_of_le (by positivity) hguard
    refine ⟨(∑ i, W i * d.like (x i)) :: L, 1 + m, ?_, by simp [hlen], fun {u rnd radd} h a ha hac w Z ht => ?_⟩
    · intro y hy
      rcases List.mem_cons.1 hy with rfl | hy
      · exact hN
      · exact hL0 y hy
    have ha1 : 1 ≤ a := ha ▸ rel_one_le h
    have ha0 : 0 < a := by linarith
    have hp : ∀ j, a ^ j ≤ c ^ j := fun j => pow_le_pow_left₀ ha0.le hac j
    have hguard' := le_trans (div_le_div_of_nonneg_right (hp (4 * k + 2 * D + 2)) (by positivity)) hguard
    have hV := bayesStep_nonneg hW hL
    have h0 : ∀ i, 0 ≤ ∑ j with j < par i, Spec.bayesStep W (fun i => d.like (x i)) j :=
      fun i => Finset.sum_nonneg fun j _ => hV j
    have hv : ∀ i, 0 ≤ d.variates i := fun i => le_trans (mul_nonneg (pow_nonneg (by linarith) _) (h0 i)) (hlow i)
    have hE : 0 ≤ Spec.clearEss (Spec.bayesStep W fun i => d.like (x i)) :=
      one_div_nonneg.2 (Finset.sum_nonneg fun j _ => sq_nonneg _)
    obtain ⟨w1, Z0, Z1, h1, h2, h3, h4, h4'⟩ := copy_step h ha hthr ho ht par hL hguard'
      (lt_of_le_of_lt (mul_le_mul_of_nonneg_right (hp _) hE) hess)
      (fun i => le_trans (mul_le_mul_of_nonneg_right (hp _) (h0 i)) (hlow i))
      (fun i => lt_of_le_of_lt (mul_le_mul_of_nonneg_right (hp _) (hv i)) (hhigh i))
    obtain ⟨-, hM, hMN, -⟩ := update_near h ha d.order (ho _ (by simp)).1 (ho _ (by simp)).2 ht.pos ht.nonneg ht.sum ht.near
      ht.total hL hguard'
    obtain ⟨l, h5, h6, h7⟩ := key h a ha hac w1 Z0 h2
    have hP : 0 ≤ L.prod := (List.prod_pos hL0).le
    refine ⟨(hypRound rnd radd d.order w fun i => d.like (x i)).2 :: l, ?_, .cons ?_ ?_, ?_⟩
    · simp only [recordRound]
      rw [h1]
      simp only [h5]
      rw [if_pos h4']
    · exact hMN.mono (pow_le_pow_right₀ ha1 (by simp only [List.length_cons]; omega)) hN.le hM.le
    · refine List.Forall₂.imp ?_ ((List.forall₂_and_left _ _).2 ⟨hL0, h6⟩)
      rintro y z ⟨hy, hyz⟩
      exact hyz.mono (pow_le_pow_right₀ ha1 (by simp only [List.length_cons]; omega)) hy.le (near_nonneg (pow_pos ha0 _) hy.le hyz)
    · have e0 : Spec.Near (a ^ (D + 1)) L.prod (Z0 * L.prod) := by
        have := near_scale hP (prop_near ha1 h2.nonneg h2.sum h2.near h2.total).1
        rw [mul_one, mul_comm L.prod] at this
        simpa using this
      have e1 : Spec.Near (a ^ (2 * (k + 1) + D + 1)) (Z1 * L.prod) L.prod := by
        have := near_swap (near_scale hP h4)
        rwa [mul_one, mul_comm L.prod] at this
      have e2 := (e1.trans e0 (by positivity) (by positivity)).trans h7 (by positivity) (by positivity)
      rw [← pow_add, ← pow_add] at e2
      have := near_scale hM.le e2
      rw [List.prod_cons, List.prod_cons, List.length_cons]
      rw [← mul_assoc, mul_comm _ Z1, h3, mul_assoc] at this
      rwa [show 2 * (ds.length + 1) + (1 + m) * (2 * D + 2) + 2 * k + D + 1 = 2 * (k + 1) + D + 1 + (D + 1) +
        (2 * ds.length + m * (2 * D + 2) + 2 * 0 + D + 1) by ring]

theorem near_one_eq {x y : ℝ} (h : Spec.Near 1 x y) : x = y := by
  have h1 := h.1
  have h2 := h.2
  rw [one_mul] at h1 h2
  exact le_antisymm h2 h1

/-- Logarithms of near numbers. -/
theorem near_log {c x y : ℝ} {k : ℕ} (hc : 0 < c) (hx : 0 < x) (hy : 0 < y) (h : Spec.Near (c ^ k) x y) :
    |Real.log y - Real.log x| ≤ k * Real.log c := by
  have h1 := Real.log_le_log hy h.1
  have h2 := Real.log_le_log hx h.2
  rw [Real.log_mul (by positivity) (by positivity), Real.log_pow] at h1 h2
  rw [abs_le]
  constructor <;> linarith

theorem log_prod_list (l : List ℝ) (h : ∀ y ∈ l, 0 < y) : Real.log l.prod = (l.map Real.log).sum := by
  induction l with
  | nil => simp
  | cons a l ih =>
    have h1 := h a List.mem_cons_self
    have h2 : 0 < l.prod := List.prod_pos fun y hy => h y (List.mem_cons_of_mem _ hy)
    rw [List.prod_cons, Real.log_mul h1.ne' h2.ne', ih fun y hy => h y (List.mem_cons_of_mem _ hy)]
    simp

/-! ## Theorems -/

/-- **C158, the record.**  In a run whose decisions are clear, the rounded `normalization_record` has as many entries as
the exact one, `resample_count` is the same, each entry is right up to a factor, and the product of all entries is right
up to a factor whose exponent grows by two with each datum and by `2 D + 2` with each resampling. -/
theorem C158_record (h : Spec.Relative u rnd radd) {S : Type} {D : ℕ} {thr : ℝ} (hthr : 0 ≤ thr) (hn : 0 < n) {k : ℕ}
    {ds : List (RoundStep n S)} {W : Fin n → ℝ} {x x' : Fin n → S}
    (hd : ∀ d ∈ ds, ∀ t ∈ [d.order, d.orderEss, d.orderNew], t.leaves.Perm (List.finRange n) ∧ t.depth ≤ D)
    (hrun : Spec.Clear (1 / (1 - u)) D thr 0 ds (fun _ => 1 / n) x k W x') :
    ∃ L l m, recordRound id (· + ·) thr ds (fun _ => 1 / n) x = .ok (L, m) ∧
      recordRound rnd radd thr ds (fun _ => rnd (1 / n)) x = .ok (l, m) ∧
      L.length = ds.length ∧ l.length = ds.length ∧ (∀ y ∈ L, 0 < y) ∧ (∀ y ∈ l, 0 < y) ∧
      List.Forall₂ (Spec.Near ((1 / (1 - u)) ^ (4 * ds.length + 2 * D + 2))) L l ∧
      Spec.Near ((1 / (1 - u)) ^ (2 * ds.length + m * (2 * D + 2) + D + 2)) L.prod l.prod := by
  have hn0 : (0 : ℝ) < n := Nat.cast_pos.2 hn
  have hc1 := rel_one_le h
  have hc0 : 0 < 1 / (1 - u) := by linarith
  obtain ⟨L, m, hL0, hlen, key⟩ := clear_record hthr hc1 hd hrun fun _ => by positivity
  obtain ⟨s1, s2⟩ := start_tracks h rfl hn D
  obtain ⟨l, h1, h2, h3⟩ := key h _ rfl le_rfl _ _ s1
  obtain ⟨L', e1, e2, -⟩ := key relative_id 1 (by norm_num) hc1 _ _ (start_tracks relative_id (by norm_num) hn D).1
  have hLL : L = L' := by
    rw [← List.forall₂_eq_eq_eq]
    refine e2.imp fun y z hyz => ?_
    rw [one_pow] at hyz
    exact near_one_eq hyz
  subst hLL
  rw [zero_add] at h2
  have hP : 0 ≤ L.prod := (List.prod_pos hL0).le
  refine ⟨L, l, m, e1, h1, hlen, by rw [← h2.length_eq, hlen], hL0, ?_, h2, ?_⟩
  · intro y hy
    obtain ⟨i, hi, rfl⟩ := List.getElem_of_mem hy
    have hi' : i < L.length := by rw [h2.length_eq]; exact hi
    exact near_pos (pow_pos hc0 _) (hL0 _ (List.getElem_mem hi')) (h2.get hi' hi)
  · have e0 : Spec.Near (1 / (1 - u)) L.prod (n * rnd (1 / n) * L.prod) := by
      have := near_scale hP s2
      rwa [mul_one, mul_comm L.prod] at this
    have := e0.trans h3 hc0.le (by positivity)
    rw [← pow_succ'] at this
    rwa [show 2 * ds.length + m * (2 * D + 2) + 2 * 0 + D + 1 + 1 = 2 * ds.length + m * (2 * D + 2) + D + 2 by ring] at this

/-- **C158, the logarithm.**  `log_total_likelihood`, computed with logarithms of relative error `u`, differs from the
exact total log-likelihood by at most a number that grows linearly with the number of data. -/
theorem C158_log_total (h : Spec.Relative u rnd radd) {S : Type} {D : ℕ} {thr : ℝ} (hthr : 0 ≤ thr) (hn : 0 < n) {k : ℕ}
    {ds : List (RoundStep n S)} {W : Fin n → ℝ} {x x' : Fin n → S}
    (hd : ∀ d ∈ ds, ∀ t ∈ [d.order, d.orderEss, d.orderNew], t.leaves.Perm (List.finRange n) ∧ t.depth ≤ D)
    (hrun : Spec.Clear (1 / (1 - u)) D thr 0 ds (fun _ => 1 / n) x k W x') {rlog : ℝ → ℝ}
    (hlog : ∀ y, 0 < y → |rlog y - Real.log y| ≤ u * |Real.log y|) :
    ∃ L l m, recordRound id (· + ·) thr ds (fun _ => 1 / n) x = .ok (L, m) ∧
      recordRound rnd radd thr ds (fun _ => rnd (1 / n)) x = .ok (l, m) ∧
      ∀ t : SumTree (Fin l.length), t.leaves.Perm (List.finRange l.length) →
        |logTotalRound rlog radd l t - (L.map Real.log).sum| ≤
          (2 * ds.length + m * (2 * D + 2) + D + 2) * Real.log (1 / (1 - u)) +
            ((1 + u) ^ (t.depth + 1) - 1) * (l.map fun y => |Real.log y|).sum := by
  obtain ⟨L, l, m, e1, e2, -, -, hL0, hl0, -, hP⟩ := C158_record h hthr hn hd hrun
  refine ⟨L, l, m, e1, e2, fun t ht => ?_⟩
  have hc0 : 0 < 1 / (1 - u) := by linarith [rel_one_le h]
  have h1 := near_log hc0 (List.prod_pos hL0) (List.prod_pos hl0) hP
  rw [log_prod_list L hL0, log_prod_list l hl0] at h1
  have h2 := off_tree h 1 (fun i : Fin l.length => Real.log l[i]) (fun i => rlog l[i]) (fun i => by
    rw [pow_one, add_sub_cancel_left]; exact hlog _ (hl0 _ (List.getElem_mem _))) t
  rw [leaves_sum t ht, leaves_sum t ht, add_comm 1 t.depth] at h2
  have e3 : ∑ i : Fin l.length, Real.log l[i] = (l.map Real.log).sum := by
    rw [← List.sum_ofFn]
    congr 1
    apply List.ext_getElem <;> simp
  have e4 : ∑ i : Fin l.length, |Real.log l[i]| = (l.map fun y => |Real.log y|).sum := by
    rw [← List.sum_ofFn]
    congr 1
    apply List.ext_getElem <;> simp
  rw [e3, e4] at h2
  have h3 := abs_sub_le (logTotalRound rlog radd l t) (l.map Real.log).sum (L.map Real.log).sum
  push_cast at h1
  unfold logTotalRound at h3 ⊢
  linarith

/-- **C158, the exact run is the model's run.**  An updater of the model that resamples by copies and whose locations do
not move ends, after any data, with the weights and locations of `runRound` and the record and count of `recordRound`
without rounding, in any order of the additions.  The variates of the `k`-th call are the first unused row of the stock:
one row is used up by each resampling. -/
theorem C158_feed {O E : Type} {cfg : SmcConfig ℝ} {env : Env ℝ O E (List (List ℝ))} {p : LwSetup}
    (h : Spec.Boot cfg env p fun _ x => x) (t : SumTree (Fin n)) (ht : t.leaves.Perm (List.finRange n)) (data : List (O × E))
    (hL : ∀ d ∈ data, ∀ x, eps ≤ env.likelihood d.1 x d.2) (w : Fin n → ℝ) (hw : ∀ i, 0 ≤ w i) (hs : ∑ i, w i = 1)
    (x : Fin n → List ℝ) (s : Smc ℝ O (List (List ℝ))) (hsw : s.weights = List.ofFn w) (hsl : s.locs = List.ofFn x)
    {m : ℕ} (hm : data.length ≤ m) (v : Fin m → Fin n → Spec.Unit01) (hsv : s.seed = Spec.stock v) :
    ∃ (rs : List (RoundStep n (List ℝ))) (w' : Fin n → ℝ) (x' : Fin n → List ℝ) (l : List ℝ) (c : ℕ),
      rs.map RoundStep.like = data.map (fun d x => env.likelihood d.1 x d.2) ∧
      (∀ r ∈ rs, r.order = t ∧ r.orderEss = t ∧ r.orderNew = t) ∧
      (∀ k l' c' r, recordRound id (· + ·) cfg.resampleThresh (rs.take k) w x = .ok (l', c') → rs[k]? = some r →
        ∃ hc : c' < m, r.variates = fun i => (v ⟨c', hc⟩ i : ℝ)) ∧
      runRound id (· + ·) cfg.resampleThresh rs w x = .ok (w', x') ∧
      recordRound id (· + ·) cfg.resampleThresh rs w x = .ok (l, c) ∧
      (feed cfg env true data s).2 = .ok () ∧
      (feed cfg env true data s).1.weights = List.ofFn w' ∧ (feed cfg env true data s).1.locs = List.ofFn x' ∧
      (feed cfg env true data s).1.normRecord = s.normRecord ++ l ∧
      (feed cfg env true data s).1.resampleCount = s.resampleCount + c := by
  induction data generalizing m w x s with
  | nil => exact ⟨[], w, x, [], 0, rfl, by simp, by simp, rfl, rfl, rfl, hsw, hsl, by simp [feed], rfl⟩
  | cons d data ih =>
    simp only [List.length_cons] at hm
    obtain ⟨m, rfl⟩ : ∃ m', m = m' + 1 := ⟨m - 1, by omega⟩
    obtain ⟨r0, hr0⟩ : ∃ r0 : RoundStep n (List ℝ), r0 = ⟨t, t, t, fun x => env.likelihood d.1 x d.2, fun i => (v 0 i : ℝ)⟩ :=
      ⟨_, rfl⟩
    obtain ⟨t1, w1, x1, h1, h2, h3, h4, h5, h6, h7, h8⟩ := exact_step h d.1 d.2 (hL d List.mem_cons_self) r0
      (by rw [hr0]; simp [ht]) (by rw [hr0]) w hw hs x s hsw hsl v hsv (by rw [hr0])
    have hfeed : feed cfg env true (d :: data) s = feed cfg env true data t1 := by simp [feed, h1]
    rw [hfeed]
    have hL' : ∀ d ∈ data, ∀ x, eps ≤ env.likelihood d.1 x d.2 := fun d hd => hL d (List.mem_cons_of_mem _ hd)
    have hords : r0.order = t ∧ r0.orderEss = t ∧ r0.orderNew = t := by rw [hr0]; exact ⟨rfl, rfl, rfl⟩
    have hv0 : r0.variates = fun i => (v 0 i : ℝ) := by rw [hr0]
    have hl0 : r0.like = fun x => env.likelihood d.1 x d.2 := by rw [hr0]
    clear hr0
    obtain ⟨one, m', v', hone, hrow, hm', hseed, hcount⟩ : ∃ (one m' : ℕ) (v' : Fin m' → Fin n → Spec.Unit01),
        (if essRound id (· + ·) r0.orderEss (hypRound id (· + ·) r0.order w fun i => r0.like (x i)).1 <
          id (n * cfg.resampleThresh) then 1 else 0) = one ∧
        (∀ c' (hc : c' < m'), ∃ hc' : one + c' < m + 1, v' ⟨c', hc⟩ = v ⟨one + c', hc'⟩) ∧
        data.length ≤ m' ∧ t1.seed = Spec.stock v' ∧ t1.resampleCount = s.resampleCount + one := by
      rcases h8 with ⟨c1, c2, c3⟩ | ⟨c1, c2, c3⟩
      · refine ⟨1, m, Fin.tail v, if_pos c1, fun c' hc => ⟨by omega, ?_⟩, by omega, c2, c3⟩
        simp only [Fin.tail]
        congr 1
        apply Fin.ext
        simp [add_comm]
      · refine ⟨0, m + 1, v, if_neg c1, fun c' hc => ⟨by omega, ?_⟩, by omega, c2, c3⟩
        congr 1
        apply Fin.ext
        simp
    obtain ⟨rs, w', x', l, c, g1, g2, g3, g4, g5, g6, g7, g8, g9, g10⟩ := ih hL' w1 h5 h6 x1 t1 h3 h4 hm' v' hseed
    refine ⟨r0 :: rs, w', x', (hypRound id (· + ·) r0.order w fun i => r0.like (x i)).2 :: l, one + c, ?_, ?_, ?_, ?_, ?_, g6,
      g7, g8, ?_, ?_⟩
    · rw [List.map_cons, List.map_cons, g1, hl0]
    · intro r hr
      rcases List.mem_cons.1 hr with rfl | hr
      · exact hords
      · exact g2 r hr
    · intro k l' c' r hrec hk
      cases k with
      | zero =>
        simp only [List.take_zero, recordRound, Except.ok.injEq, Prod.mk.injEq] at hrec
        rw [List.getElem?_cons_zero, Option.some.injEq] at hk
        obtain ⟨-, rfl⟩ := hrec
        exact ⟨Nat.succ_pos m, by rw [← hk]; exact hv0⟩
      | succ k =>
        rw [List.getElem?_cons_succ] at hk
        simp only [List.take_succ_cons, recordRound, h2] at hrec
        rcases hr : recordRound id (· + ·) cfg.resampleThresh (rs.take k) w1 x1 with err | ⟨l2, c2⟩
        · rw [hr] at hrec; simp at hrec
        · rw [hr] at hrec
          simp only [Except.ok.injEq, Prod.mk.injEq] at hrec
          rw [hone] at hrec
          obtain ⟨hc, hvar⟩ := g3 k l2 c2 r hr hk
          obtain ⟨hc', hrow'⟩ := hrow c2 hc
          obtain ⟨-, rfl⟩ := hrec
          exact ⟨hc', by rw [hvar, hrow']⟩
    · simp only [runRound, h2]
      exact g4
    · simp only [recordRound, h2, g5]
      rw [hone]
    · rw [g9, h7, List.append_assoc]; rfl
    · rw [g10, hcount]; ring

/-- Case for C158: the two particles of C156, three data and one resampling in binary64. -/
example : ∃ L l m, recordRound id (· + ·) (3 / 4) [pairStep ![0, 0], pairStep ![1 / 2, 1 / 20], pairStep ![0, 0]]
      (fun _ => 1 / (2 : ℕ)) ![1 / 4, 3 / 4] = .ok (L, m) ∧
    recordRound (Spec.nearest 53) (fun a b => Spec.nearest 53 (a + b)) (3 / 4)
      [pairStep ![0, 0], pairStep ![1 / 2, 1 / 20], pairStep ![0, 0]] (fun _ => Spec.nearest 53 (1 / (2 : ℕ)))
        ![1 / 4, 3 / 4] = .ok (l, m) ∧ L.length = 3 ∧ l.length = 3 ∧
    Spec.Near ((1 / (1 - 1 / 2 ^ 53)) ^ (2 * 3 + m * (2 * 1 + 2) + 1 + 2)) L.prod l.prod := by
  obtain ⟨L, l, m, h1, h2, h3, h4, -, -, -, h5⟩ := C158_record (C154_nearest 53 (by norm_num)) (by norm_num) (by norm_num)
    (D := 1) (by
      intro d hd t ht
      simp only [List.mem_cons, List.not_mem_nil, or_false] at hd
      rcases hd with rfl | rfl | rfl <;> simp only [pairStep, List.mem_cons, List.not_mem_nil, or_false] at ht <;>
        rcases ht with rfl | rfl | rfl <;> exact ⟨by decide, by decide⟩)
    (pair_clear (by norm_num) fun m h => margin_small h)
  exact ⟨L, l, m, h1, h2, h3, h4, h5⟩

/-- Case for the logarithm: the logarithm rounded to binary64. -/
example : ∃ L l m, recordRound id (· + ·) (3 / 4) [pairStep ![0, 0], pairStep ![1 / 2, 1 / 20], pairStep ![0, 0]]
      (fun _ => 1 / (2 : ℕ)) ![1 / 4, 3 / 4] = .ok (L, m) ∧
    recordRound (Spec.nearest 53) (fun a b => Spec.nearest 53 (a + b)) (3 / 4)
      [pairStep ![0, 0], pairStep ![1 / 2, 1 / 20], pairStep ![0, 0]] (fun _ => Spec.nearest 53 (1 / (2 : ℕ)))
        ![1 / 4, 3 / 4] = .ok (l, m) ∧
    ∀ t : SumTree (Fin l.length), t.leaves.Perm (List.finRange l.length) →
      |logTotalRound (fun y => Spec.nearest 53 (Real.log y)) (fun a b => Spec.nearest 53 (a + b)) l t -
          (L.map Real.log).sum| ≤
        (2 * (3 : ℕ) + m * (2 * (1 : ℕ) + 2) + (1 : ℕ) + 2) * Real.log (1 / (1 - 1 / 2 ^ 53)) +
          ((1 + 1 / 2 ^ 53) ^ (t.depth + 1) - 1) * (l.map fun y => |Real.log y|).sum :=
  C158_log_total (C154_nearest 53 (by norm_num)) (by norm_num) (by norm_num)
    (D := 1) (by
      intro d hd t ht
      simp only [List.mem_cons, List.not_mem_nil, or_false] at hd
      rcases hd with rfl | rfl | rfl <;> simp only [pairStep, List.mem_cons, List.not_mem_nil, or_false] at ht <;>
        rcases ht with rfl | rfl | rfl <;> exact ⟨by decide, by decide⟩)
    (pair_clear (by norm_num) fun m h => margin_small h) fun y _ => (C154_nearest 53 (by norm_num)).rnd _

/-- Case for the exact run: two phases and three data. -/
example (v : Fin 3 → Fin 2 → Spec.Unit01) :
    ∃ (rs : List (RoundStep 2 (List ℝ))) (w' : Fin 2 → ℝ) (x' : Fin 2 → List ℝ) (l : List ℝ) (c : ℕ), rs.length = 3 ∧
      runRound id (· + ·) 1 rs (fun _ => 1 / 2) (fun i => [(2 * i.val - 1 : ℝ) * (Real.pi / 2)]) = .ok (w', x') ∧
      recordRound id (· + ·) 1 rs (fun _ => 1 / 2) (fun i => [(2 * i.val - 1 : ℝ) * (Real.pi / 2)]) = .ok (l, c) ∧
      (feed copyCfg stillEnv true [(true, 1), (false, 1), (true, 1)] (copyStart v)).1.weights = List.ofFn w' ∧
      (feed copyCfg stillEnv true [(true, 1), (false, 1), (true, 1)] (copyStart v)).1.normRecord = l ∧
      (feed copyCfg stillEnv true [(true, 1), (false, 1), (true, 1)] (copyStart v)).1.resampleCount = c := by
  have hb : Spec.Boot copyCfg stillEnv copySetup fun _ x => x :=
    { copy_boot with
      resampler := rfl
      step := fun r l e => by simp [stillEnv] }
  obtain ⟨rs, w', x', l, c, h1, -, -, h4, h5, -, h7, -, h9, h10⟩ := C158_feed hb (.node (.leaf 1) (.leaf 0)) (by decide)
    [(true, 1), (false, 1), (true, 1)] (fun d _ x => by
      have hε : (eps : ℝ) ≤ 1 / 40 := by unfold eps; norm_num
      exact le_trans (by linarith) (phase_like d.1 x ()).1) (fun _ : Fin 2 => 1 / 2) (fun _ => by norm_num) (by norm_num)
    (fun i : Fin 2 => [(2 * i.val - 1 : ℝ) * (Real.pi / 2)]) (copyStart v) rfl rfl le_rfl v rfl
  refine ⟨rs, w', x', l, c, ?_, h4, h5, h7, h9, h10.trans (Nat.zero_add c)⟩
  have := congrArg List.length h1
  simpa using this

end QInfer
