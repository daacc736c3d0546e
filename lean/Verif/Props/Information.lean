import Verif.Props.Stopping
import Mathlib.Analysis.SpecialFunctions.Log.NegMulLog
import Mathlib.Analysis.Convex.Jensen

/-!
# C121: how fast one can learn

Entropy of the cloud in runs that may be steered and stopped in any way.
-/

namespace QInfer

open Real Finset

variable {O E ω : Type}

/-- `est_entropy` as a sum over positions. -/
theorem entropy_range (w : List ℝ) (h : ∀ x ∈ w, 0 ≤ x) :
    entropy w = ∑ i ∈ range w.length, negMulLog (w.getD i 0) := by
  unfold entropy
  induction w with
  | nil => simp
  | cons a w ih =>
    have ih := ih fun x hx => h x (by simp [hx])
    rw [List.length_cons, sum_range_succ']
    simp only [List.getD_cons_zero, List.getD_cons_succ]
    rw [← ih]
    rcases (h a (by simp)).lt_or_eq with ha | ha
    · rw [List.filter_cons_of_pos (by simpa using ha)]
      simp only [List.map_cons, List.sum_cons, negMulLog]
      ring
    · rw [List.filter_cons_of_neg (by simp [← ha])]
      simp [← ha]

theorem negMulLog_ratio (x e : ℝ) (h : e = 0 → x = 0) :
    e * negMulLog (x / e) = negMulLog x + x * log e := by
  by_cases he : e = 0
  · simp [he, h he]
  by_cases hx : x = 0
  · simp [hx]
  unfold negMulLog
  rw [log_div hx he]
  field_simp
  ring

/-- Mean entropy after an experiment. -/
theorem mean_entropy [Fintype O] (n : Nat) (w : Nat → ℝ) (L : O → Nat → ℝ) (hw : ∀ i, 0 ≤ w i)
    (hL : ∀ o i, 0 ≤ L o i) (hL1 : ∀ i ∈ range n, ∑ o, L o i = 1) :
    ∑ o, (∑ i ∈ range n, w i * L o i) *
        ∑ i ∈ range n, negMulLog (w i * L o i / ∑ j ∈ range n, w j * L o j) =
      ∑ i ∈ range n, negMulLog (w i) + ∑ i ∈ range n, w i * ∑ o, negMulLog (L o i) -
        ∑ o, negMulLog (∑ i ∈ range n, w i * L o i) := by
  have h1 : ∀ o, (∑ i ∈ range n, w i * L o i) *
        ∑ i ∈ range n, negMulLog (w i * L o i / ∑ j ∈ range n, w j * L o j) =
      ∑ i ∈ range n, (L o i * negMulLog (w i) + w i * negMulLog (L o i)) -
        negMulLog (∑ i ∈ range n, w i * L o i) := by
    intro o
    rw [mul_sum]
    have : ∀ i ∈ range n, (∑ i ∈ range n, w i * L o i) *
        negMulLog (w i * L o i / ∑ j ∈ range n, w j * L o j) =
        L o i * negMulLog (w i) + w i * negMulLog (L o i) +
          w i * L o i * log (∑ j ∈ range n, w j * L o j) := by
      intro i hi
      rw [negMulLog_ratio _ _ fun h0 => (sum_eq_zero_iff_of_nonneg fun j _ =>
        mul_nonneg (hw j) (hL o j)).1 h0 i hi, negMulLog_mul]
    rw [sum_congr rfl this, sum_add_distrib, ← sum_mul]
    simp only [negMulLog]
    ring
  simp_rw [h1]
  rw [sum_sub_distrib, sum_comm]
  congr 1
  rw [← sum_add_distrib]
  refine sum_congr rfl fun i hi => ?_
  rw [sum_add_distrib, ← sum_mul, hL1 i hi, one_mul, ← mul_sum]

/-- The entropy of a distribution over `k` outcomes is at most `log k`. -/
theorem sum_negMulLog_le [Fintype O] [Nonempty O] (p : O → ℝ) (h0 : ∀ o, 0 ≤ p o) (h1 : ∑ o, p o = 1) :
    ∑ o, negMulLog (p o) ≤ log (Fintype.card O) := by
  have hk : (0 : ℝ) < Fintype.card O := by exact_mod_cast Fintype.card_pos
  have := concaveOn_negMulLog.le_map_sum (t := univ) (w := fun _ : O => (1 : ℝ) / Fintype.card O)
    (p := p) (fun _ _ => by positivity) (by rw [sum_const, card_univ, nsmul_eq_mul]; field_simp)
    (fun o _ => h0 o)
  simp only [smul_eq_mul] at this
  rw [← mul_sum, ← mul_sum, h1, mul_one, negMulLog, one_div, log_inv] at this
  have h2 := mul_le_mul_of_nonneg_left this hk.le
  rw [← mul_assoc, mul_inv_cancel₀ hk.ne', one_mul] at h2
  refine h2.trans (le_of_eq ?_)
  field_simp

/-- Bounds on the mean entropy after an experiment. -/
theorem mean_entropy_bounds [Fintype O] [Nonempty O] (n : Nat) (w : Nat → ℝ) (L : O → Nat → ℝ)
    (hw : ∀ i, 0 ≤ w i) (hw1 : ∑ i ∈ range n, w i = 1) (hL : ∀ o i, 0 ≤ L o i)
    (hL1 : ∀ i ∈ range n, ∑ o, L o i = 1) :
    ∑ o, (∑ i ∈ range n, w i * L o i) *
        ∑ i ∈ range n, negMulLog (w i * L o i / ∑ j ∈ range n, w j * L o j) ≤
      ∑ i ∈ range n, negMulLog (w i) ∧
    ∑ i ∈ range n, negMulLog (w i) - log (Fintype.card O) ≤
      ∑ o, (∑ i ∈ range n, w i * L o i) *
        ∑ i ∈ range n, negMulLog (w i * L o i / ∑ j ∈ range n, w j * L o j) := by
  rw [mean_entropy n w L hw hL hL1]
  constructor
  · have : ∑ i ∈ range n, w i * ∑ o, negMulLog (L o i) ≤
        ∑ o, negMulLog (∑ i ∈ range n, w i * L o i) := by
      simp_rw [mul_sum]
      rw [sum_comm]
      refine sum_le_sum fun o _ => ?_
      have := concaveOn_negMulLog.le_map_sum (t := range n) (w := w) (p := fun i => L o i)
        (fun i _ => hw i) hw1 (fun i _ => hL o i)
      simpa only [smul_eq_mul] using this
    linarith
  · have h1 : 0 ≤ ∑ i ∈ range n, w i * ∑ o, negMulLog (L o i) := by
      refine sum_nonneg fun i hi => mul_nonneg (hw i) (sum_nonneg fun o _ => ?_)
      refine negMulLog_nonneg (hL o i) ?_
      rw [← hL1 i hi]
      exact single_le_sum (f := fun o => L o i) (fun o _ => hL o i) (mem_univ o)
    have h2 := sum_negMulLog_le (fun o => ∑ i ∈ range n, w i * L o i)
      (fun o => sum_nonneg fun i _ => mul_nonneg (hw i) (hL o i)) (by
        rw [sum_comm, ← hw1]
        refine sum_congr rfl fun i hi => ?_
        rw [← mul_sum, hL1 i hi, mul_one])
    linarith

/-- Fano's inequality. -/
theorem fano (n : Nat) (w : Nat → ℝ) (hw : ∀ i, 0 ≤ w i) (h1 : ∑ i ∈ range n, w i = 1) (j : Nat) :
    ∑ i ∈ range n, negMulLog (w i) ≤
      log 2 + log n * ∑ i ∈ range n, w i * Spec.indic (j ≠ i) := by
  have hn : 0 < n := by
    rcases Nat.eq_zero_or_pos n with rfl | h
    · simp at h1
    · exact h
  have hn1 : (1 : ℝ) ≤ n := by exact_mod_cast hn
  have hl2 : 0 ≤ log 2 := log_nonneg (by norm_num)
  by_cases hj : j ∈ range n
  · have hwrong : ∑ i ∈ range n, w i * Spec.indic (j ≠ i) = ∑ i ∈ (range n).erase j, w i := by
      rw [← add_sum_erase _ _ hj, indic_neg (by simp), mul_zero, zero_add]
      refine sum_congr rfl fun i hi => ?_
      rw [indic_pos (ne_of_mem_erase hi).symm, mul_one]
    have hsum : w j + ∑ i ∈ (range n).erase j, w i = 1 := by rw [add_sum_erase _ _ hj, h1]
    rw [hwrong, ← add_sum_erase _ _ hj]
    obtain ⟨r, hr⟩ : ∃ r, r = ∑ i ∈ (range n).erase j, w i := ⟨_, rfl⟩
    rw [← hr] at hsum ⊢
    have hr0 : 0 ≤ r := by rw [hr]; exact sum_nonneg fun i _ => hw i
    have hbin : negMulLog (w j) + negMulLog r ≤ log 2 := by
      have := sum_negMulLog_le (O := Bool) (fun b => if b then w j else r)
        (fun b => by cases b <;> simp [hw j, hr0]) (by simp [hsum])
      simpa using this
    have hrest : ∑ i ∈ (range n).erase j, negMulLog (w i) ≤ negMulLog r + r * log n := by
      rcases Nat.eq_zero_or_pos ((range n).erase j).card with h0 | hpos
      · have hz : r = 0 := by rw [hr, card_eq_zero.1 h0, sum_empty]
        rw [card_eq_zero.1 h0, sum_empty, hz]
        simp
      · have hm : (0 : ℝ) < ((range n).erase j).card := by exact_mod_cast hpos
        have hJ := concaveOn_negMulLog.le_map_sum (t := (range n).erase j)
          (w := fun _ => (1 : ℝ) / ((range n).erase j).card) (p := w)
          (fun _ _ => by positivity) (by rw [sum_const, nsmul_eq_mul]; field_simp) (fun i _ => hw i)
        simp only [smul_eq_mul] at hJ
        rw [← mul_sum, ← mul_sum, ← hr] at hJ
        have h2 := mul_le_mul_of_nonneg_left hJ hm.le
        rw [← mul_assoc, mul_one_div_cancel hm.ne', one_mul, one_div_mul_eq_div,
          negMulLog_ratio r _ fun h => absurd h hm.ne'] at h2
        have hle : log ((range n).erase j).card ≤ log n :=
          log_le_log hm (by
            have := card_erase_le (s := range n) (a := j)
            rw [card_range] at this
            exact_mod_cast this)
        have := mul_le_mul_of_nonneg_left hle hr0
        linarith
    linarith [mul_comm (log (n : ℝ)) r]
  · have hwrong : ∑ i ∈ range n, w i * Spec.indic (j ≠ i) = 1 := by
      rw [← h1]
      refine sum_congr rfl fun i hi => ?_
      rw [indic_pos (fun h => hj (by rw [h]; exact hi)), mul_one]
    rw [hwrong, mul_one]
    have : Nonempty (Fin n) := ⟨⟨0, hn⟩⟩
    have h3 := sum_negMulLog_le (O := Fin n) (fun i => w i) (fun i => hw i)
      (by rw [← h1, sum_range])
    rw [sum_range]
    rw [Fintype.card_fin] at h3
    linarith

/-- A lower bound by a quantity that does not decrease on average. -/
theorem le_atStop {S : Type} [Fintype O] (step : S → O → Option S) (p : S → O → ℝ) (stop : S → Prop)
    (g V : S → ℝ) (Inv : S → Prop) (hp : ∀ s o, Inv s → 0 ≤ p s o)
    (hI : ∀ s o t, Inv s → p s o ≠ 0 → step s o = some t → Inv t) (hg : ∀ s, Inv s → V s ≤ g s)
    (hV : ∀ s, Inv s → V s ≤ ∑ o, p s o * (step s o).elim 0 V) (n : Nat) (s : S) (hs : Inv s) :
    V s ≤ Spec.atStop step p stop g n s := by
  have h := atStop_le step p stop (fun s => -1 * g s) (fun s => -1 * V s) Inv hp hI
    (fun s hs => by have := hg s hs; linarith) (fun s hs => by
      have := hV s hs
      refine le_trans (le_of_eq ?_) (by linarith : -1 * ∑ o, p s o * (step s o).elim 0 V ≤ -1 * V s)
      rw [mul_sum]
      refine sum_congr rfl fun o _ => ?_
      rcases step s o with _ | t
      · simp
      · simp only [Option.elim_some]; ring) n s hs
  rw [atStop_smul] at h
  linarith

section
variable [Fintype O] (cfg : SmcConfig ℝ) (env : Env ℝ O E ω) (hg : GoodEnv env) (hst : Static env)
  (hp : cfg.policy = "error") (ht : eps ≤ cfg.zeroThresh) (ht1 : cfg.zeroThresh < 1)
  (heur : Smc ℝ O ω → E) (s : Smc ℝ O ω) (hs : WInv s)

theorem winv_nonneg (u : Smc ℝ O ω) (hu : WInv u) (i : Nat) : 0 ≤ u.weights.getD i 0 := by
  rcases lt_or_ge i u.weights.length with hi | hi
  · rw [List.getD_eq_getElem _ _ hi]; exact hu.1.1 _ (List.getElem_mem hi)
  · rw [List.getD_eq_default _ _ hi]

theorem winv_sum (u : Smc ℝ O ω) (hu : WInv u) :
    ∑ j ∈ range u.weights.length, u.weights.getD j 0 = 1 := by
  rw [← zip_map_sum (fun a (_ : List ℝ) => a) _ _ 0 [] hu.2]
  have : (u.weights.zip u.locs).map (fun p => p.1) = u.weights := List.map_fst_zip (by rw [hu.2])
  rw [this, hu.1.2]

omit [Fintype O] in
theorem move_data (e : E) (u : Smc ℝ O ω) (o : O) (t : Smc ℝ O ω)
    (h : Spec.move cfg env e u o = some t) : t.dataRecord = u.dataRecord ++ [o] := by
  have hd := update_data cfg env u o e true
  unfold Spec.move at h
  rcases heq : update cfg env u o e true with ⟨t', err | ⟨⟨⟩⟩⟩
  · simp [heq] at h
  · simp only [heq] at h
    split_ifs at h
    obtain rfl : t' = t := by simpa using h
    rw [heq] at hd
    exact hd

include hg hst hp ht ht1 in
/-- The entropy after an accepted outcome. -/
theorem move_entropy (e : E) (u : Smc ℝ O ω) (hu : WInv u) (o : O) (t : Smc ℝ O ω)
    (h : Spec.move cfg env e u o = some t) :
    entropy t.weights = ∑ i ∈ range u.weights.length, negMulLog (u.weights.getD i 0 *
      env.likelihood o (u.locs.getD i []) e / ∑ j ∈ range u.weights.length, u.weights.getD j 0 *
        env.likelihood o (u.locs.getD j []) e) := by
  obtain ⟨h1, h2, h3, -, h5⟩ := move_facts cfg env hg hst hp ht ht1 e u hu o t h
  have hlen : t.weights.length = u.weights.length := by rw [← h1.2, h2, hu.2]
  rw [entropy_range _ h1.1.1, hlen]
  refine sum_congr rfl fun i _ => ?_
  rw [h5 i, ← evidence_range env.likelihood u hu o e,
    mul_div_cancel_left₀ _ (lt_of_lt_of_le eps_pos h3).ne']

include hg hst hp ht ht1 hs in
/-- **C121, entropy does not grow.**  However experiments are chosen and whenever one stops, the mean of
`est_entropy` at the stop, over truths and outcomes, is at most its initial value. -/
theorem C121_entropy_decreases [Nonempty O]
    (hL1 : ∀ x ∈ s.locs, ∀ e, ∑ o, env.likelihood o x e = 1) (stop : Smc ℝ O ω → Prop) (n : Nat) :
    ∑ i ∈ range s.weights.length, s.weights.getD i 0 *
      Spec.atStop (fun u => Spec.move cfg env (heur u) u)
        (fun u o => env.likelihood o (s.locs.getD i []) (heur u)) stop
        (fun u => entropy u.weights) n s ≤ entropy s.weights := by
  rw [stopped_tower cfg env hg hst hp ht ht1 heur s hs]
  refine atStop_le _ _ _ _ (fun u => entropy u.weights) (fun u => WInv u ∧ u.locs = s.locs)
    (fun u o hu => evidence_nonneg' env hg u hu.1 o _)
    (fun u o t hu _ ho => (move_inv cfg env hg hst hp ht ht1 heur s hs u o t hu ho).1) ?_ ?_ n s ⟨hs, rfl⟩
  · intro u hu
    have hlen : s.weights.length = u.weights.length := by rw [← hs.2, ← hu.2, hu.1.2]
    rw [← sum_mul, hlen, winv_sum u hu.1, one_mul]
  · intro u hu
    have hb := (mean_entropy_bounds (O := O) u.weights.length (fun i => u.weights.getD i 0)
      (fun o i => env.likelihood o (u.locs.getD i []) (heur u)) (winv_nonneg u hu.1) (winv_sum u hu.1)
      (fun o i => hg.like_nonneg _ _ _) (fun i hi => hL1 _ (by
        rw [← hu.2, List.getD_eq_getElem _ _ (by rw [hu.1.2]; exact mem_range.1 hi)]
        exact List.getElem_mem _) _)).1
    rw [← entropy_range _ hu.1.1.1] at hb
    refine le_trans (sum_le_sum fun o _ => ?_) hb
    rw [← evidence_range env.likelihood u hu.1 o (heur u)]
    refine mul_le_mul_of_nonneg_left ?_ (evidence_nonneg' env hg u hu.1 o _)
    rcases h : Spec.move cfg env (heur u) u o with _ | t
    · refine sum_nonneg fun i hi => negMulLog_nonneg ?_ ?_
      · exact div_nonneg (mul_nonneg (winv_nonneg u hu.1 i) (hg.like_nonneg _ _ _))
          (evidence_nonneg' env hg u hu.1 o _)
      · refine div_le_one_of_le₀ ?_ (evidence_nonneg' env hg u hu.1 o _)
        rw [evidence_range env.likelihood u hu.1 o (heur u)]
        exact single_le_sum (f := fun i => u.weights.getD i 0 * env.likelihood o (u.locs.getD i []) (heur u))
          (fun j _ => mul_nonneg (winv_nonneg u hu.1 j) (hg.like_nonneg _ _ _)) hi
    · simp only [Option.elim_some]
      rw [move_entropy cfg env hg hst hp ht ht1 (heur u) u hu.1 o t h,
        evidence_range env.likelihood u hu.1 o (heur u)]

include hg hst hp ht ht1 hs in
/-- **C121, experiments needed.**  With resampling off and likelihoods above machine precision, the mean
number of experiments until the stop, times the logarithm of the number of outcomes, is at least the mean
loss of entropy: no choice of experiments learns faster. -/
theorem C121_experiments_needed [Nonempty O] (hr : cfg.resampleThresh = 0)
    (hL : ∀ o, ∀ x ∈ s.locs, ∀ e, eps ≤ env.likelihood o x e)
    (hL1 : ∀ x ∈ s.locs, ∀ e, ∑ o, env.likelihood o x e = 1) (stop : Smc ℝ O ω → Prop) (n : Nat) :
    entropy s.weights - ∑ i ∈ range s.weights.length, s.weights.getD i 0 *
        Spec.atStop (fun u => Spec.move cfg env (heur u) u)
          (fun u o => env.likelihood o (s.locs.getD i []) (heur u)) stop
          (fun u => entropy u.weights) n s ≤
      log (Fintype.card O) * ∑ i ∈ range s.weights.length, s.weights.getD i 0 *
        Spec.atStop (fun u => Spec.move cfg env (heur u) u)
          (fun u o => env.likelihood o (s.locs.getD i []) (heur u)) stop
          (fun u => (u.dataRecord.length : ℝ) - s.dataRecord.length) n s := by
  have hcomb : ∑ i ∈ range s.weights.length, s.weights.getD i 0 *
        Spec.atStop (fun u => Spec.move cfg env (heur u) u)
          (fun u o => env.likelihood o (s.locs.getD i []) (heur u)) stop
          (fun u => entropy u.weights) n s +
      log (Fintype.card O) * ∑ i ∈ range s.weights.length, s.weights.getD i 0 *
        Spec.atStop (fun u => Spec.move cfg env (heur u) u)
          (fun u o => env.likelihood o (s.locs.getD i []) (heur u)) stop
          (fun u => (u.dataRecord.length : ℝ) - s.dataRecord.length) n s =
      ∑ i ∈ range s.weights.length, s.weights.getD i 0 *
        Spec.atStop (fun u => Spec.move cfg env (heur u) u)
          (fun u o => env.likelihood o (s.locs.getD i []) (heur u)) stop
          (fun u => entropy u.weights +
            log (Fintype.card O) * ((u.dataRecord.length : ℝ) - s.dataRecord.length)) n s := by
    rw [mul_sum, ← sum_add_distrib]
    refine sum_congr rfl fun i _ => ?_
    rw [atStop_add, atStop_smul]
    ring
  have hmain : entropy s.weights + log (Fintype.card O) * ((s.dataRecord.length : ℝ) - s.dataRecord.length) ≤
      ∑ i ∈ range s.weights.length, s.weights.getD i 0 *
        Spec.atStop (fun u => Spec.move cfg env (heur u) u)
          (fun u o => env.likelihood o (s.locs.getD i []) (heur u)) stop
          (fun u => entropy u.weights +
            log (Fintype.card O) * ((u.dataRecord.length : ℝ) - s.dataRecord.length)) n s := by
    rw [stopped_tower cfg env hg hst hp ht ht1 heur s hs]
    refine le_atStop _ _ _ _ (fun u => entropy u.weights +
        log (Fintype.card O) * ((u.dataRecord.length : ℝ) - s.dataRecord.length))
      (fun u => WInv u ∧ u.locs = s.locs)
      (fun u o hu => evidence_nonneg' env hg u hu.1 o _)
      (fun u o t hu _ ho => (move_inv cfg env hg hst hp ht ht1 heur s hs u o t hu ho).1) ?_ ?_ n s ⟨hs, rfl⟩
    · intro u hu
      have hlen : s.weights.length = u.weights.length := by rw [← hs.2, ← hu.2, hu.1.2]
      rw [← sum_mul, hlen, winv_sum u hu.1, one_mul]
    · intro u hu
      have hb := (mean_entropy_bounds (O := O) u.weights.length (fun i => u.weights.getD i 0)
        (fun o i => env.likelihood o (u.locs.getD i []) (heur u)) (winv_nonneg u hu.1) (winv_sum u hu.1)
        (fun o i => hg.like_nonneg _ _ _) (fun i hi => hL1 _ (by
          rw [← hu.2, List.getD_eq_getElem _ _ (by rw [hu.1.2]; exact mem_range.1 hi)]
          exact List.getElem_mem _) _)).2
      rw [← entropy_range _ hu.1.1.1] at hb
      have htot := evidence_total env u hu.1 (heur u) (by rw [hu.2]; exact fun x hx => hL1 x hx _)
      have key : ∀ o, evidence env.likelihood u.weights u.locs o (heur u) *
          (Spec.move cfg env (heur u) u o).elim 0 (fun u => entropy u.weights +
            log (Fintype.card O) * ((u.dataRecord.length : ℝ) - s.dataRecord.length)) =
          (∑ i ∈ range u.weights.length, u.weights.getD i 0 *
            env.likelihood o (u.locs.getD i []) (heur u)) *
          (∑ i ∈ range u.weights.length, negMulLog (u.weights.getD i 0 *
            env.likelihood o (u.locs.getD i []) (heur u) / ∑ j ∈ range u.weights.length,
              u.weights.getD j 0 * env.likelihood o (u.locs.getD j []) (heur u))) +
          evidence env.likelihood u.weights u.locs o (heur u) *
            (log (Fintype.card O) * ((u.dataRecord.length : ℝ) + 1 - s.dataRecord.length)) := by
        intro o
        obtain ⟨t, h⟩ := move_some cfg env hg hst hp ht ht1 hr (heur u) u hu.1 (by rw [hu.2]; exact hL) o
        rw [h]
        simp only [Option.elim_some]
        rw [move_entropy cfg env hg hst hp ht ht1 (heur u) u hu.1 o t h,
          ← evidence_range env.likelihood u hu.1 o (heur u), move_data cfg env (heur u) u o t h,
          List.length_append]
        push_cast
        simp only [List.length_singleton, Nat.cast_one]
        ring
      simp_rw [key]
      rw [sum_add_distrib, ← sum_mul, htot, one_mul]
      linarith
  rw [sub_self, mul_zero, add_zero] at hmain
  linarith

include hg hst hp ht ht1 hs in
/-- **C121, naming the truth.**  Let `guess` be any rule that names a particle at the stop.  The mean number
of experiments, times the logarithm of the number of outcomes, is at least the initial entropy, less
`log 2`, less the probability of naming a wrong particle times the logarithm of the number of
particles. -/
theorem C121_identification [Nonempty O] (hr : cfg.resampleThresh = 0)
    (hL : ∀ o, ∀ x ∈ s.locs, ∀ e, eps ≤ env.likelihood o x e)
    (hL1 : ∀ x ∈ s.locs, ∀ e, ∑ o, env.likelihood o x e = 1) (stop : Smc ℝ O ω → Prop)
    (guess : Smc ℝ O ω → Nat) (n : Nat) :
    entropy s.weights - log 2 - log s.weights.length * (∑ i ∈ range s.weights.length,
        s.weights.getD i 0 * Spec.atStop (fun u => Spec.move cfg env (heur u) u)
          (fun u o => env.likelihood o (s.locs.getD i []) (heur u)) stop
          (fun u => Spec.indic (guess u ≠ i)) n s) ≤
      log (Fintype.card O) * ∑ i ∈ range s.weights.length, s.weights.getD i 0 *
        Spec.atStop (fun u => Spec.move cfg env (heur u) u)
          (fun u o => env.likelihood o (s.locs.getD i []) (heur u)) stop
          (fun u => (u.dataRecord.length : ℝ) - s.dataRecord.length) n s := by
  have h1 := C121_experiments_needed cfg env hg hst hp ht ht1 heur s hs hr hL hL1 stop n
  have hone : ∑ i ∈ range s.weights.length, s.weights.getD i 0 *
      Spec.atStop (fun u => Spec.move cfg env (heur u) u)
        (fun u o => env.likelihood o (s.locs.getD i []) (heur u)) stop (fun _ => (1 : ℝ)) n s = 1 := by
    refine Eq.trans (sum_congr rfl fun i hi => ?_) (winv_sum s hs)
    have hx : s.locs.getD i [] ∈ s.locs := by
      rw [List.getD_eq_getElem _ _ (by rw [hs.2]; exact mem_range.1 hi)]
      exact List.getElem_mem _
    rw [atStop_one _ _ _ (fun u => WInv u ∧ u.locs = s.locs) (fun u _ => hL1 _ hx _) (fun u o hu => by
      obtain ⟨t, h⟩ := move_some cfg env hg hst hp ht ht1 hr (heur u) u hu.1
        (by rw [hu.2]; exact hL) o
      exact ⟨t, h, (move_inv cfg env hg hst hp ht ht1 heur s hs u o t hu h).1⟩) n s ⟨hs, rfl⟩, mul_one]
  have h2 := stopped_le cfg env hg hst hp ht ht1 heur s hs stop (fun _ u => entropy u.weights)
    (fun i u => log 2 * 1 + log s.weights.length * Spec.indic (guess u ≠ i)) (fun u hu hl => by
      have hlen : s.weights.length = u.weights.length := by rw [← hs.2, ← hl, hu.2]
      rw [← sum_mul, hlen, winv_sum u hu, one_mul, entropy_range _ hu.1.1]
      refine (fano u.weights.length (fun i => u.weights.getD i 0) (winv_nonneg u hu) (winv_sum u hu)
        (guess u)).trans (le_of_eq ?_)
      simp_rw [mul_add]
      rw [sum_add_distrib, ← sum_mul, winv_sum u hu, mul_sum]
      congr 1
      · ring
      · exact sum_congr rfl fun i _ => by ring) n
  have h3 : ∑ i ∈ range s.weights.length, s.weights.getD i 0 *
      Spec.atStop (fun u => Spec.move cfg env (heur u) u)
        (fun u o => env.likelihood o (s.locs.getD i []) (heur u)) stop
        (fun u => log 2 * 1 + log s.weights.length * Spec.indic (guess u ≠ i)) n s =
      log 2 + log s.weights.length * (∑ i ∈ range s.weights.length,
        s.weights.getD i 0 * Spec.atStop (fun u => Spec.move cfg env (heur u) u)
          (fun u o => env.likelihood o (s.locs.getD i []) (heur u)) stop
          (fun u => Spec.indic (guess u ≠ i)) n s) := by
    have hterm : ∀ i, s.weights.getD i 0 * Spec.atStop (fun u => Spec.move cfg env (heur u) u)
        (fun u o => env.likelihood o (s.locs.getD i []) (heur u)) stop
        (fun u => log 2 * 1 + log s.weights.length * Spec.indic (guess u ≠ i)) n s =
        log 2 * (s.weights.getD i 0 * Spec.atStop (fun u => Spec.move cfg env (heur u) u)
          (fun u o => env.likelihood o (s.locs.getD i []) (heur u)) stop (fun _ => (1 : ℝ)) n s) +
        log s.weights.length * (s.weights.getD i 0 *
          Spec.atStop (fun u => Spec.move cfg env (heur u) u)
          (fun u o => env.likelihood o (s.locs.getD i []) (heur u)) stop
          (fun u => Spec.indic (guess u ≠ i)) n s) := by
      intro i
      rw [atStop_add, atStop_smul, atStop_smul]
      ring
    simp_rw [hterm]
    rw [sum_add_distrib, ← mul_sum, ← mul_sum, hone, mul_one]
  rw [h3] at h2
  linarith

end

/-- Case for C121: the two coins of C91, tossed until one of them has a weight above 99%, at most a
thousand times. -/
example : entropy twoCoinsStart.weights - ∑ i ∈ range 2, twoCoinsStart.weights.getD i 0 *
      Spec.atStop (fun u => Spec.move ⟨0, "error", eps, false⟩ twoCoins () u)
        (fun _ o => twoCoins.likelihood o (twoCoinsStart.locs.getD i []) ())
        (fun u => ∃ x ∈ u.weights, 99 / 100 < x) (fun u => entropy u.weights) 1000 twoCoinsStart ≤
    log (Fintype.card Bool) * ∑ i ∈ range 2, twoCoinsStart.weights.getD i 0 *
      Spec.atStop (fun u => Spec.move ⟨0, "error", eps, false⟩ twoCoins () u)
        (fun _ o => twoCoins.likelihood o (twoCoinsStart.locs.getD i []) ())
        (fun u => ∃ x ∈ u.weights, 99 / 100 < x)
        (fun u => (u.dataRecord.length : ℝ) - twoCoinsStart.dataRecord.length) 1000 twoCoinsStart :=
  C121_experiments_needed ⟨0, "error", eps, false⟩ twoCoins twoCoins_good (fun _ _ _ => rfl) rfl le_rfl
    (lt_of_le_of_lt eps_real_le (by norm_num)) (fun _ => ()) twoCoinsStart twoCoinsStart_winv rfl
    (fun o x _ e => twoCoins_eps o x e) (fun x _ e => twoCoins_sum x e) _ 1000

end QInfer
