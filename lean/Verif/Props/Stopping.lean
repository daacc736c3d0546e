import Verif.Props.Calibration
import Verif.Props.SmcCore
import Verif.Props.SmcHistory

/-!
# C120: stopping whenever one likes

Experiments are done until some condition on the updater holds, at most `n` of them.
-/

namespace QInfer

section Tree
variable {S O K ι : Type} [Field K] [LinearOrder K] [IsStrictOrderedRing K] [Fintype O]

open Classical in
/-- Mean of a quantity `g` of the state when a process stops.  In state `s` outcome `o` has probability
`p s o` and leads to `step s o`; the process ends when `stop` holds, or after `n` steps.  Runs that
break off (`step s o = none`) count as zero. -/
noncomputable def Spec.atStop (step : S → O → Option S) (p : S → O → K) (stop : S → Prop) (g : S → K) :
    Nat → S → K
  | 0, s => g s
  | n + 1, s => if stop s then g s else
      ∑ o, p s o * (step s o).elim 0 fun t => Spec.atStop step p stop g n t

open Classical in
/-- One if `P` holds, else zero. -/
noncomputable def Spec.indic (P : Prop) : K := if P then 1 else 0

theorem indic_pos {P : Prop} (h : P) : (Spec.indic P : K) = 1 := if_pos h

theorem indic_neg {P : Prop} (h : ¬ P) : (Spec.indic P : K) = 0 := if_neg h

/-- Probability that some state within `n` steps has property `P`. -/
noncomputable def Spec.chanceEver (step : S → O → Option S) (p : S → O → K) (P : S → Prop) (n : Nat)
    (s : S) : K :=
  Spec.atStop step p P (fun s => Spec.indic (P s)) n s

/-- Probability that the process goes on for `n` steps with property `P` in every state. -/
noncomputable def Spec.chanceAlways (step : S → O → Option S) (p : S → O → K) (P : S → Prop) (n : Nat)
    (s : S) : K :=
  Spec.atStop step p (fun s => ¬ P s) (fun s => Spec.indic (P s)) n s

variable (step : S → O → Option S) (p : S → O → K) (stop : S → Prop)

/-- A quantity that does not increase on average bounds the mean at the stop. -/
theorem atStop_le (g V : S → K) (Inv : S → Prop) (hp : ∀ s o, Inv s → 0 ≤ p s o)
    (hI : ∀ s o t, Inv s → p s o ≠ 0 → step s o = some t → Inv t) (hg : ∀ s, Inv s → g s ≤ V s)
    (hV : ∀ s, Inv s → ∑ o, p s o * (step s o).elim 0 V ≤ V s) (n : Nat) (s : S) (hs : Inv s) :
    Spec.atStop step p stop g n s ≤ V s := by
  induction n generalizing s with
  | zero => exact hg s hs
  | succ n ih =>
    unfold Spec.atStop
    split_ifs
    · exact hg s hs
    · refine le_trans (Finset.sum_le_sum fun o _ => ?_) (hV s hs)
      by_cases h0 : p s o = 0
      · simp [h0]
      refine mul_le_mul_of_nonneg_left ?_ (hp s o hs)
      rcases h : step s o with _ | t
      · exact le_rfl
      · exact ih t (hI s o t hs h0 h)

theorem atStop_mono (g g' : S → K) (Inv : S → Prop) (hp : ∀ s o, Inv s → 0 ≤ p s o)
    (hI : ∀ s o t, Inv s → step s o = some t → Inv t) (hg : ∀ s, Inv s → g s ≤ g' s)
    (n : Nat) (s : S) (hs : Inv s) :
    Spec.atStop step p stop g n s ≤ Spec.atStop step p stop g' n s := by
  induction n generalizing s with
  | zero => exact hg s hs
  | succ n ih =>
    unfold Spec.atStop
    split_ifs
    · exact hg s hs
    · refine Finset.sum_le_sum fun o _ => mul_le_mul_of_nonneg_left ?_ (hp s o hs)
      rcases h : step s o with _ | t
      · exact le_rfl
      · exact ih t (hI s o t hs h)

theorem atStop_add (g g' : S → K) (n : Nat) (s : S) :
    Spec.atStop step p stop (fun s => g s + g' s) n s =
      Spec.atStop step p stop g n s + Spec.atStop step p stop g' n s := by
  induction n generalizing s with
  | zero => rfl
  | succ n ih =>
    unfold Spec.atStop
    split_ifs
    · rfl
    · rw [← Finset.sum_add_distrib]
      refine Finset.sum_congr rfl fun o _ => ?_
      rw [← mul_add]
      congr 1
      rcases step s o with _ | t
      · simp
      · exact ih t

theorem atStop_smul (c : K) (g : S → K) (n : Nat) (s : S) :
    Spec.atStop step p stop (fun s => c * g s) n s = c * Spec.atStop step p stop g n s := by
  induction n generalizing s with
  | zero => rfl
  | succ n ih =>
    unfold Spec.atStop
    split_ifs
    · rfl
    · rw [Finset.mul_sum]
      refine Finset.sum_congr rfl fun o _ => ?_
      rw [mul_left_comm]
      congr 1
      rcases step s o with _ | t
      · simp
      · exact ih t

theorem atStop_one (Inv : S → Prop) (hp : ∀ s, Inv s → ∑ o, p s o = 1)
    (hI : ∀ s o, Inv s → ∃ t, step s o = some t ∧ Inv t) (n : Nat) (s : S) (hs : Inv s) :
    Spec.atStop step p stop (fun _ => 1) n s = 1 := by
  induction n generalizing s with
  | zero => rfl
  | succ n ih =>
    unfold Spec.atStop
    split_ifs
    · rfl
    · refine Eq.trans (Finset.sum_congr rfl fun o _ => ?_) (hp s hs)
      obtain ⟨t, ht, hi⟩ := hI s o hs
      rw [ht]
      simp only [Option.elim_some]
      rw [ih t hi, mul_one]

theorem chanceEver_congr (P P' : S → Prop) (Inv : S → Prop) (h : ∀ s, Inv s → (P s ↔ P' s))
    (hI : ∀ s o t, Inv s → step s o = some t → Inv t) (n : Nat) (s : S) (hs : Inv s) :
    Spec.chanceEver step p P n s = Spec.chanceEver step p P' n s := by
  unfold Spec.chanceEver
  induction n generalizing s with
  | zero => simp only [Spec.atStop]; rw [h s hs]
  | succ n ih =>
    unfold Spec.atStop
    by_cases hP : P s
    · rw [if_pos hP, if_pos ((h s hs).1 hP), h s hs]
    · rw [if_neg hP, if_neg fun h' => hP ((h s hs).2 h')]
      refine Finset.sum_congr rfl fun o _ => ?_
      congr 1
      rcases ho : step s o with _ | t
      · rfl
      · exact ih t (hI s o t hs ho)

/-- Averaging over truths: if `w t i` is `w s i` reweighted by Bayes' rule, the mean over truths is the
mean under the predictive distribution `q`. -/
theorem atStop_tower (N : Finset ι) (w : S → ι → K) (pi : ι → S → O → K) (q : S → O → K)
    (Inv : S → Prop) (hI : ∀ s o t, Inv s → step s o = some t → Inv t ∧
      ∀ i ∈ N, w s i * pi i s o = q s o * w t i) (g : ι → S → K) (n : Nat) (s : S) (hs : Inv s) :
    ∑ i ∈ N, w s i * Spec.atStop step (pi i) stop (g i) n s =
      Spec.atStop step q stop (fun s => ∑ i ∈ N, w s i * g i s) n s := by
  induction n generalizing s with
  | zero => rfl
  | succ n ih =>
    unfold Spec.atStop
    by_cases hst : stop s
    · simp only [if_pos hst]
    · simp only [if_neg hst, Finset.mul_sum]
      rw [Finset.sum_comm]
      refine Finset.sum_congr rfl fun o _ => ?_
      rcases h : step s o with _ | t
      · simp
      · obtain ⟨hi, hw⟩ := hI s o t hs h
        simp only [Option.elim_some]
        rw [← ih t hi, Finset.mul_sum]
        refine Finset.sum_congr rfl fun i hiN => ?_
        rw [← mul_assoc, hw i hiN, mul_assoc]

end Tree

variable {K O E ω ω' : Type}
variable [Field K] [LinearOrder K] [IsStrictOrderedRing K]

/-- One experiment `e` with outcome `o`; `none` if the update raises or resamples. -/
def Spec.move (cfg : SmcConfig K) (env : Env K O E ω) (e : E) (s : Smc K O ω) (o : O) :
    Option (Smc K O ω) :=
  match update cfg env s o e true with
  | (t, .ok ()) => if t.resampleCount = s.resampleCount then some t else none
  | (_, .error _) => none

/-- One experiment seen by two updaters. -/
def Spec.moveBoth {K' : Type} [Field K'] [LinearOrder K'] (cfg : SmcConfig K) (env : Env K O E ω)
    (cfg' : SmcConfig K') (env' : Env K' O E ω') (e : E) (s : Smc K O ω × Smc K' O ω') (o : O) :
    Option (Smc K O ω × Smc K' O ω') :=
  (Spec.move cfg env e s.1 o).bind fun t => (Spec.move cfg' env' e s.2 o).map fun t' => (t, t')

theorem evidence_range (like : O → List K → E → K) (s : Smc K O ω) (hs : WInv s) (o : O) (e : E) :
    evidence like s.weights s.locs o e =
      ∑ i ∈ Finset.range s.weights.length, s.weights.getD i 0 * like o (s.locs.getD i []) e :=
  zip_map_sum (fun a b => a * like o b e) _ _ 0 [] hs.2

/-- What one accepted experiment does. -/
theorem move_facts (cfg : SmcConfig K) (env : Env K O E ω) (hg : GoodEnv env) (hst : Static env)
    (hp : cfg.policy = "error") (ht : eps ≤ cfg.zeroThresh) (ht1 : cfg.zeroThresh < 1) (e : E)
    (s : Smc K O ω) (hs : WInv s) (o : O) (t : Smc K O ω) (h : Spec.move cfg env e s o = some t) :
    WInv t ∧ t.locs = s.locs ∧ eps ≤ evidence env.likelihood s.weights s.locs o e ∧
      t.normRecord = s.normRecord ++ [evidence env.likelihood s.weights s.locs o e] ∧
      ∀ i, s.weights.getD i 0 * env.likelihood o (s.locs.getD i []) e =
        evidence env.likelihood s.weights s.locs o e * t.weights.getD i 0 := by
  unfold Spec.move at h
  rcases heq : update cfg env s o e true with ⟨t', err | ⟨⟨⟩⟩⟩
  · simp [heq] at h
  simp only [heq] at h
  split_ifs at h with hc
  obtain rfl : t' = t := by simpa using h
  have hfeed : feed cfg env true [(o, e)] s = (t', .ok ()) := by simp [feed, heq]
  obtain ⟨h1, -, h2⟩ := feed_checked cfg env hg hst hp ht ht1 [(o, e)] s hs (by rw [hfeed])
  rw [hfeed] at h1 h2
  obtain ⟨h3, h4⟩ := h2 hc
  have hde : dataEvidence env.likelihood s.weights s.locs [(o, e)] =
      evidence env.likelihood s.weights s.locs o e := by
    simp [dataEvidence, evidence, dataLike]
  have hn := C06_normalization_record cfg env hg ht ht1 s hs.2 hs.1.1 o e true
  rw [heq] at hn
  have hev : eps ≤ evidence env.likelihood s.weights s.locs o e := by
    by_contra hlt
    have := (C07_policy_table cfg env hg ht s hs.2 hs.1.1 o e (not_le.1 hlt)).2.1 hp true
    rw [heq] at this
    simp at this
  rw [if_neg (fun h => not_lt.2 hev h.1)] at hn
  refine ⟨h1, h4, hev, hn, fun i => ?_⟩
  have hne := (lt_of_lt_of_le eps_pos hev).ne'
  dsimp only at h3
  rw [h3, dataPosterior_getD _ _ _ hs.2, hde]
  simp only [dataLike, List.map_cons, List.map_nil, List.prod_cons, List.prod_nil, mul_one]
  field_simp

/-- An experiment is accepted if resampling is off and the outcome likely enough. -/
theorem move_some (cfg : SmcConfig K) (env : Env K O E ω) (hg : GoodEnv env) (hst : Static env)
    (hp : cfg.policy = "error") (ht : eps ≤ cfg.zeroThresh) (ht1 : cfg.zeroThresh < 1)
    (hr : cfg.resampleThresh = 0) (e : E) (s : Smc K O ω) (hs : WInv s)
    (hL : ∀ o, ∀ x ∈ s.locs, ∀ e, eps ≤ env.likelihood o x e) (o : O) :
    ∃ t, Spec.move cfg env e s o = some t := by
  have h := C91_always_undisturbed cfg env hg hst hp ht ht1 (fun _ => e) s hs hr hL [o]
  unfold Undisturbed at h
  unfold Spec.move
  rcases heq : update cfg env s o e true with ⟨t, err | ⟨⟨⟩⟩⟩
  · simp [adapt, heq] at h
  · simp only [adapt, heq] at h
    exact ⟨t, by simp [h.2]⟩

/-- Means and variances of a cloud as sums over positions. -/
theorem cloud_error (u : Smc K O ω) (hu : WInv u) (d k : Nat) (hk : k < d) :
    ∑ i ∈ Finset.range u.weights.length, u.weights.getD i 0 *
        ((smcMean d u.weights u.locs).getD k 0 - (u.locs.getD i []).getD k 0) ^ 2 =
      ((smcCov d u.weights u.locs).getD k []).getD k 0 := by
  have h1 : ∑ i ∈ Finset.range u.weights.length, u.weights.getD i 0 = 1 := by
    rw [← zip_map_sum (fun a (_ : List K) => a) _ _ 0 [] hu.2]
    have : (u.weights.zip u.locs).map (fun p => p.1) = u.weights := List.map_fst_zip (by rw [hu.2])
    rw [this, hu.1.2]
  rw [sq_decomp _ _ _ _ h1, smcMean_getD d _ _ k hk, smcCov_getD d _ _ k k hk hk,
    zip_map_sum (fun a (x : List K) => a * x.getD k 0) _ _ 0 [] hu.2,
    zip_map_sum (fun a (x : List K) => a * (x.getD k 0 * x.getD k 0)) _ _ 0 [] hu.2]
  ring

section
variable [Fintype O] (cfg : SmcConfig K) (env : Env K O E ω) (hg : GoodEnv env) (hst : Static env)
  (hp : cfg.policy = "error") (ht : eps ≤ cfg.zeroThresh) (ht1 : cfg.zeroThresh < 1)
  (heur : Smc K O ω → E) (s : Smc K O ω) (hs : WInv s)
include hg hst hp ht ht1 hs

/-- The updater stays a cloud on the same particles. -/
theorem move_inv (u : Smc K O ω) (o : O) (t : Smc K O ω) (hu : WInv u ∧ u.locs = s.locs)
    (h : Spec.move cfg env (heur u) u o = some t) :
    (WInv t ∧ t.locs = s.locs) ∧ ∀ i ∈ Finset.range s.weights.length,
      u.weights.getD i 0 * env.likelihood o (s.locs.getD i []) (heur u) =
        evidence env.likelihood u.weights u.locs o (heur u) * t.weights.getD i 0 := by
  obtain ⟨h1, h2, -, -, h5⟩ := move_facts cfg env hg hst hp ht ht1 (heur u) u hu.1 o t h
  refine ⟨⟨h1, h2.trans hu.2⟩, fun i _ => ?_⟩
  rw [← h5 i, hu.2]

/-- Means over truths at a stop are means of posterior means. -/
theorem stopped_tower (stop : Smc K O ω → Prop) (g : Nat → Smc K O ω → K) (n : Nat) :
    ∑ i ∈ Finset.range s.weights.length, s.weights.getD i 0 *
        Spec.atStop (fun u => Spec.move cfg env (heur u) u)
          (fun u o => env.likelihood o (s.locs.getD i []) (heur u)) stop (g i) n s =
      Spec.atStop (fun u => Spec.move cfg env (heur u) u)
        (fun u o => evidence env.likelihood u.weights u.locs o (heur u)) stop
        (fun u => ∑ i ∈ Finset.range s.weights.length, u.weights.getD i 0 * g i u) n s :=
  atStop_tower (fun u => Spec.move cfg env (heur u) u) stop (Finset.range s.weights.length)
    (fun u i => u.weights.getD i 0) (fun i u o => env.likelihood o (s.locs.getD i []) (heur u))
    (fun u o => evidence env.likelihood u.weights u.locs o (heur u))
    (fun u => WInv u ∧ u.locs = s.locs)
    (fun u o t hu h => move_inv cfg env hg hst hp ht ht1 heur s hs u o t hu h) g n s ⟨hs, rfl⟩

/-- Comparison of two quantities state by state. -/
theorem stopped_le (stop : Smc K O ω → Prop) (g g' : Nat → Smc K O ω → K)
    (h : ∀ u, WInv u → u.locs = s.locs →
      ∑ i ∈ Finset.range s.weights.length, u.weights.getD i 0 * g i u ≤
        ∑ i ∈ Finset.range s.weights.length, u.weights.getD i 0 * g' i u) (n : Nat) :
    ∑ i ∈ Finset.range s.weights.length, s.weights.getD i 0 *
        Spec.atStop (fun u => Spec.move cfg env (heur u) u)
          (fun u o => env.likelihood o (s.locs.getD i []) (heur u)) stop (g i) n s ≤
      ∑ i ∈ Finset.range s.weights.length, s.weights.getD i 0 *
        Spec.atStop (fun u => Spec.move cfg env (heur u) u)
          (fun u o => env.likelihood o (s.locs.getD i []) (heur u)) stop (g' i) n s := by
  rw [stopped_tower cfg env hg hst hp ht ht1 heur s hs, stopped_tower cfg env hg hst hp ht ht1 heur s hs]
  refine atStop_mono _ _ _ _ _ (fun u => WInv u ∧ u.locs = s.locs) (fun u o hu => ?_)
    (fun u o t hu ho => (move_inv cfg env hg hst hp ht ht1 heur s hs u o t hu ho).1)
    (fun u hu => h u hu.1 hu.2) n s ⟨hs, rfl⟩
  rw [evidence_range _ u hu.1]
  refine Finset.sum_nonneg fun i _ => mul_nonneg ?_ (hg.like_nonneg _ _ _)
  rcases lt_or_ge i u.weights.length with hi | hi
  · rw [List.getD_eq_getElem _ _ hi]; exact hu.1.1.1 _ (List.getElem_mem hi)
  · rw [List.getD_eq_default _ _ hi]

/-- **C120, error bars.**  Stop when you like, for instance as soon as the reported variance is small:
the mean squared error of `est_mean` at the stop, over truths and outcomes, equals the mean of the
variance reported at the stop. -/
theorem C120_error_bars (stop : Smc K O ω → Prop) (d k : Nat) (hk : k < d) (n : Nat) :
    ∑ i ∈ Finset.range s.weights.length, s.weights.getD i 0 *
        Spec.atStop (fun u => Spec.move cfg env (heur u) u)
          (fun u o => env.likelihood o (s.locs.getD i []) (heur u)) stop
          (fun u => ((smcMean d u.weights u.locs).getD k 0 - (s.locs.getD i []).getD k 0) ^ 2) n s =
      ∑ i ∈ Finset.range s.weights.length, s.weights.getD i 0 *
        Spec.atStop (fun u => Spec.move cfg env (heur u) u)
          (fun u o => env.likelihood o (s.locs.getD i []) (heur u)) stop
          (fun u => ((smcCov d u.weights u.locs).getD k []).getD k 0) n s := by
  have key : ∀ u : Smc K O ω, WInv u → u.locs = s.locs →
      ∑ i ∈ Finset.range s.weights.length, u.weights.getD i 0 *
        ((smcMean d u.weights u.locs).getD k 0 - (s.locs.getD i []).getD k 0) ^ 2 =
      ∑ i ∈ Finset.range s.weights.length, u.weights.getD i 0 *
        ((smcCov d u.weights u.locs).getD k []).getD k 0 := by
    intro u hu hl
    have hlen : s.weights.length = u.weights.length := by rw [← hs.2, ← hl, hu.2]
    have h1 : ∑ i ∈ Finset.range u.weights.length, u.weights.getD i 0 = 1 := by
      rw [← zip_map_sum (fun a (_ : List K) => a) _ _ 0 [] hu.2]
      have : (u.weights.zip u.locs).map (fun p => p.1) = u.weights := List.map_fst_zip (by rw [hu.2])
      rw [this, hu.1.2]
    rw [hlen, ← Finset.sum_mul, h1, one_mul, ← cloud_error u hu d k hk, hl]
  refine le_antisymm ?_ ?_
  · exact stopped_le cfg env hg hst hp ht ht1 heur s hs stop _ _ (fun u hu hl => (key u hu hl).le) n
  · exact stopped_le cfg env hg hst hp ht ht1 heur s hs stop _ _ (fun u hu hl => (key u hu hl).ge) n

open Classical in
/-- **C120, credible regions.**  At the stop, whatever the stopping rule, the credible region at a level
contains the truth with at least that probability over truths and outcomes. -/
theorem C120_coverage (stop : Smc K O ω → Prop) (sort : List K → List Nat)
    (hperm : ∀ w, (sort w).Perm (List.range w.length))
    (hsort : ∀ w, ((sort w).filterMap fun i => w[i]?).Pairwise (· ≥ ·))
    (level : K) (hl0 : 0 ≤ level) (hl1 : level < 1) (n : Nat) :
    level * ∑ i ∈ Finset.range s.weights.length, s.weights.getD i 0 *
        Spec.atStop (fun u => Spec.move cfg env (heur u) u)
          (fun u o => env.likelihood o (s.locs.getD i []) (heur u)) stop (fun _ => 1) n s ≤
      ∑ i ∈ Finset.range s.weights.length, s.weights.getD i 0 *
        Spec.atStop (fun u => Spec.move cfg env (heur u) u)
          (fun u o => env.likelihood o (s.locs.getD i []) (heur u)) stop
          (fun u => if ∃ inside outside, credRegion u.weights u.locs (sort u.weights) level =
            .ok (inside, outside) ∧ s.locs.getD i [] ∈ inside then 1 else 0) n s := by
  have e : level * ∑ i ∈ Finset.range s.weights.length, s.weights.getD i 0 *
        Spec.atStop (fun u => Spec.move cfg env (heur u) u)
          (fun u o => env.likelihood o (s.locs.getD i []) (heur u)) stop (fun _ => 1) n s =
      ∑ i ∈ Finset.range s.weights.length, s.weights.getD i 0 *
        Spec.atStop (fun u => Spec.move cfg env (heur u) u)
          (fun u o => env.likelihood o (s.locs.getD i []) (heur u)) stop (fun _ => level * 1) n s := by
    rw [Finset.mul_sum]
    refine Finset.sum_congr rfl fun i _ => ?_
    rw [atStop_smul, mul_left_comm]
  rw [e]
  refine stopped_le cfg env hg hst hp ht ht1 heur s hs stop _ _ (fun u hu hl => ?_) n
  have hlen : s.weights.length = u.weights.length := by rw [← hs.2, ← hl, hu.2]
  rw [hlen, ← hl, mul_one]
  exact credRegion_weight u hu sort hperm hsort level hl0 hl1

/-- **C120, the truth survives.**  Under the outcomes that particle `i` produces, the probability that its
weight *ever* falls to a fraction `δ` of its initial value, in any number of experiments chosen in any
way, is at most `δ`. -/
theorem C120_truth_survives (hL1 : ∀ x ∈ s.locs, ∀ e, ∑ o, env.likelihood o x e = 1) (i : Nat)
    (hi : 0 < s.weights.getD i 0) (δ : K) (hδ : 0 ≤ δ) (n : Nat) :
    Spec.chanceEver (fun u => Spec.move cfg env (heur u) u)
      (fun u o => env.likelihood o (s.locs.getD i []) (heur u))
      (fun u => u.weights.getD i 0 ≤ δ * s.weights.getD i 0) n s ≤ δ := by
  classical
  unfold Spec.chanceEver
  have hmain := atStop_le (fun u => Spec.move cfg env (heur u) u)
    (fun u o => env.likelihood o (s.locs.getD i []) (heur u))
    (fun u => u.weights.getD i 0 ≤ δ * s.weights.getD i 0)
    (fun u => Spec.indic (u.weights.getD i 0 ≤ δ * s.weights.getD i 0))
    (fun u => δ * s.weights.getD i 0 / u.weights.getD i 0)
    (fun u => (WInv u ∧ u.locs = s.locs) ∧ 0 < u.weights.getD i 0)
    (fun u o _ => hg.like_nonneg _ _ _) ?_ ?_ ?_ n s ⟨⟨hs, rfl⟩, hi⟩
  · rwa [mul_div_cancel_right₀ _ hi.ne'] at hmain
  · intro u o t hu h0 h
    refine ⟨(move_inv cfg env hg hst hp ht ht1 heur s hs u o t hu.1 h).1, ?_⟩
    obtain ⟨-, -, hev, -, h5⟩ := move_facts cfg env hg hst hp ht ht1 (heur u) u hu.1.1 o t h
    have h6 := h5 i
    rw [hu.1.2] at h6 hev
    have hpos : 0 < evidence env.likelihood u.weights s.locs o (heur u) * t.weights.getD i 0 := by
      rw [← h6]
      exact mul_pos hu.2 (lt_of_le_of_ne (hg.like_nonneg _ _ _) (Ne.symm h0))
    exact pos_of_mul_pos_right hpos (eps_pos.le.trans hev)
  · intro u hu
    by_cases h : u.weights.getD i 0 ≤ δ * s.weights.getD i 0
    · rwa [indic_pos h, le_div_iff₀ hu.2, one_mul]
    · rw [indic_neg h]; exact div_nonneg (mul_nonneg hδ hi.le) hu.2.le
  · intro u hu
    have htot : ∑ o, evidence env.likelihood u.weights u.locs o (heur u) = 1 := by
      simp_rw [evidence_range _ u hu.1.1]
      rw [Finset.sum_comm]
      have h1 : ∑ j ∈ Finset.range u.weights.length, u.weights.getD j 0 = 1 := by
        rw [← zip_map_sum (fun a (_ : List K) => a) _ _ 0 [] hu.1.1.2]
        have : (u.weights.zip u.locs).map (fun p => p.1) = u.weights :=
          List.map_fst_zip (by rw [hu.1.1.2])
        rw [this, hu.1.1.1.2]
      refine Eq.trans (Finset.sum_congr rfl fun j hj => ?_) h1
      rw [← Finset.mul_sum, hL1 _ ?_, mul_one]
      rw [← hu.1.2, List.getD_eq_getElem _ _ (by rw [hu.1.1.2]; exact Finset.mem_range.1 hj)]
      exact List.getElem_mem _
    calc ∑ o, env.likelihood o (s.locs.getD i []) (heur u) *
          (Spec.move cfg env (heur u) u o).elim 0 (fun t => δ * s.weights.getD i 0 / t.weights.getD i 0)
        ≤ ∑ o, δ * s.weights.getD i 0 / u.weights.getD i 0 *
            evidence env.likelihood u.weights u.locs o (heur u) := by
          refine Finset.sum_le_sum fun o _ => ?_
          have hevn : 0 ≤ evidence env.likelihood u.weights u.locs o (heur u) := by
            refine List.sum_nonneg fun x hx => ?_
            obtain ⟨q, hq, rfl⟩ := List.mem_map.1 hx
            exact mul_nonneg (hu.1.1.1.1 _ (List.of_mem_zip hq).1) (hg.like_nonneg _ _ _)
          have hc : 0 ≤ δ * s.weights.getD i 0 := mul_nonneg hδ hi.le
          have hr := mul_nonneg (div_nonneg hc hu.2.le) hevn
          rcases h : Spec.move cfg env (heur u) u o with _ | t
          · simpa using hr
          · obtain ⟨-, -, hev, -, h5⟩ := move_facts cfg env hg hst hp ht ht1 (heur u) u hu.1.1 o t h
            have h6 := h5 i
            rw [hu.1.2] at h6
            simp only [Option.elim_some]
            have hupos := hu.2
            by_cases ht0 : t.weights.getD i 0 = 0
            · rw [ht0, div_zero, mul_zero]; exact hr
            · refine le_of_eq ?_
              rw [hu.1.2]
              rw [mul_div_assoc', div_mul_eq_mul_div, div_eq_div_iff ht0 hupos.ne']
              linear_combination δ * s.weights.getD i 0 * h6
      _ = δ * s.weights.getD i 0 / u.weights.getD i 0 := by rw [← Finset.mul_sum, htot, mul_one]

/-- **C120, confidence sets.**  Keep the particles whose weight exceeds `δ` times its initial value.  With
resampling off and likelihoods that never fall below machine precision, the truth is among them *at all
times* with probability at least `1 - δ`. -/
theorem C120_confidence (hr : cfg.resampleThresh = 0)
    (hL : ∀ o, ∀ x ∈ s.locs, ∀ e, eps ≤ env.likelihood o x e)
    (hL1 : ∀ x ∈ s.locs, ∀ e, ∑ o, env.likelihood o x e = 1) (i : Nat)
    (hi : 0 < s.weights.getD i 0) (δ : K) (hδ : 0 ≤ δ) (n : Nat) :
    1 - δ ≤ Spec.chanceAlways (fun u => Spec.move cfg env (heur u) u)
      (fun u o => env.likelihood o (s.locs.getD i []) (heur u))
      (fun u => δ * s.weights.getD i 0 < u.weights.getD i 0) n s := by
  classical
  have hx : s.locs.getD i [] ∈ s.locs := by
    have hlt : i < s.weights.length := by
      by_contra h
      rw [List.getD_eq_default _ _ (not_lt.1 h)] at hi
      exact lt_irrefl _ hi
    rw [List.getD_eq_getElem _ _ (by rw [hs.2]; exact hlt)]
    exact List.getElem_mem _
  have h1 := atStop_one (fun u => Spec.move cfg env (heur u) u)
    (fun u o => env.likelihood o (s.locs.getD i []) (heur u))
    (fun u => u.weights.getD i 0 ≤ δ * s.weights.getD i 0)
    (fun u => WInv u ∧ u.locs = s.locs) (fun u _ => hL1 _ hx _) (fun u o hu => by
      obtain ⟨t, h⟩ := move_some cfg env hg hst hp ht ht1 hr (heur u) u hu.1
        (by rw [hu.2]; exact hL) o
      exact ⟨t, h, (move_inv cfg env hg hst hp ht ht1 heur s hs u o t hu h).1⟩) n s ⟨hs, rfl⟩
  have h2 := C120_truth_survives cfg env hg hst hp ht ht1 heur s hs hL1 i hi δ hδ n
  unfold Spec.chanceEver at h2
  unfold Spec.chanceAlways
  have h3 := atStop_add (fun u => Spec.move cfg env (heur u) u)
    (fun u o => env.likelihood o (s.locs.getD i []) (heur u))
    (fun u => u.weights.getD i 0 ≤ δ * s.weights.getD i 0)
    (fun u => Spec.indic (u.weights.getD i 0 ≤ δ * s.weights.getD i 0))
    (fun u => Spec.indic (δ * s.weights.getD i 0 < u.weights.getD i 0)) n s
  have h4 : (fun u : Smc K O ω => (Spec.indic (u.weights.getD i 0 ≤ δ * s.weights.getD i 0) : K) +
      Spec.indic (δ * s.weights.getD i 0 < u.weights.getD i 0)) = fun _ => 1 := by
    funext u
    rcases le_or_gt (u.weights.getD i 0) (δ * s.weights.getD i 0) with h | h
    · rw [indic_pos h, indic_neg (not_lt.2 h), add_zero]
    · rw [indic_neg (not_le.2 h), indic_pos h, zero_add]
  rw [h4, h1] at h3
  have h5 : (fun u : Smc K O ω => ¬ δ * s.weights.getD i 0 < u.weights.getD i 0) =
      fun u => u.weights.getD i 0 ≤ δ * s.weights.getD i 0 := by
    funext u; exact propext not_lt
  rw [h5]
  linarith

end

/-- Total predicted probability. -/
theorem evidence_total [Fintype O] (env : Env K O E ω) (u : Smc K O ω) (hu : WInv u) (e : E)
    (hL1 : ∀ x ∈ u.locs, ∑ o, env.likelihood o x e = 1) :
    ∑ o, evidence env.likelihood u.weights u.locs o e = 1 := by
  simp_rw [evidence_range _ u hu]
  rw [Finset.sum_comm]
  have h1 : ∑ j ∈ Finset.range u.weights.length, u.weights.getD j 0 = 1 := by
    rw [← zip_map_sum (fun a (_ : List K) => a) _ _ 0 [] hu.2]
    have : (u.weights.zip u.locs).map (fun p => p.1) = u.weights := List.map_fst_zip (by rw [hu.2])
    rw [this, hu.1.2]
  refine Eq.trans (Finset.sum_congr rfl fun j hj => ?_) h1
  rw [← Finset.mul_sum, hL1 _ ?_, mul_one]
  rw [List.getD_eq_getElem _ _ (by rw [hu.2]; exact Finset.mem_range.1 hj)]
  exact List.getElem_mem _

theorem evidence_nonneg' (env : Env K O E ω) (hg : GoodEnv env) (u : Smc K O ω) (hu : WInv u) (o : O)
    (e : E) : 0 ≤ evidence env.likelihood u.weights u.locs o e := by
  refine List.sum_nonneg fun x hx => ?_
  obtain ⟨q, hq, rfl⟩ := List.mem_map.1 hx
  exact mul_nonneg (hu.1.1 _ (List.of_mem_zip hq).1) (hg.like_nonneg _ _ _)

/-- **C120, comparing models.**  Two updaters for two models watch the same experiments, which may be
chosen by looking at both.  If the first model is the right one (the truth is drawn from the first
cloud), the probability that the product of the second updater's `normalization_record` *ever* reaches
`c` times that of the first is at most `1 / c`. -/
theorem C120_model_comparison [Fintype O] (cfg cfg' : SmcConfig K) (env : Env K O E ω)
    (env' : Env K O E ω') (hg : GoodEnv env) (hg' : GoodEnv env') (hst : Static env)
    (hst' : Static env') (hp : cfg.policy = "error") (hp' : cfg'.policy = "error")
    (ht : eps ≤ cfg.zeroThresh) (ht' : eps ≤ cfg'.zeroThresh) (ht1 : cfg.zeroThresh < 1)
    (ht1' : cfg'.zeroThresh < 1) (heur : Smc K O ω × Smc K O ω' → E) (s : Smc K O ω)
    (s' : Smc K O ω') (hs : WInv s) (hs' : WInv s') (hn : s.normRecord = []) (hn' : s'.normRecord = [])
    (hL1 : ∀ x ∈ s'.locs, ∀ e, ∑ o, env'.likelihood o x e = 1) (c : K) (hc : 0 < c) (n : Nat) :
    ∑ i ∈ Finset.range s.weights.length, s.weights.getD i 0 *
      Spec.chanceEver (fun u => Spec.moveBoth cfg env cfg' env' (heur u) u)
        (fun u o => env.likelihood o (s.locs.getD i []) (heur u))
        (fun u => c * u.1.normRecord.prod ≤ u.2.normRecord.prod) n (s, s') ≤ 1 / c := by
  classical
  let Inv : Smc K O ω × Smc K O ω' → Prop := fun u =>
    ((WInv u.1 ∧ u.1.locs = s.locs) ∧ WInv u.2 ∧ u.2.locs = s'.locs) ∧
      0 < u.1.normRecord.prod ∧ 0 < u.2.normRecord.prod
  have hmove : ∀ u o t, Inv u → Spec.moveBoth cfg env cfg' env' (heur u) u o = some t →
      Spec.move cfg env (heur u) u.1 o = some t.1 ∧ Spec.move cfg' env' (heur u) u.2 o = some t.2 := by
    intro u o t _ h
    unfold Spec.moveBoth at h
    rcases h1 : Spec.move cfg env (heur u) u.1 o with _ | a
    · simp [h1] at h
    · rcases h2 : Spec.move cfg' env' (heur u) u.2 o with _ | b
      · simp [h1, h2] at h
      · simp only [h1, h2, Option.bind_some, Option.map_some, Option.some.injEq] at h
        subst h
        exact ⟨rfl, rfl⟩
  have hstep : ∀ u o t, Inv u → Spec.moveBoth cfg env cfg' env' (heur u) u o = some t → Inv t ∧
      (∀ i ∈ Finset.range s.weights.length,
        u.1.weights.getD i 0 * env.likelihood o (s.locs.getD i []) (heur u) =
          evidence env.likelihood u.1.weights u.1.locs o (heur u) * t.1.weights.getD i 0) ∧
      0 < evidence env.likelihood u.1.weights u.1.locs o (heur u) ∧
      t.1.normRecord.prod = u.1.normRecord.prod *
        evidence env.likelihood u.1.weights u.1.locs o (heur u) ∧
      t.2.normRecord.prod = u.2.normRecord.prod *
        evidence env'.likelihood u.2.weights u.2.locs o (heur u) := by
    intro u o t hu h
    obtain ⟨m1, m2⟩ := hmove u o t hu h
    obtain ⟨a1, a2, a3, a4, a5⟩ := move_facts cfg env hg hst hp ht ht1 (heur u) u.1 hu.1.1.1 o t.1 m1
    obtain ⟨b1, b2, b3, b4, b5⟩ :=
      move_facts cfg' env' hg' hst' hp' ht' ht1' (heur u) u.2 hu.1.2.1 o t.2 m2
    have e1 : t.1.normRecord.prod = u.1.normRecord.prod *
        evidence env.likelihood u.1.weights u.1.locs o (heur u) := by rw [a4]; simp
    have e2 : t.2.normRecord.prod = u.2.normRecord.prod *
        evidence env'.likelihood u.2.weights u.2.locs o (heur u) := by rw [b4]; simp
    have p1 := lt_of_lt_of_le eps_pos a3
    have p2 := lt_of_lt_of_le eps_pos b3
    refine ⟨⟨⟨⟨a1, a2.trans hu.1.1.2⟩, b1, b2.trans hu.1.2.2⟩, ?_, ?_⟩, fun i _ => ?_, p1, e1, e2⟩
    · rw [e1]; exact mul_pos hu.2.1 p1
    · rw [e2]; exact mul_pos hu.2.2 p2
    · rw [← a5 i, hu.1.1.2]
  have hI0 : Inv (s, s') := ⟨⟨⟨hs, rfl⟩, hs', rfl⟩, by simp [hn], by simp [hn']⟩
  unfold Spec.chanceEver
  rw [atStop_tower (fun u => Spec.moveBoth cfg env cfg' env' (heur u) u)
    (fun u => c * u.1.normRecord.prod ≤ u.2.normRecord.prod) (Finset.range s.weights.length)
    (fun u i => u.1.weights.getD i 0) (fun i u o => env.likelihood o (s.locs.getD i []) (heur u))
    (fun u o => evidence env.likelihood u.1.weights u.1.locs o (heur u)) Inv
    (fun u o t hu h => ⟨(hstep u o t hu h).1, (hstep u o t hu h).2.1⟩)
    (fun _ u => Spec.indic (c * u.1.normRecord.prod ≤ u.2.normRecord.prod)) n (s, s') hI0]
  have hmain := atStop_le (fun u => Spec.moveBoth cfg env cfg' env' (heur u) u)
    (fun u o => evidence env.likelihood u.1.weights u.1.locs o (heur u))
    (fun u => c * u.1.normRecord.prod ≤ u.2.normRecord.prod)
    (fun u => ∑ i ∈ Finset.range s.weights.length, u.1.weights.getD i 0 *
      Spec.indic (c * u.1.normRecord.prod ≤ u.2.normRecord.prod))
    (fun u => u.2.normRecord.prod / (c * u.1.normRecord.prod)) Inv
    (fun u o hu => evidence_nonneg' env hg u.1 hu.1.1.1 o _)
    (fun u o t hu _ h => (hstep u o t hu h).1) ?_ ?_ n (s, s') hI0
  · refine hmain.trans (le_of_eq ?_)
    simp [hn, hn']
  · intro u hu
    have hlen : s.weights.length = u.1.weights.length := by
      rw [← hs.2, ← hu.1.1.2, hu.1.1.1.2]
    have h1 : ∑ j ∈ Finset.range u.1.weights.length, u.1.weights.getD j 0 = 1 := by
      rw [← zip_map_sum (fun a (_ : List K) => a) _ _ 0 [] hu.1.1.1.2]
      have : (u.1.weights.zip u.1.locs).map (fun p => p.1) = u.1.weights :=
        List.map_fst_zip (by rw [hu.1.1.1.2])
      rw [this, hu.1.1.1.1.2]
    rw [← Finset.sum_mul, hlen, h1, one_mul]
    have hd := mul_pos hc hu.2.1
    by_cases h : c * u.1.normRecord.prod ≤ u.2.normRecord.prod
    · rwa [indic_pos h, le_div_iff₀ hd, one_mul]
    · rw [indic_neg h]; exact div_nonneg hu.2.2.le hd.le
  · intro u hu
    have hd := mul_pos hc hu.2.1
    have htot := evidence_total env' u.2 hu.1.2.1 (heur u)
      (by rw [hu.1.2.2]; exact fun x hx => hL1 x hx _)
    calc ∑ o, evidence env.likelihood u.1.weights u.1.locs o (heur u) *
          (Spec.moveBoth cfg env cfg' env' (heur u) u o).elim 0
            (fun t => t.2.normRecord.prod / (c * t.1.normRecord.prod))
        ≤ ∑ o, u.2.normRecord.prod / (c * u.1.normRecord.prod) *
            evidence env'.likelihood u.2.weights u.2.locs o (heur u) := by
          refine Finset.sum_le_sum fun o _ => ?_
          rcases h : Spec.moveBoth cfg env cfg' env' (heur u) u o with _ | t
          · simpa using mul_nonneg (div_nonneg hu.2.2.le hd.le)
              (evidence_nonneg' env' hg' u.2 hu.1.2.1 o (heur u))
          · obtain ⟨-, -, h3, h4, h5⟩ := hstep u o t hu h
            simp only [Option.elim_some]
            rw [h4, h5]
            refine le_of_eq ?_
            have := hu.2.1.ne'
            have := h3.ne'
            have := hc.ne'
            field_simp
      _ = u.2.normRecord.prod / (c * u.1.normRecord.prod) := by
          rw [← Finset.mul_sum, htot, mul_one]

theorem moveBoth_some (cfg cfg' : SmcConfig K) (env : Env K O E ω) (env' : Env K O E ω') (e : E)
    (u t : Smc K O ω × Smc K O ω') (o : O) (h : Spec.moveBoth cfg env cfg' env' e u o = some t) :
    Spec.move cfg env e u.1 o = some t.1 ∧ Spec.move cfg' env' e u.2 o = some t.2 := by
  unfold Spec.moveBoth at h
  rcases h1 : Spec.move cfg env e u.1 o with _ | a
  · simp [h1] at h
  · rcases h2 : Spec.move cfg' env' e u.2 o with _ | b
    · simp [h1, h2] at h
    · simp only [h1, h2, Option.bind_some, Option.map_some, Option.some.injEq] at h
      subst h
      exact ⟨rfl, rfl⟩

theorem log_prod_of_pos (l : List ℝ) (h : ∀ x ∈ l, 0 < x) : (l.map Real.log).sum = Real.log l.prod := by
  induction l with
  | nil => simp
  | cons a l ih =>
    have hl : ∀ x ∈ l, 0 < x := fun x hx => h x (by simp [hx])
    rw [List.map_cons, List.sum_cons, List.prod_cons, ih hl,
      Real.log_mul (h a (by simp)).ne' (List.prod_pos hl).ne']

/-- **C120, comparing models by `log_total_likelihood`.**  If the first model is the right one, the
probability that the `log_total_likelihood` of the second ever exceeds that of the first by `c` is at most
`exp (-c)`. -/
theorem C120_log_total_likelihood [Fintype O] (cfg cfg' : SmcConfig ℝ) (env : Env ℝ O E ω)
    (env' : Env ℝ O E ω') (hg : GoodEnv env) (hg' : GoodEnv env') (hst : Static env)
    (hst' : Static env') (hp : cfg.policy = "error") (hp' : cfg'.policy = "error")
    (ht : eps ≤ cfg.zeroThresh) (ht' : eps ≤ cfg'.zeroThresh) (ht1 : cfg.zeroThresh < 1)
    (ht1' : cfg'.zeroThresh < 1) (heur : Smc ℝ O ω × Smc ℝ O ω' → E) (s : Smc ℝ O ω)
    (s' : Smc ℝ O ω') (hs : WInv s) (hs' : WInv s') (hn : s.normRecord = []) (hn' : s'.normRecord = [])
    (hL1 : ∀ x ∈ s'.locs, ∀ e, ∑ o, env'.likelihood o x e = 1) (c : ℝ) (n : Nat) :
    ∑ i ∈ Finset.range s.weights.length, s.weights.getD i 0 *
      Spec.chanceEver (fun u => Spec.moveBoth cfg env cfg' env' (heur u) u)
        (fun u o => env.likelihood o (s.locs.getD i []) (heur u))
        (fun u => c ≤ logTotalLikelihood u.2 - logTotalLikelihood u.1) n (s, s') ≤ Real.exp (-c) := by
  have h := C120_model_comparison cfg cfg' env env' hg hg' hst hst' hp hp' ht ht' ht1 ht1' heur s s' hs
    hs' hn hn' hL1 (Real.exp c) (Real.exp_pos c) n
  rw [one_div, ← Real.exp_neg] at h
  refine le_trans (le_of_eq (Finset.sum_congr rfl fun i _ => ?_)) h
  congr 1
  refine chanceEver_congr _ _ _ _ (fun u => (WInv u.1 ∧ WInv u.2) ∧
    (∀ x ∈ u.1.normRecord, 0 < x) ∧ ∀ x ∈ u.2.normRecord, 0 < x) ?_ ?_ n (s, s')
    ⟨⟨hs, hs'⟩, by simp [hn], by simp [hn']⟩
  · intro u hu
    unfold logTotalLikelihood
    have h1 := List.prod_pos hu.2.1
    have h2 := List.prod_pos hu.2.2
    rw [log_prod_of_pos _ hu.2.1, log_prod_of_pos _ hu.2.2, le_sub_iff_add_le,
      ← Real.log_exp c, ← Real.log_mul (Real.exp_pos c).ne' h1.ne',
      Real.log_le_log_iff (mul_pos (Real.exp_pos _) h1) h2, Real.log_exp]
  · intro u o t hu h
    obtain ⟨m1, m2⟩ := moveBoth_some cfg cfg' env env' (heur u) u t o h
    obtain ⟨a1, -, a3, a4, -⟩ := move_facts cfg env hg hst hp ht ht1 (heur u) u.1 hu.1.1 o t.1 m1
    obtain ⟨b1, -, b3, b4, -⟩ := move_facts cfg' env' hg' hst' hp' ht' ht1' (heur u) u.2 hu.1.2 o t.2 m2
    refine ⟨⟨a1, b1⟩, fun x hx => ?_, fun x hx => ?_⟩
    · rw [a4, List.mem_append, List.mem_singleton] at hx
      rcases hx with hx | rfl
      · exact hu.2.1 x hx
      · exact lt_of_lt_of_le eps_pos a3
    · rw [b4, List.mem_append, List.mem_singleton] at hx
      rcases hx with hx | rfl
      · exact hu.2.2 x hx
      · exact lt_of_lt_of_le eps_pos b3

/-- Case for `C120_confidence`: the two coins of C91.  With probability 95% the weight of the biased coin,
initially a half, never falls to a fortieth. -/
example (n : Nat) : 1 - 1 / 20 ≤ Spec.chanceAlways
    (fun u => Spec.move ⟨0, "error", eps, false⟩ twoCoins () u)
    (fun _ o => twoCoins.likelihood o [1 / 4] ())
    (fun u => 1 / 20 * twoCoinsStart.weights.getD 0 0 < u.weights.getD 0 0) n twoCoinsStart :=
  C120_confidence ⟨0, "error", eps, false⟩ twoCoins twoCoins_good (fun _ _ _ => rfl) rfl le_rfl
    (lt_of_le_of_lt eps_real_le (by norm_num)) (fun _ => ()) twoCoinsStart twoCoinsStart_winv rfl
    (fun o x _ e => twoCoins_eps o x e) (fun x _ e => twoCoins_sum x e) 0
    (by simp [twoCoinsStart]) (1 / 20) (by norm_num) n

/-- Case for `C120_model_comparison`: the same cloud under a model in which both coins are fair. -/
example (n : Nat) : ∑ i ∈ Finset.range 2, twoCoinsStart.weights.getD i 0 *
    Spec.chanceEver (fun u => Spec.moveBoth ⟨0, "error", eps, false⟩ twoCoins
        ⟨0, "error", eps, false⟩ { twoCoins with likelihood := fun _ _ _ => 1 / 2 } () u)
      (fun _ o => twoCoins.likelihood o (twoCoinsStart.locs.getD i []) ())
      (fun u => 100 * u.1.normRecord.prod ≤ u.2.normRecord.prod) n (twoCoinsStart, twoCoinsStart) ≤
    1 / 100 :=
  C120_model_comparison ⟨0, "error", eps, false⟩ ⟨0, "error", eps, false⟩ twoCoins
    { twoCoins with likelihood := fun _ _ _ => 1 / 2 } twoCoins_good
    ⟨fun _ _ _ => by norm_num, twoCoins_good.prior_len, twoCoins_good.canon_len,
      twoCoins_good.timestep_len, twoCoins_good.resampler_ok⟩
    (fun _ _ _ => rfl) (fun _ _ _ => rfl) rfl rfl le_rfl le_rfl
    (lt_of_le_of_lt eps_real_le (by norm_num)) (lt_of_le_of_lt eps_real_le (by norm_num)) (fun _ => ())
    twoCoinsStart twoCoinsStart twoCoinsStart_winv twoCoinsStart_winv rfl rfl
    (fun _ _ _ => by simp) 100 (by norm_num) n

end QInfer
