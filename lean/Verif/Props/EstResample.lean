import Verif.Props.SimpleEstPrec

/-!
# C82: when the simplified estimation functions resample
-/

set_option linter.unusedSectionVars false

namespace QInfer

open Spec

section
variable {K O E ω : Type*} [Field K] [LinearOrder K] [IsStrictOrderedRing K]

/-- Sum of the squares of the unnormalised posterior weights. -/
def Spec.evidenceSq (like : O → List K → E → K) (w : List K) (locs : List (List K))
    (ds : List (O × E)) : K :=
  ((w.zip locs).map fun p => (p.1 * dataLike like ds p.2) ^ 2).sum

theorem zip_map_zip (w : List K) (locs : List (List K)) (f : K × List K → K) (g : K × List K → K) :
    (((w.zip locs).map f).zip locs).map g = (w.zip locs).map fun p => g (f p, p.2) := by
  induction w generalizing locs with
  | nil => simp
  | cons a w ih =>
    rcases locs with _ | ⟨x, locs⟩
    · simp
    · simp [ih]

theorem evidenceSq_cons (like : O → List K → E → K) (w : List K) (locs : List (List K))
    (d : O × E) (ds : List (O × E)) :
    evidenceSq like (posterior like w locs d.1 d.2) locs ds =
      evidenceSq like w locs (d :: ds) / evidence like w locs d.1 d.2 ^ 2 := by
  unfold evidenceSq posterior
  rw [zip_map_zip, ← sum_map_div, List.map_map]
  congr 1
  apply List.map_congr_left
  intro p _
  simp only [dataLike, List.map_cons, List.prod_cons, Function.comp]
  ring

/-- Feeding data with checks: no resampling happens exactly if the effective sample size of the
posterior after each of the data, computed from the initial cloud, is at least the threshold. -/
theorem feed_count_iff (cfg : SmcConfig K) (env : Env K O E ω) (hg : GoodEnv env) (hst : Static env)
    (hp : cfg.policy = "error") (ht : eps ≤ cfg.zeroThresh) (ht1 : cfg.zeroThresh < 1)
    (ds : List (O × E)) (s : Smc K O ω) (hs : WInv s) (hok : (feed cfg env true ds s).2 = .ok ()) :
    (feed cfg env true ds s).1.resampleCount = s.resampleCount ↔
      ∀ k, 0 < k → k ≤ ds.length → (s.locs.length : K) * cfg.resampleThresh *
        evidenceSq env.likelihood s.weights s.locs (ds.take k) ≤
        dataEvidence env.likelihood s.weights s.locs (ds.take k) ^ 2 := by
  induction ds generalizing s with
  | nil => exact ⟨fun _ k h0 h => absurd h (by simp; omega), fun _ => rfl⟩
  | cons d ds ih =>
    have hw := update_winv cfg env hg (Or.inl hp) ht s hs d.1 d.2 true
    rcases heq : update cfg env s d.1 d.2 true with ⟨t, err | ⟨⟨⟩⟩⟩
    · simp [feed, heq] at hok
    have hfeed : feed cfg env true (d :: ds) s = feed cfg env true ds t := by simp [feed, heq]
    rw [heq] at hw
    rw [hfeed] at hok ⊢
    have hmono := (feed_checked cfg env hg hst hp ht ht1 ds t hw hok).2.1
    have hf : (update cfg env s d.1 d.2 false).2 = .ok () := by
      rcases update_split cfg env s d.1 d.2 with ⟨-, h⟩ | ⟨h, h'⟩
      · exact h
      · rw [← h, heq]
    have hev := datum_error_ok cfg env hg hp ht s hs.2 hs.1.1 d.1 d.2 hf
    have hpos := lt_of_lt_of_le eps_pos hev
    have h8 := C08_resample_iff cfg env hg ht1 s hs.2 hs.1.1 d.1 d.2 true hev
    rw [heq] at h8
    dsimp only at h8
    have hsq : ∀ l : List (O × E), (s.locs.length : K) * cfg.resampleThresh *
          evidenceSq env.likelihood (posterior env.likelihood s.weights s.locs d.1 d.2) s.locs l ≤
          dataEvidence env.likelihood (posterior env.likelihood s.weights s.locs d.1 d.2) s.locs l ^ 2 ↔
        (s.locs.length : K) * cfg.resampleThresh *
          evidenceSq env.likelihood s.weights s.locs (d :: l) ≤
          dataEvidence env.likelihood s.weights s.locs (d :: l) ^ 2 := by
      intro l
      rw [evidenceSq_cons, dataEvidence_cons, div_pow, mul_div_assoc',
        div_le_div_iff_of_pos_right (by positivity)]
    have hsum := posterior_sum env.likelihood s.weights s.locs d.1 d.2 hpos.ne'
    have hp1 : 0 < ((posterior env.likelihood s.weights s.locs d.1 d.2).map fun x => x ^ 2).sum :=
      sq_sum_pos _ hsum
    have hlen : (posterior env.likelihood s.weights s.locs d.1 d.2).length = s.locs.length :=
      (posterior_length env.likelihood s.weights s.locs d.1 d.2 hs.2).trans hs.2.symm
    have h1 : evidenceSq env.likelihood (posterior env.likelihood s.weights s.locs d.1 d.2) s.locs [] =
        ((posterior env.likelihood s.weights s.locs d.1 d.2).map fun x => x ^ 2).sum := by
      simp only [evidenceSq, dataLike, List.map_nil, List.prod_nil, mul_one]
      conv_rhs => rw [← List.map_fst_zip (l₁ := posterior env.likelihood s.weights s.locs d.1 d.2)
        (l₂ := s.locs) hlen.le, List.map_map]
      rfl
    have h2 : dataEvidence env.likelihood (posterior env.likelihood s.weights s.locs d.1 d.2) s.locs [] =
        1 := by
      simp only [dataEvidence, dataLike, List.map_nil, List.prod_nil, mul_one]
      rw [← hsum]
      conv_rhs => rw [← List.map_fst_zip (l₁ := posterior env.likelihood s.weights s.locs d.1 d.2)
        (l₂ := s.locs) hlen.le]
    have hfirst := hsq []
    rw [h1, h2, one_pow, ← le_div_iff₀ hp1] at hfirst
    by_cases hlow : 1 / ((posterior env.likelihood s.weights s.locs d.1 d.2).map fun x => x ^ 2).sum <
        (s.locs.length : K) * cfg.resampleThresh
    · have h := (h8.1 ⟨rfl, hlow⟩).1
      refine ⟨fun h' => by omega, fun h' => ?_⟩
      have := h' 1 one_pos (by simp)
      rw [List.take_succ_cons, List.take_zero, ← hfirst] at this
      exact absurd hlow (not_lt.2 this)
    · obtain ⟨hc, -, hpw⟩ := h8.2 (fun h => hlow h.2)
      have hpl : t.locs = s.locs := by
        have hd : feed cfg env true [d] s = (t, .ok ()) := by simp [feed, heq]
        have := (feed_checked cfg env hg hst hp ht ht1 [d] s hs (by rw [hd])).2.2
        rw [hd] at this
        exact (this hc).2
      have := ih t hw hok
      rw [← hc, this, hpw, hpl]
      constructor
      · intro h k h0 hk
        obtain ⟨k, rfl⟩ : ∃ j, k = j + 1 := ⟨k - 1, by omega⟩
        rw [List.take_succ_cons, ← hsq]
        rcases Nat.eq_zero_or_pos k with rfl | hk0
        · rw [List.take_zero, hsq, ← hfirst]; exact not_lt.1 hlow
        · exact h k hk0 (by simpa using hk)
      · intro h k h0 hk
        have := h (k + 1) (by omega) (by simpa using hk)
        rwa [List.take_succ_cons, ← hsq] at this

/-- Feeding data with checks succeeds without resampling if no datum is next to impossible given the
data before it, and the effective sample size stays above the threshold. -/
theorem feed_succeeds (cfg : SmcConfig K) (env : Env K O E ω) (hg : GoodEnv env) (hst : Static env)
    (ht1 : cfg.zeroThresh < 1)
    (ds : List (O × E)) (s : Smc K O ω) (hs : WInv s)
    (hpos : ∀ k < ds.length, 0 < dataEvidence env.likelihood s.weights s.locs (ds.take k) ∧
      eps * dataEvidence env.likelihood s.weights s.locs (ds.take k) ≤
        dataEvidence env.likelihood s.weights s.locs (ds.take (k + 1)))
    (hess : ∀ k, 0 < k → k ≤ ds.length → (s.locs.length : K) * cfg.resampleThresh *
        evidenceSq env.likelihood s.weights s.locs (ds.take k) ≤
        dataEvidence env.likelihood s.weights s.locs (ds.take k) ^ 2) :
    (feed cfg env true ds s).2 = .ok () ∧
    (feed cfg env true ds s).1.resampleCount = s.resampleCount := by
  induction ds generalizing s with
  | nil => exact ⟨rfl, rfl⟩
  | cons d ds ih =>
    have hev0 : dataEvidence env.likelihood s.weights s.locs [] = 1 := by
      simp only [dataEvidence, dataLike, List.map_nil, List.prod_nil, mul_one]
      rw [← hs.1.2]
      conv_rhs => rw [← List.map_fst_zip (l₁ := s.weights) (l₂ := s.locs) hs.2.ge]
    have hev1 : ∀ d : O × E, dataEvidence env.likelihood s.weights s.locs [d] =
        evidence env.likelihood s.weights s.locs d.1 d.2 := by
      intro d
      simp only [dataEvidence, dataLike, List.map_cons, List.map_nil, List.prod_cons, List.prod_nil, mul_one]
      rfl
    have hev : eps ≤ evidence env.likelihood s.weights s.locs d.1 d.2 := by
      have := (hpos 0 (by simp)).2
      rwa [List.take_zero, hev0, mul_one, List.take_succ_cons, List.take_zero, hev1] at this
    have hpos1 := lt_of_lt_of_le eps_pos hev
    have hsum := posterior_sum env.likelihood s.weights s.locs d.1 d.2 hpos1.ne'
    have hp1 : 0 < ((posterior env.likelihood s.weights s.locs d.1 d.2).map fun x => x ^ 2).sum :=
      sq_sum_pos _ hsum
    have hlen : (posterior env.likelihood s.weights s.locs d.1 d.2).length = s.locs.length :=
      (posterior_length env.likelihood s.weights s.locs d.1 d.2 hs.2).trans hs.2.symm
    have h1 : evidenceSq env.likelihood s.weights s.locs [d] =
        ((posterior env.likelihood s.weights s.locs d.1 d.2).map fun x => x ^ 2).sum *
          evidence env.likelihood s.weights s.locs d.1 d.2 ^ 2 := by
      have := evidenceSq_cons env.likelihood s.weights s.locs d []
      rw [eq_div_iff (by positivity)] at this
      rw [← this]
      congr 1
      simp only [evidenceSq, dataLike, List.map_nil, List.prod_nil, mul_one]
      conv_rhs => rw [← List.map_fst_zip (l₁ := posterior env.likelihood s.weights s.locs d.1 d.2)
        (l₂ := s.locs) hlen.le, List.map_map]
      rfl
    have hnlow : ¬ (true = true ∧
        1 / ((posterior env.likelihood s.weights s.locs d.1 d.2).map fun x => x ^ 2).sum <
        (s.locs.length : K) * cfg.resampleThresh) := by
      rintro ⟨-, hlow⟩
      have := hess 1 one_pos (by simp)
      rw [List.take_succ_cons, List.take_zero, h1, hev1, ← mul_assoc] at this
      have h2 := (mul_le_iff_le_one_left
        (by positivity : 0 < evidence env.likelihood s.weights s.locs d.1 d.2 ^ 2)).1 this
      rw [← le_div_iff₀ hp1] at h2
      exact absurd hlow (not_lt.2 h2)
    obtain ⟨hc, -, hpw⟩ := (C08_resample_iff cfg env hg ht1 s hs.2 hs.1.1 d.1 d.2 true hev).2 hnlow
    have hup := update_normal cfg env s d.1 d.2 true hs.2 hs.1.1 (fun x => hg.like_nonneg d.1 x d.2) ht1 hev
    have hup' := update_normal cfg env s d.1 d.2 false hs.2 hs.1.1 (fun x => hg.like_nonneg d.1 x d.2) ht1
      hev
    rw [finishUpdate_true cfg env (recordDatum s d.1) _ _ _
      (posterior_length env.likelihood s.weights s.locs d.1 d.2 hs.2), ← hup'] at hup
    obtain ⟨-, -, hd3, -, -, -, hd7, -⟩ := datum_normal cfg env s d.1 d.2 hs.2 hs.1.1
      (fun x => hg.like_nonneg d.1 x d.2) ht1 hev
    rw [hst] at hd3
    have hm := maybeResample_count cfg env (update cfg env s d.1 d.2 false).1
    dsimp only at hm
    rw [← hup] at hm
    rcases hm with ⟨-, hm, -⟩ | ⟨-, -, -, -, hml, -, hok⟩
    · rw [hc, hd7] at hm; omega
    rcases heq : update cfg env s d.1 d.2 true with ⟨t, res⟩
    rw [heq] at hc hpw hml hok
    dsimp only at hc hpw hml hok
    subst hok
    rw [hd3] at hml
    have hfeed : feed cfg env true (d :: ds) s = feed cfg env true ds t := by simp [feed, heq]
    rw [hfeed, ← hc]
    have hE : ∀ l, dataEvidence env.likelihood t.weights t.locs l =
        dataEvidence env.likelihood s.weights s.locs (d :: l) /
          evidence env.likelihood s.weights s.locs d.1 d.2 := by
      intro l; rw [hpw, hml, dataEvidence_cons]
    have hQ : ∀ l, evidenceSq env.likelihood t.weights t.locs l =
        evidenceSq env.likelihood s.weights s.locs (d :: l) /
          evidence env.likelihood s.weights s.locs d.1 d.2 ^ 2 := by
      intro l; rw [hpw, hml, evidenceSq_cons]
    refine ih t ?_ (fun k hk => ?_) (fun k h0 hk => ?_)
    · refine ⟨⟨?_, by rw [hpw]; exact hsum⟩, by rw [hpw, hml, hlen]⟩
      rw [hpw]
      intro x hx
      obtain ⟨q, hq, rfl⟩ := List.mem_map.1 hx
      exact div_nonneg (mul_nonneg (hs.1.1 _ (List.of_mem_zip hq).1) (hg.like_nonneg _ _ _)) hpos1.le
    · obtain ⟨a, b⟩ := hpos (k + 1) (by simpa using hk)
      rw [List.take_succ_cons] at a b
      rw [List.take_succ_cons] at b
      rw [hE, hE, mul_div_assoc']
      exact ⟨div_pos a hpos1, (div_le_div_iff_of_pos_right hpos1).2 b⟩
    · have := hess (k + 1) (by omega) (by simpa using hk)
      rw [List.take_succ_cons] at this
      rw [hE, hQ, div_pow, mul_div_assoc', div_le_div_iff_of_pos_right (by positivity), hml]
      exact this

end

variable {ω : Type}

/-- C82: `simple_est_prec` resamples at some point exactly if, after some number `k` of the rows, the
effective sample size `(∑ L)² / ∑ L²` of the likelihoods of the drawn frequencies has fallen below half
the number of particles.  So whether the formulas of `C82_precession_partial` apply can be computed from the
draws and the rows. -/
theorem C82_resampling_rule (world : EstWorld ω) (hw : GoodWorld world) (rows : List (Nat × ℝ × Nat))
    (freqMin freqMax : ℝ) (n : Nat) (hn : 0 < n) (seed : ω) (mean var : ℝ) (s : Smc ℝ ℤ ω)
    (h : simpleEstPrec world (.array ⟨.plain 3, .vec (precTable rows)⟩) freqMin freqMax n true seed =
      .ok (.scalar mean var (some s))) :
    0 < s.resampleCount ↔ ∃ k, 0 < k ∧ k ≤ rows.length ∧
      let L := (precDraws world freqMax n seed).map (precLike (rows.take k));
      2 * L.sum ^ 2 < n * (L.map fun x => x ^ 2).sum := by
  have hdata : simpleEstPrec world (.array ⟨.plain 3, .vec (precTable rows)⟩) freqMin freqMax n true seed =
      doUpdate defaultCfg (precEnv world freqMin freqMax) 1 n seed
        (.vec (rows.map fun r => (r.1 : ℤ))) (.vec (rows.map precExp)) true := by
    simp only [simpleEstPrec, loadData, bind, Except.bind, prec_data rows _ (Or.inl rfl)]
  rw [hdata] at h
  have hl : (rows.map precExp).length = (rows.map fun r => (r.1 : ℤ)).length := by simp
  have hg := prec_good world hw freqMin freqMax
  obtain ⟨s', hf, -, h2, -⟩ := C82_estimates_are_posterior defaultCfg (precEnv world freqMin freqMax)
    hg (prec_static world _ _) rfl default_thresh.1 default_thresh.2 1 n hn seed _ _ hl true _ h
  simp only [EstRet.extra, if_true, Option.some.injEq] at h2
  subst h2
  have hs0 := construct_winv defaultCfg (precEnv world freqMin freqMax) hg n hn false seed
  have key := feed_count_iff defaultCfg (precEnv world freqMin freqMax) hg (prec_static world _ _) rfl
    default_thresh.1 default_thresh.2 _ _ hs0 (by rw [hf])
  rw [hf, show (construct defaultCfg (precEnv world freqMin freqMax) n false seed).1.resampleCount = 0
    from rfl] at key
  have hlocs := prec_locs world hw freqMin freqMax n seed
  have hwts : (construct defaultCfg (precEnv world freqMin freqMax) n false seed).1.weights =
      List.replicate n (1 / (n : ℝ)) := rfl
  have hlen : (precDraws world freqMax n seed).length = n := by simp [precDraws, hw.uniform_len]
  have hn' : (0 : ℝ) < n := by exact_mod_cast hn
  rw [hlocs, hwts] at key
  have htake : ∀ k, ((rows.map fun r => (r.1 : ℤ)).zip (rows.map precExp)).take k =
      ((rows.take k).map fun r => (r.1 : ℤ)).zip ((rows.take k).map precExp) := fun k => by
    rw [List.zip_map', List.zip_map', List.map_take]
  have hzip : ∀ f : ℝ × List ℝ → ℝ, ((List.replicate n (1 / (n : ℝ))).zip
      ((precDraws world freqMax n seed).map fun x => [x])).map f =
      (precDraws world freqMax n seed).map fun x => f (1 / n, [x]) := by
    intro f
    have : List.replicate n (1 / (n : ℝ)) = (precDraws world freqMax n seed).map fun _ => 1 / (n : ℝ) := by
      rw [List.map_const', hlen]
    rw [this, List.zip_map', List.map_map]
    rfl
  have hE : ∀ k, dataEvidence (precEnv world freqMin freqMax).likelihood (List.replicate n (1 / (n : ℝ)))
      ((precDraws world freqMax n seed).map fun x => [x])
      (((rows.map fun r => (r.1 : ℤ)).zip (rows.map precExp)).take k) =
      1 / n * ((precDraws world freqMax n seed).map (precLike (rows.take k))).sum := by
    intro k
    rw [dataEvidence, hzip, htake, ← List.sum_map_mul_left]
    simp only [prec_dataLike, List.getD_cons_zero]
  have hQ : ∀ k, evidenceSq (precEnv world freqMin freqMax).likelihood (List.replicate n (1 / (n : ℝ)))
      ((precDraws world freqMax n seed).map fun x => [x])
      (((rows.map fun r => (r.1 : ℤ)).zip (rows.map precExp)).take k) =
      (1 / n) ^ 2 * (((precDraws world freqMax n seed).map (precLike (rows.take k))).map
        fun x => x ^ 2).sum := by
    intro k
    rw [evidenceSq, hzip, htake, List.map_map, ← List.sum_map_mul_left]
    simp only [prec_dataLike, List.getD_cons_zero, mul_pow, Function.comp]
  rw [Nat.pos_iff_ne_zero, Ne, key]
  push Not
  simp only [List.length_zip, List.length_map, min_self, hE, hQ, hlen]
  refine exists_congr fun k => and_congr_right fun _ => and_congr_right fun _ => ?_
  rw [show defaultCfg.resampleThresh = 1 / 2 from rfl, mul_pow]
  have e1 : ∀ q : ℝ, (n : ℝ) * (1 / 2) * ((1 / n) ^ 2 * q) = (1 / n) ^ 2 / 2 * (n * q) := fun q => by ring
  have e2 : ∀ q : ℝ, (1 / (n : ℝ)) ^ 2 * q = (1 / n) ^ 2 / 2 * (2 * q) := fun q => by ring
  rw [e1, e2]
  exact mul_lt_mul_iff_right₀ (by positivity)

/-- The hypotheses are met, with any number of particles. -/
example (n : Nat) (hn : 0 < n) : ∃ (mean var : ℝ) (s : Smc ℝ ℤ Unit),
    simpleEstPrec zeroWorld (.array ⟨.plain 3, .vec (precTable [(0, 1, 1)])⟩) 1 2 n true () =
      .ok (.scalar mean var (some s)) ∧ s.resampleCount = 0 := by
  obtain ⟨m, v, s, h1, -, h2⟩ := C82_below_freq_min 1 2 one_pos n hn
  exact ⟨m, v, s, h2, h1⟩

end QInfer
