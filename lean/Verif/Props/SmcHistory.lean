import Verif.Lemmas.SmcHistory
import Verif.Demo.Smc
import Mathlib.Analysis.SpecialFunctions.Log.Basic

/-!
# Properties of histories of the updater: C04, C05, C06, C08, C09, C10
-/

set_option linter.unusedSectionVars false
set_option linter.unusedSimpArgs false

namespace QInfer

open Demo

variable {K : Type*} {O E ω : Type*}
variable [Field K] [LinearOrder K] [IsStrictOrderedRing K]

/-! ## C04: the posterior does not depend on the order of the data -/

/-- **C04, closed form.**  For a static model under policy `error`, feeding a data set datum by datum
without resampling, if it raises nothing, leaves exactly the weights of one application of Bayes'
rule with the product of all likelihoods, and does not move the particles. -/
theorem C04_posterior_closed_form (cfg : SmcConfig K) (env : Env K O E ω) (hg : GoodEnv env)
    (hst : Static env) (hp : cfg.policy = "error") (ht : eps ≤ cfg.zeroThresh)
    (ht1 : cfg.zeroThresh < 1) (s : Smc K O ω) (hlen : s.locs.length = s.weights.length)
    (hprob : IsProb s.weights) (ds : List (O × E)) (hok : (feed cfg env false ds s).2 = .ok ()) :
    (feed cfg env false ds s).1.weights = dataPosterior env.likelihood s.weights s.locs ds ∧
    (feed cfg env false ds s).1.locs = s.locs := by
  obtain ⟨h1, h2, -⟩ := feed_closed cfg env hg hst hp ht ht1 ds s hlen hprob hok
  exact ⟨h1, h2⟩

/-- **C04.**  Two orders of the same data that are both accepted lead to the same weights and
locations. -/
theorem C04_order_independent (cfg : SmcConfig K) (env : Env K O E ω) (hg : GoodEnv env)
    (hst : Static env) (hp : cfg.policy = "error") (ht : eps ≤ cfg.zeroThresh)
    (ht1 : cfg.zeroThresh < 1) (s : Smc K O ω) (hlen : s.locs.length = s.weights.length)
    (hprob : IsProb s.weights) (ds ds' : List (O × E)) (hperm : ds.Perm ds')
    (hok : (feed cfg env false ds s).2 = .ok ()) (hok' : (feed cfg env false ds' s).2 = .ok ()) :
    (feed cfg env false ds s).1.weights = (feed cfg env false ds' s).1.weights ∧
    (feed cfg env false ds s).1.locs = (feed cfg env false ds' s).1.locs := by
  obtain ⟨h1, h2⟩ := C04_posterior_closed_form cfg env hg hst hp ht ht1 s hlen hprob ds hok
  obtain ⟨h3, h4⟩ := C04_posterior_closed_form cfg env hg hst hp ht ht1 s hlen hprob ds' hok'
  rw [h1, h2, h3, h4]
  exact ⟨dataPosterior_perm _ _ _ _ _ hperm, rfl⟩

/-- Case for C04. -/
example : Static coinEnv ∧ IsProb fresh.weights ∧
    ([(0, ()), (0, ()), (1, ())] : List (Nat × Unit)).Perm [(1, ()), (0, ()), (0, ())] ∧
    (feed cfg coinEnv false [(0, ()), (0, ()), (1, ())] fresh).2.isOk ∧
    (feed cfg coinEnv false [(0, ()), (0, ()), (1, ())] fresh).1.weights = [3/20, 8/20, 9/20] ∧
    (feed cfg coinEnv false [(1, ()), (0, ()), (0, ())] fresh).1.weights = [3/20, 8/20, 9/20] := by
  refine ⟨fun _ _ _ => rfl, ?_, by decide, ?_, ?_, ?_⟩
  · refine ⟨?_, by decide +kernel⟩
    rw [show fresh.weights = [1/3, 1/3, 1/3] by decide +kernel]
    simp
  all_goals decide +kernel

/-! ## C05: the normalization record multiplies to the evidence -/

/-- **C05.**  In the setting of C04, exactly one normalisation is recorded per datum, and their
product is the prior-weighted average of the likelihood of all the data. -/
theorem C05_normalizations_multiply_to_evidence (cfg : SmcConfig K) (env : Env K O E ω)
    (hg : GoodEnv env) (hst : Static env) (hp : cfg.policy = "error") (ht : eps ≤ cfg.zeroThresh)
    (ht1 : cfg.zeroThresh < 1) (s : Smc K O ω) (hlen : s.locs.length = s.weights.length)
    (hprob : IsProb s.weights) (ds : List (O × E)) (hok : (feed cfg env false ds s).2 = .ok ()) :
    ∃ ns : List K, (feed cfg env false ds s).1.normRecord = s.normRecord ++ ns ∧
      ns.length = ds.length ∧
      ns.prod = ((s.weights.zip s.locs).map fun p =>
        p.1 * (ds.map fun d => env.likelihood d.1 p.2 d.2).prod).sum := by
  obtain ⟨-, -, -, ns, h1, h2, -, h4⟩ := feed_closed cfg env hg hst hp ht ht1 ds s hlen hprob hok
  exact ⟨ns, h1, h2, h4⟩

/-- `log_total_likelihood`, smc.py 226. -/
noncomputable def logTotalLikelihood (s : Smc ℝ O ω) : ℝ := (s.normRecord.map Real.log).sum

/-- **C05, logarithm.**  Starting with an empty normalization record, `log_total_likelihood` is the
logarithm of the evidence of all the data. -/
theorem C05_log_total_likelihood (cfg : SmcConfig ℝ) (env : Env ℝ O E ω)
    (hg : GoodEnv env) (hst : Static env) (hp : cfg.policy = "error") (ht : eps ≤ cfg.zeroThresh)
    (ht1 : cfg.zeroThresh < 1) (s : Smc ℝ O ω) (hlen : s.locs.length = s.weights.length)
    (hprob : IsProb s.weights) (hnil : s.normRecord = []) (ds : List (O × E))
    (hok : (feed cfg env false ds s).2 = .ok ()) :
    logTotalLikelihood (feed cfg env false ds s).1 =
      Real.log (((s.weights.zip s.locs).map fun p =>
        p.1 * (ds.map fun d => env.likelihood d.1 p.2 d.2).prod).sum) := by
  obtain ⟨-, -, -, ns, h1, -, h3, h4⟩ := feed_closed cfg env hg hst hp ht ht1 ds s hlen hprob hok
  have hlog : ∀ l : List ℝ, (∀ x ∈ l, eps ≤ x) → (l.map Real.log).sum = Real.log l.prod := by
    intro l hl
    induction l with
    | nil => simp
    | cons a l ih =>
      have ha : 0 < a := lt_of_lt_of_le eps_pos (hl a (by simp))
      have hl' : ∀ x ∈ l, eps ≤ x := fun x hx => hl x (by simp [hx])
      have hp : 0 < l.prod := List.prod_pos fun x hx => lt_of_lt_of_le eps_pos (hl' x hx)
      rw [List.map_cons, List.sum_cons, List.prod_cons, Real.log_mul ha.ne' hp.ne', ih hl']
  unfold logTotalLikelihood
  rw [h1, hnil, List.nil_append, hlog ns h3, h4]
  rfl

/-- Case for C05: two heads. -/
example : (feed cfg coinEnv false [(0, ()), (0, ())] fresh).2.isOk ∧
    (feed cfg coinEnv false [(0, ()), (0, ())] fresh).1.normRecord = [1/2, 7/12] ∧
    (1/2 * (7/12) : ℚ) = 1/3 * (1/16) + 1/3 * (1/4) + 1/3 * (9/16) := by
  refine ⟨?_, ?_, ?_⟩ <;> decide +kernel

/-! ## C06: the data record -/

/-- **C06, one call.**  A public call appends a prefix of the outcomes it was given, in order; all of
them if it returns normally; and a single `update` appends its outcome even if it raises or skips. -/
theorem C06_each_call (cfg : SmcConfig K) (env : Env K O E ω) (s : Smc K O ω) (op : Op O E) :
    ∃ part, part <+: op.outcomes ∧ (step cfg env s op).1.dataRecord = s.dataRecord ++ part ∧
      ((step cfg env s op).2 = .ok () → part = op.outcomes) ∧
      (∀ o e c, op = .update o e c → part = op.outcomes) := by
  cases op with
  | update o e c =>
    exact ⟨[o], by simp [Op.outcomes], update_data cfg env s o e c, fun _ => rfl, fun _ _ _ _ => rfl⟩
  | batch os es i =>
    by_cases h : es.length = os.length
    · obtain ⟨ms, h1, h2, h3⟩ := batchLoop_micro cfg env i (os.zip es) 0 s
      refine ⟨ms.filterMap Micro.outcome?, ?_, ?_, ?_, by simp⟩
      · have := h1.filterMap Micro.outcome?
        rw [batchPlan_outcomes, List.map_fst_zip (by omega)] at this
        simpa [Op.outcomes, h] using this
      · simp only [step, batchUpdate, h, ne_eq, not_true, if_false]
        rw [h2, runMicro_data]
      · intro hok
        simp only [step, batchUpdate, h, ne_eq, not_true, if_false] at hok
        rw [h3 hok, batchPlan_outcomes, List.map_fst_zip (by omega)]
        simp [Op.outcomes, h]
    · refine ⟨[], by simp, ?_, ?_, by simp⟩
      · simp [step, batchUpdate, h]
      · intro _; simp [Op.outcomes, h]
  | resample =>
    exact ⟨[], by simp, by simp [step, (resample_fields cfg env s).1], fun _ => rfl, by simp⟩
  | reset n only rw_ =>
    exact ⟨[], by simp, by simp [step, (reset_fields cfg env s n only rw_).1], fun _ => rfl, by simp⟩

/-- **C06, histories of single updates.**  However `update`, `resample` and `reset` calls are mixed
and whichever of them raise, the data record is exactly the list of outcomes given, in order. -/
theorem C06_data_record_exact (cfg : SmcConfig K) (env : Env K O E ω) (ops : List (Op O E))
    (hb : ∀ op ∈ ops, ∀ os es i, op ≠ .batch os es i) (s : Smc K O ω) :
    (run cfg env ops s).dataRecord = s.dataRecord ++ ops.flatMap Op.outcomes := by
  induction ops generalizing s with
  | nil => simp [run]
  | cons op ops ih =>
    rw [run, ih (fun x hx => hb x (by simp [hx])), List.flatMap_cons, ← List.append_assoc]
    congr 1
    obtain ⟨part, -, h2, h3, h4⟩ := C06_each_call cfg env s op
    rw [h2]
    congr 1
    cases op with
    | update o e c => exact h4 o e c rfl
    | batch os es i => exact absurd rfl (hb _ (by simp) os es i)
    | resample =>
      have := (resample_fields cfg env s).1
      rw [show (step cfg env s .resample).1 = (resample cfg env s).1 from rfl, this] at h2
      simpa [Op.outcomes] using h2.symm
    | reset n only rw_ =>
      have := (reset_fields cfg env s n only rw_).1
      rw [show (step cfg env s (.reset n only rw_)).1 = (reset cfg env s n only rw_).1 from rfl,
        this] at h2
      simpa [Op.outcomes] using h2.symm

/-- **C06, all histories.**  With batches, which may be cut short by an exception, the data record is
the concatenation of one prefix per call. -/
theorem C06_data_record (cfg : SmcConfig K) (env : Env K O E ω) (ops : List (Op O E))
    (s : Smc K O ω) :
    ∃ parts : List (List O), List.Forall₂ (fun op part => part <+: op.outcomes) ops parts ∧
      (run cfg env ops s).dataRecord = s.dataRecord ++ parts.flatten := by
  induction ops generalizing s with
  | nil => exact ⟨[], .nil, by simp [run]⟩
  | cons op ops ih =>
    obtain ⟨part, h1, h2, -⟩ := C06_each_call cfg env s op
    obtain ⟨parts, h3, h4⟩ := ih (step cfg env s op).1
    exact ⟨part :: parts, .cons h1 h3, by rw [run, h4, h2]; simp⟩

/-- **C06, normalization record.**  An `update` on a matching cloud records exactly one
normalisation, the probability of the outcome, unless that is below the float spacing and the policy
rejects the datum, in which case it records nothing. -/
theorem C06_normalization_record (cfg : SmcConfig K) (env : Env K O E ω) (hg : GoodEnv env)
    (ht : eps ≤ cfg.zeroThresh) (ht1 : cfg.zeroThresh < 1) (s : Smc K O ω)
    (hlen : s.locs.length = s.weights.length) (hw : ∀ x ∈ s.weights, 0 ≤ x) (o : O) (e : E)
    (check : Bool) :
    (update cfg env s o e check).1.normRecord = s.normRecord ++
      (if evidence env.likelihood s.weights s.locs o e < eps ∧
          cfg.policy ∉ ["ignore", "warn", "reset"] then []
        else [evidence env.likelihood s.weights s.locs o e]) := by
  have fin : ∀ (t : Smc K O ω) (w : List K) (n : K), w.length = t.weights.length →
      (finishUpdate cfg env t w n e check).1.normRecord = t.normRecord ++ [n] := by
    intro t w n hwl
    cases check with
    | false => exact (finishUpdate_false cfg env t w n e hwl).2.2.2.2.1
    | true =>
      rw [finishUpdate_true cfg env t w n e hwl, (maybeResample_fields cfg env _).2.1]
      exact (finishUpdate_false cfg env t w n e hwl).2.2.2.2.1
  by_cases h : evidence env.likelihood s.weights s.locs o e < eps
  · have hsum : ((s.weights.zip s.locs).map (fun p => p.1 * env.likelihood o p.2 e)).sum ≤
        cfg.zeroThresh := h.le.trans ht
    rw [update_tiny cfg env s o e check hlen hw (fun x => hg.like_nonneg o x e) h]
    unfold applyUpdate
    rw [if_pos hsum]
    by_cases h1 : cfg.policy = "ignore"
    · simp only [h1, if_true]
      rw [fin _ _ _ (by simp [recordDatum, hlen])]
      simp [recordDatum]
    by_cases h2 : cfg.policy = "skip"
    · simp [h2, h, recordDatum]
    by_cases h3 : cfg.policy = "warn"
    · simp only [h3, String.reduceEq, if_false, if_true]
      rw [fin _ _ _ (by simp [recordDatum, hlen, Smc.warn])]
      simp [recordDatum, Smc.warn]
    by_cases h4 : cfg.policy = "error"
    · simp [h4, h, recordDatum]
    by_cases h5 : cfg.policy = "reset"
    · simp only [h5, String.reduceEq, if_false, if_true, reset, Option.isSome_none, Bool.and_self,
        Bool.false_eq_true]
      rw [fin _ _ _ (by simp [Smc.nParticles, recordDatum, hlen, Smc.warn])]
      simp [recordDatum, Smc.warn]
    · simp [h1, h2, h3, h4, h5, h, recordDatum]
  · rw [update_normal cfg env s o e check hlen hw (fun x => hg.like_nonneg o x e) ht1 (not_lt.1 h),
      fin (recordDatum s o) _ _ (posterior_length env.likelihood s.weights s.locs o e hlen)]
    simp [h, recordDatum]

/-- **C06.**  `resample` and `reset` leave both records alone. -/
theorem C06_records_survive (cfg : SmcConfig K) (env : Env K O E ω) (s : Smc K O ω)
    (n : Option Nat) (only : Option (List Nat)) (rw_ : Bool) :
    (resample cfg env s).1.dataRecord = s.dataRecord ∧
    (resample cfg env s).1.normRecord = s.normRecord ∧
    (reset cfg env s n only rw_).1.dataRecord = s.dataRecord ∧
    (reset cfg env s n only rw_).1.normRecord = s.normRecord :=
  ⟨(resample_fields cfg env s).1, (resample_fields cfg env s).2.1,
    (reset_fields cfg env s n only rw_).1, (reset_fields cfg env s n only rw_).2.1⟩

/-- Case for C06: the second update raises (the cloud sits at bias 0 and outcome 0 is impossible) and
is recorded all the same; the batch is cut short at its first datum. -/
example :
    let s : Smc ℚ Nat Nat := { fresh with locs := [[0], [0], [0]] }
    let t := run cfg coinEnv
      [.update 1 () true, .update 0 () true, .resample, .batch [0, 1] [(), ()] 1] s
    t.dataRecord = [1, 0, 0] ∧ t.normRecord = [1] ∧
    (update cfg coinEnv s 0 () true).2.isOk = false := by
  refine ⟨?_, ?_, ?_⟩ <;> decide +kernel

/-! ## C08: when resampling happens -/

theorem sq_sum_pos (w : List K) (h : w.sum = 1) : 0 < (w.map fun x => x ^ 2).sum := by
  have hnn : ∀ y ∈ w.map (fun x => x ^ 2), (0 : K) ≤ y := by
    intro y hy; obtain ⟨x, -, rfl⟩ := List.mem_map.1 hy; positivity
  have h0 : 0 ≤ (w.map fun x => x ^ 2).sum := List.sum_nonneg hnn
  rcases h0.lt_or_eq with h1 | h1
  · exact h1
  · exfalso
    have hz : ∀ x ∈ w, x = 0 := by
      intro x hx
      have := (List.all_zero_of_le_zero_le_of_sum_eq_zero hnn h1.symm)
        (List.mem_map.2 ⟨x, hx, rfl⟩)
      exact pow_eq_zero_iff (two_ne_zero) |>.1 this
    have : w.sum = 0 := List.sum_eq_zero hz
    rw [this] at h; exact zero_ne_one h

theorem nEss_coe (w : List K) (h : w.sum = 1) :
    nEss w = ((1 / (w.map fun x => x ^ 2).sum : K) : WithTop K) := by
  unfold nEss recip
  rw [if_neg (sq_sum_pos w h).ne']

/-- **C08.**  An `update` that is accepted performs one resampling if it checks and the effective
sample size `1 / ∑ w'²` of the posterior weights is strictly below `n_particles * resample_thresh`,
and none otherwise; `just_resampled` tells which. -/
theorem C08_resample_iff (cfg : SmcConfig K) (env : Env K O E ω) (hg : GoodEnv env)
    (ht1 : cfg.zeroThresh < 1) (s : Smc K O ω) (hlen : s.locs.length = s.weights.length)
    (hw : ∀ x ∈ s.weights, 0 ≤ x) (o : O) (e : E) (check : Bool)
    (hev : eps ≤ evidence env.likelihood s.weights s.locs o e) :
    let t := (update cfg env s o e check).1
    let low : Prop := check = true ∧
      1 / ((posterior env.likelihood s.weights s.locs o e).map fun x => x ^ 2).sum <
        (s.locs.length : K) * cfg.resampleThresh
    (low → t.resampleCount = s.resampleCount + 1 ∧ t.justResampled = true) ∧
    (¬ low → t.resampleCount = s.resampleCount ∧ t.justResampled = false ∧
      t.weights = posterior env.likelihood s.weights s.locs o e) := by
  have hsum := posterior_sum env.likelihood s.weights s.locs o e (lt_of_lt_of_le eps_pos hev).ne'
  obtain ⟨h1, h2, h3, -, -, -, h7, h8, -, -⟩ := datum_normal cfg env s o e hlen hw
    (fun x => hg.like_nonneg o x e) ht1 hev
  cases check with
  | false => exact ⟨by simp, fun _ => ⟨h7, h8, h2⟩⟩
  | true =>
    have heq : update cfg env s o e true = maybeResample cfg env (update cfg env s o e false).1 := by
      rw [update_normal cfg env s o e true hlen hw (fun x => hg.like_nonneg o x e) ht1 hev,
        update_normal cfg env s o e false hlen hw (fun x => hg.like_nonneg o x e) ht1 hev,
        finishUpdate_true cfg env (recordDatum s o) _ _ _ (posterior_length env.likelihood s.weights s.locs o e hlen)]
    have hm := maybeResample_count cfg env (update cfg env s o e false).1
    dsimp only at hm ⊢
    rw [heq]
    rw [h2, h3, hg.timestep_len, nEss_coe _ hsum, WithTop.coe_lt_coe, h7, h8] at hm
    rcases hm with ⟨a, b, c⟩ | ⟨a, b, c, d, -⟩
    · exact ⟨fun _ => ⟨b, c⟩, fun h => absurd ⟨rfl, a⟩ h⟩
    · exact ⟨fun h => absurd h.2 a, fun _ => ⟨b, c, d⟩⟩

/-- The environment `env` with a resampler that counts its calls in the seed. -/
def counting (env : Env K O E ω) : Env K O E (ω × Nat) where
  likelihood := env.likelihood
  timestep r l e := let q := env.timestep r.1 l e; (q.1, (q.2, r.2))
  canon := env.canon
  clearCacheRaises := env.clearCacheRaises
  prior r n := let q := env.prior r.1 n; (q.1, (q.2, r.2))
  resampler r w l := let q := env.resampler r.1 w l; (q.1, (q.2, r.2 + 1))
  kl := env.kl

/-- `resample_count` minus the number of resampler calls. -/
def CountInv (c : Nat) (s : Smc K O (ω × Nat)) : Prop := s.resampleCount = s.seed.2 + c

theorem countInv_reset (cfg : SmcConfig K) (env : Env K O E ω) (c : Nat) (s : Smc K O (ω × Nat))
    (h : CountInv c s) (n : Option Nat) (only : Option (List Nat)) (rw_ : Bool) :
    CountInv c (reset cfg (counting env) s n only rw_).1 := by
  unfold reset
  split
  · exact h
  · cases only <;> cases rw_ <;> exact h

theorem countInv_resample (cfg : SmcConfig K) (env : Env K O E ω) (c : Nat)
    (s : Smc K O (ω × Nat)) (h : CountInv c s) :
    CountInv c (resample cfg (counting env) s).1 := by
  have hm : (markResampled s).resampleCount = s.resampleCount + 1 ∧
      (markResampled s).seed = s.seed := by
    unfold markResampled; cases s.justResampled <;> simp [Smc.warn]
  have key : ∀ t : Smc K O (ω × Nat), t.resampleCount = t.seed.2 + c + 1 →
      CountInv c (runResampler cfg (counting env) t).1 := by
    intro t ht
    have ht' : t.resampleCount = t.seed.2 + 1 + c := by omega
    unfold runResampler
    split
    · rename_i heq
      have h2 := congrArg (fun q => q.2.2) heq
      simp only [counting] at h2
      unfold CountInv; rw [← h2]; exact ht'
    · rename_i heq
      have h2 := congrArg (fun q => q.2.2) heq
      simp only [counting] at h2
      unfold CountInv
      cases (counting env).clearCacheRaises <;> cases t.divergences <;>
        (simp only [Smc.warn, if_true, Bool.false_eq_true, if_false]; rw [← h2]; exact ht')
  apply key
  rw [hm.1, hm.2, h]

theorem countInv_maybe (cfg : SmcConfig K) (env : Env K O E ω) (c : Nat)
    (s : Smc K O (ω × Nat)) (h : CountInv c s) :
    CountInv c (maybeResample cfg (counting env) s).1 := by
  unfold maybeResample
  dsimp only
  have h' : CountInv c (if nEss s.weights ≤ ((10 : K) : WithTop K) then s.warn .smallEss else s) := by
    split <;> exact h
  generalize (if nEss s.weights ≤ ((10 : K) : WithTop K) then s.warn .smallEss else s) = t at h'
  split
  · exact countInv_resample cfg env c t h'
  · exact h'

theorem countInv_finish (cfg : SmcConfig K) (env : Env K O E ω) (c : Nat)
    (s : Smc K O (ω × Nat)) (h : CountInv c s) (w : List K) (n : K) (e : E) :
    CountInv c (finishUpdate cfg (counting env) s w n e false).1 := by
  unfold finishUpdate
  split
  · exact h
  · simp only [Bool.false_eq_true, if_false]
    split <;> exact h

theorem countInv_datum (cfg : SmcConfig K) (env : Env K O E ω) (c : Nat)
    (s : Smc K O (ω × Nat)) (h : CountInv c s) (o : O) (e : E) :
    CountInv c (update cfg (counting env) s o e false).1 := by
  have happ : ∀ (t : Smc K O (ω × Nat)) w n, CountInv c t →
      CountInv c (applyUpdate cfg (counting env) t w n e false).1 := by
    intro t w n ht
    unfold applyUpdate
    split
    · split
      · exact countInv_finish cfg env c t ht w n e
      · split
        · exact ht
        · split
          · exact countInv_finish cfg env c (t.warn .zeroWeights) ht w n e
          · split
            · exact ht
            · split
              · have hr := countInv_reset cfg env c (t.warn .zeroWeightsReset) ht none none true
                split
                · rename_i heq; rw [heq] at hr; exact hr
                · rename_i heq; rw [heq] at hr; exact countInv_finish cfg env c _ hr w n e
              · exact ht
    · exact countInv_finish cfg env c t ht w n e
  unfold update
  dsimp only
  split
  · exact h
  · split
    · exact happ _ _ _ h
    · exact happ _ _ _ h

/-- **C08, counting.**  Over any history of public calls, `resample_count` goes up by exactly the
number of times the resampler is called. -/
theorem C08_resample_count (cfg : SmcConfig K) (env : Env K O E ω) (ops : List (Op O E))
    (s : Smc K O (ω × Nat)) (h0 : s.seed.2 = 0) :
    (run cfg (counting env) ops s).resampleCount =
      s.resampleCount + (run cfg (counting env) ops s).seed.2 := by
  obtain ⟨mss, -, hrun⟩ := run_micro cfg (counting env) ops s
  rw [hrun]
  have key : ∀ (ms : List (Micro O E)) (t : Smc K O (ω × Nat)), CountInv s.resampleCount t →
      CountInv s.resampleCount (runMicro cfg (counting env) ms t) := by
    intro ms
    induction ms with
    | nil => intro t ht; exact ht
    | cons m ms ih =>
      intro t ht
      apply ih
      cases m with
      | datum o e => exact countInv_datum cfg env _ t ht o e
      | check => exact countInv_maybe cfg env _ t ht
      | resample => exact countInv_resample cfg env _ t ht
      | reset n only rw_ => exact countInv_reset cfg env _ t ht n only rw_
  have := key mss.flatten s (by unfold CountInv; omega)
  unfold CountInv at this; omega

theorem finish_just (cfg : SmcConfig K) (env : Env K O E ω) (s : Smc K O ω) (w : List K) (n : K)
    (e : E) : (finishUpdate cfg env s w n e false).1.justResampled = s.justResampled ∧
      (finishUpdate cfg env s w n e false).1.resampleCount = s.resampleCount := by
  unfold finishUpdate
  split
  · exact ⟨rfl, rfl⟩
  · simp only [Bool.false_eq_true, if_false]
    split <;> exact ⟨rfl, rfl⟩

theorem datum_just (cfg : SmcConfig K) (env : Env K O E ω) (s : Smc K O ω) (o : O) (e : E) :
    (update cfg env s o e false).1.justResampled = false ∧
      (update cfg env s o e false).1.resampleCount = s.resampleCount := by
  have happ : ∀ (t : Smc K O ω) w n, 
      (applyUpdate cfg env t w n e false).1.justResampled = t.justResampled ∧
      (applyUpdate cfg env t w n e false).1.resampleCount = t.resampleCount := by
    intro t w n
    unfold applyUpdate
    split
    · split
      · exact finish_just cfg env t w n e
      · split
        · exact ⟨rfl, rfl⟩
        · split
          · exact finish_just cfg env _ w n e
          · split
            · exact ⟨rfl, rfl⟩
            · split
              · obtain ⟨-, -, -, hr1, hr2, -⟩ :=
                  reset_fields cfg env (t.warn .zeroWeightsReset) none none true
                split
                · rename_i heq; rw [heq] at hr1 hr2; exact ⟨hr2, hr1⟩
                · rename_i heq; rw [heq] at hr1 hr2
                  obtain ⟨a, b⟩ := finish_just cfg env _ w n e
                  exact ⟨a.trans hr2, b.trans hr1⟩
              · exact ⟨rfl, rfl⟩
    · exact finish_just cfg env t w n e
  unfold update
  dsimp only
  split
  · exact ⟨rfl, rfl⟩
  · split
    · obtain ⟨a, b⟩ := happ (recordDatum s o) _ _; exact ⟨a, b⟩
    · obtain ⟨a, b⟩ := happ ((recordDatum s o).warn .negativeWeights) _ _; exact ⟨a, b⟩

theorem just_nodata (cfg : SmcConfig K) (env : Env K O E ω) (ms : List (Micro O E))
    (hms : ms.filterMap Micro.outcome? = []) (s : Smc K O ω) :
    s.resampleCount ≤ (runMicro cfg env ms s).resampleCount ∧
    ((runMicro cfg env ms s).justResampled = true ↔
      s.justResampled = true ∨ s.resampleCount < (runMicro cfg env ms s).resampleCount) := by
  induction ms generalizing s with
  | nil => simp [runMicro]
  | cons m ms ih =>
    have hr : runMicro cfg env (m :: ms) s = runMicro cfg env ms (microStep cfg env s m) := rfl
    rw [hr]
    have hstep : s.resampleCount ≤ (microStep cfg env s m).resampleCount ∧
        ((microStep cfg env s m).justResampled = true ↔
          s.justResampled = true ∨ s.resampleCount < (microStep cfg env s m).resampleCount) := by
      cases m with
      | datum o e => simp [Micro.outcome?, List.filterMap_cons] at hms
      | check =>
        simp only [microStep]
        rcases maybeResample_count cfg env s with ⟨-, b, c⟩ | ⟨-, b, c, -⟩
        · rw [b, c]; simp
        · rw [b, c]; simp
      | resample =>
        obtain ⟨-, -, -, b, c⟩ := resample_fields cfg env s
        simp only [microStep]; rw [b, c]; simp
      | reset n only rw_ =>
        obtain ⟨-, -, -, b, c, -⟩ := reset_fields cfg env s n only rw_
        simp only [microStep]; rw [b, c]; simp
    have hms' : ms.filterMap Micro.outcome? = [] := by
      cases m with
      | datum o e => simp [Micro.outcome?, List.filterMap_cons] at hms
      | check => simpa [Micro.outcome?, List.filterMap_cons] using hms
      | resample => simpa [Micro.outcome?, List.filterMap_cons] using hms
      | reset n only rw_ => simpa [Micro.outcome?, List.filterMap_cons] using hms
    obtain ⟨a, b⟩ := ih hms' (microStep cfg env s m)
    refine ⟨hstep.1.trans a, ?_⟩
    rw [b, hstep.2]
    have := hstep.1
    constructor
    · rintro ((h | h) | h)
      · exact Or.inl h
      · right; omega
      · right; omega
    · rintro (h | h)
      · exact Or.inl (Or.inl h)
      · rcases Nat.lt_or_ge s.resampleCount (microStep cfg env s m).resampleCount with h' | h'
        · exact Or.inl (Or.inr h')
        · right; omega

/-- **C08, `just_resampled`.**  Split any history of elementary steps at its last datum: the flag is
set at the end iff `resample_count` has grown since that datum. -/
theorem C08_just_resampled (cfg : SmcConfig K) (env : Env K O E ω) (pre post : List (Micro O E))
    (o : O) (e : E) (hpost : post.filterMap Micro.outcome? = []) (s : Smc K O ω) :
    (runMicro cfg env (pre ++ .datum o e :: post) s).justResampled = true ↔
      (runMicro cfg env (pre ++ [.datum o e]) s).resampleCount <
        (runMicro cfg env (pre ++ .datum o e :: post) s).resampleCount := by
  have hd := datum_just cfg env (runMicro cfg env pre s) o e
  have h := just_nodata cfg env post hpost (update cfg env (runMicro cfg env pre s) o e false).1
  have e1 : runMicro cfg env (pre ++ .datum o e :: post) s =
      runMicro cfg env post (update cfg env (runMicro cfg env pre s) o e false).1 := by
    rw [runMicro_append]; rfl
  have e2 : runMicro cfg env (pre ++ [.datum o e]) s =
      (update cfg env (runMicro cfg env pre s) o e false).1 := by
    rw [runMicro_append]; rfl
  rw [e1, e2, h.2, hd.1]
  simp

/-- **C08, documentation mismatch.**  The docstring says `just_resampled` is `True` if there has not
been a resampling step yet; on every fresh updater it is `False`. -/
theorem C08_fresh_not_just_resampled (cfg : SmcConfig K) (env : Env K O E ω) (n : Nat) (td : Bool)
    (r : ω) : (construct cfg env n td r).1.justResampled = false ∧
      (construct cfg env n td r).1.resampleCount = 0 := by
  unfold construct
  obtain ⟨-, -, -, h1, h2, -⟩ := reset_fields cfg env (O := O)
    { weights := [], locs := [], resampleCount := 0, minNEss := ((n : K) : WithTop K),
      justResampled := false, dataRecord := [], normRecord := [],
      divergences := if td then some [] else none, seed := r, warnings := [] } (some n) none true
  exact ⟨h2, h1⟩

/-- Case for C08: after four heads the three-particle cloud has n_ess below 3/2, and resamples. -/
example :
    let c := { cfg with resampleThresh := 3/4 }
    let s := run c coinEnv [.update 0 () true, .update 0 () true] fresh
    (run c coinEnv [.update 0 () true] fresh).resampleCount = 0 ∧
    s.resampleCount = 1 ∧ s.justResampled = true ∧ s.weights = [1/3, 1/3, 1/3] := by
  refine ⟨?_, ?_, ?_, ?_⟩ <;> decide +kernel

/-! ## C09: `min_n_ess` -/

/-- The effective sample size of the posterior of a datum, if the datum is accepted. -/
def essStep (env : Env K O E ω) (s : Smc K O ω) : Micro O E → List K
  | .datum o e => if eps ≤ evidence env.likelihood s.weights s.locs o e then
      [1 / ((posterior env.likelihood s.weights s.locs o e).map fun x => x ^ 2).sum] else []
  | _ => []

/-- The effective sample sizes of the accepted data of a history, in order. -/
def essSeen (cfg : SmcConfig K) (env : Env K O E ω) : List (Micro O E) → Smc K O ω → List K
  | [], _ => []
  | m :: ms, s => essStep env s m ++ essSeen cfg env ms (microStep cfg env s m)

/-- Elementary `reset` steps that make sense. -/
def Micro.Sane : Micro O E → Prop
  | .reset (some n) _ rw => 0 < n ∧ rw = true
  | _ => True

theorem micro_winv (cfg : SmcConfig K) (env : Env K O E ω) (hg : GoodEnv env)
    (hp : cfg.policy = "error" ∨ cfg.policy = "skip") (ht : eps ≤ cfg.zeroThresh)
    (s : Smc K O ω) (hs : WInv s) (m : Micro O E) (hm : m.Sane) :
    WInv (microStep cfg env s m) := by
  cases m with
  | datum o e => exact update_winv cfg env hg hp ht s hs o e false
  | check => exact maybeResample_winv cfg env hg s hs
  | resample => exact resample_winv cfg env hg s hs
  | reset n only rw_ =>
    apply reset_winv cfg env hg s hs
    intro k hk; subst hk; exact hm

/-- **C09.**  With policy `error` or `skip`, after any history of elementary steps `min_n_ess` is the
minimum of its initial value and the effective sample sizes of all accepted data, taken before any
resampling they trigger. -/
theorem C09_min_n_ess (cfg : SmcConfig K) (env : Env K O E ω) (hg : GoodEnv env)
    (hp : cfg.policy = "error" ∨ cfg.policy = "skip") (ht : eps ≤ cfg.zeroThresh)
    (ht1 : cfg.zeroThresh < 1) (ms : List (Micro O E)) (hms : ∀ m ∈ ms, m.Sane)
    (s : Smc K O ω) (hprob : IsProb s.weights) (hlen : s.locs.length = s.weights.length) :
    (runMicro cfg env ms s).minNEss =
      (essSeen cfg env ms s).foldl (fun (m : WithTop K) (x : K) => min m (x : WithTop K))
        s.minNEss := by
  induction ms generalizing s with
  | nil => rfl
  | cons m ms ih =>
    have hr : runMicro cfg env (m :: ms) s = runMicro cfg env ms (microStep cfg env s m) := rfl
    have hs' := micro_winv cfg env hg hp ht s ⟨hprob, hlen⟩ m (hms m (by simp))
    rw [hr, ih (fun x hx => hms x (by simp [hx])) _ hs'.1 hs'.2]
    conv_rhs => rw [essSeen]
    rw [List.foldl_append]
    congr 1
    cases m with
    | datum o e =>
      dsimp only [microStep, essStep]
      split
      · rename_i hev
        obtain ⟨-, -, -, -, -, h, -⟩ := datum_normal cfg env s o e hlen hprob.1
          (fun x => hg.like_nonneg o x e) ht1 hev
        rw [h, nEss_coe _ (posterior_sum _ _ _ _ _ (lt_of_lt_of_le eps_pos hev).ne')]
        rfl
      · rename_i hev
        have hev' := not_le.1 hev
        have hsum : ((s.weights.zip s.locs).map (fun p => p.1 * env.likelihood o p.2 e)).sum ≤
          cfg.zeroThresh := hev'.le.trans ht
        rw [update_tiny cfg env s o e false hlen hprob.1 (fun x => hg.like_nonneg o x e) hev']
        unfold applyUpdate
        rw [if_pos hsum]
        rcases hp with hp | hp <;> simp [hp, recordDatum]
    | check => exact (maybeResample_fields cfg env s).2.2
    | resample => exact (resample_fields cfg env s).2.2.1
    | reset n only rw_ => exact (reset_fields cfg env s n only rw_).2.2.1

/-- Every public history is such a history of elementary steps (one prefix of the plan of each
call). -/
theorem C09_public_history (cfg : SmcConfig K) (env : Env K O E ω) (ops : List (Op O E))
    (s : Smc K O ω) :
    ∃ mss : List (List (Micro O E)), List.Forall₂ (fun op ms => ms <+: op.plan) ops mss ∧
      run cfg env ops s = runMicro cfg env mss.flatten s :=
  run_micro cfg env ops s

theorem finish_min (cfg : SmcConfig K) (env : Env K O E ω) (s : Smc K O ω) (w : List K) (n : K)
    (e : E) : (finishUpdate cfg env s w n e false).1.minNEss ≤ s.minNEss := by
  unfold finishUpdate
  split
  · exact le_rfl
  · simp only [Bool.false_eq_true, if_false]
    split
    · rename_i h; exact h
    · exact le_rfl

theorem datum_min (cfg : SmcConfig K) (env : Env K O E ω) (s : Smc K O ω) (o : O) (e : E) :
    (update cfg env s o e false).1.minNEss ≤ s.minNEss := by
  have happ : ∀ (t : Smc K O ω) w n,
      (applyUpdate cfg env t w n e false).1.minNEss ≤ t.minNEss := by
    intro t w n
    unfold applyUpdate
    split
    · split
      · exact finish_min cfg env t w n e
      · split
        · exact le_rfl
        · split
          · exact finish_min cfg env (t.warn .zeroWeights) w n e
          · split
            · exact le_rfl
            · split
              · obtain ⟨-, -, hr, -⟩ := reset_fields cfg env (t.warn .zeroWeightsReset) none none true
                split
                · rename_i heq; rw [heq] at hr; exact hr.le
                · rename_i heq; rw [heq] at hr
                  exact (finish_min cfg env _ w n e).trans hr.le
              · exact le_rfl
    · exact finish_min cfg env t w n e
  unfold update
  dsimp only
  split
  · exact le_rfl
  · split
    · exact happ (recordDatum s o) _ _
    · exact happ ((recordDatum s o).warn .negativeWeights) _ _

/-- **C09, monotone.**  For every policy, model and history of public calls, `min_n_ess` never
increases. -/
theorem C09_min_n_ess_antitone (cfg : SmcConfig K) (env : Env K O E ω) (ops : List (Op O E))
    (s : Smc K O ω) : (run cfg env ops s).minNEss ≤ s.minNEss := by
  obtain ⟨mss, -, h⟩ := run_micro cfg env ops s
  rw [h]
  have key : ∀ (ms : List (Micro O E)) (t : Smc K O ω), (runMicro cfg env ms t).minNEss ≤ t.minNEss := by
    intro ms
    induction ms with
    | nil => intro t; exact le_rfl
    | cons m ms ih =>
      intro t
      refine (ih (microStep cfg env t m)).trans ?_
      cases m with
      | datum o e => exact datum_min cfg env t o e
      | check => exact (maybeResample_fields cfg env t).2.2.le
      | resample => exact (resample_fields cfg env t).2.2.1.le
      | reset n only rw_ => exact (reset_fields cfg env t n only rw_).2.2.1.le
  exact key mss.flatten s

/-- Case for C09: starts at 3, then 18/7, then 98/49 = 2 after the second head, kept by a tail. -/
example : fresh.minNEss = ((3 : ℚ) : WithTop ℚ) ∧
    essSeen cfg coinEnv [.datum 0 (), .datum 0 (), .datum 1 ()] fresh = [18/7, 2, 200/77] ∧
    (runMicro cfg coinEnv [.datum 0 (), .datum 0 (), .datum 1 ()] fresh).minNEss =
      ((2 : ℚ) : WithTop ℚ) := by
  refine ⟨?_, ?_, ?_⟩ <;> decide +kernel

/-! ## C10: `batch_update` -/

/-- **C10, every interval.**  A batch that returns normally has exactly the effect of its plan: each
datum in turn without a check, plus a check after every datum whose one-based index is a multiple of
the interval.  A batch that raises has the effect of a prefix of that plan. -/
theorem C10_batch_is_plan (cfg : SmcConfig K) (env : Env K O E ω) (s : Smc K O ω)
    (os : List O) (es : List E) (interval : Int) (hlen : es.length = os.length) :
    ∃ ms, ms <+: batchPlan interval 0 (os.zip es) ∧
      (batchUpdate cfg env s os es interval).1 = runMicro cfg env ms s ∧
      ((batchUpdate cfg env s os es interval).2 = .ok () →
        ms = batchPlan interval 0 (os.zip es)) := by
  have := batchLoop_micro cfg env interval (os.zip es) 0 s
  simpa [batchUpdate, hlen] using this

/-- **C10, interval 1.**  For every policy except `skip`, `batch_update(..., resample_interval=1)`
gives the same state and the same exception as calling `update` for each datum. -/
theorem C10_interval_one (cfg : SmcConfig K) (env : Env K O E ω) (hp : cfg.policy ≠ "skip")
    (s : Smc K O ω) (os : List O) (es : List E) (hlen : es.length = os.length) :
    batchUpdate cfg env s os es 1 = feed cfg env true (os.zip es) s := by
  simp only [batchUpdate, hlen, ne_eq, not_true, if_false]
  generalize os.zip es = ds
  generalize 0 = idx
  induction ds generalizing idx s with
  | nil => rfl
  | cons d ds ih =>
    obtain ⟨o, e⟩ := d
    simp only [batchLoop, feed, Int.emod_one, if_true, one_ne_zero, if_false]
    rcases update_split cfg env s o e with ⟨h, h'⟩ | ⟨h, h'⟩
    · rcases heq : update cfg env s o e false with ⟨t, err | ⟨⟨⟩⟩⟩
      · rw [heq] at h'; simp at h'
      · rw [h, heq]
        dsimp only
        rcases heq2 : maybeResample cfg env t with ⟨u, err | ⟨⟨⟩⟩⟩
        · rfl
        · exact ih u _
    · rw [h]
      rcases h' with h' | h'
      · exact absurd h' hp
      · rcases heq : update cfg env s o e false with ⟨t, err | ⟨⟨⟩⟩⟩
        · rfl
        · rw [heq] at h'; simp at h'

/-- **C10, violated for `skip`.**  Under policy `skip`, a batch with interval 1 checks for resampling
after a skipped datum while `update` does not, so the two can end in different states. -/
theorem C10_interval_one_skip_differs :
    ∃ (c : SmcConfig ℚ) (s : Smc ℚ Nat Nat), c.policy = "skip" ∧
      s = (feed c coinEnv false [(0, ()), (0, ())] { fresh with locs := [[0], [0], [1]] }).1 ∧
      (batchUpdate c coinEnv s [1] [()] 1).1.resampleCount = 1 ∧
      (feed c coinEnv true [(1, ())] s).1.resampleCount = 0 := by
  refine ⟨{ cfg with policy := "skip" }, _, rfl, rfl, ?_, ?_⟩ <;> decide +kernel

/-- **C10, length mismatch.**  Raises `ValueError` and changes nothing. -/
theorem C10_length_mismatch (cfg : SmcConfig K) (env : Env K O E ω) (s : Smc K O ω)
    (os : List O) (es : List E) (interval : Int) (h : es.length ≠ os.length) :
    batchUpdate cfg env s os es interval = (s, .error .valueError) := by
  simp [batchUpdate, h]

/-- **C10, interval 0.**  If the first datum is accepted, raises `ZeroDivisionError` after exactly
that datum; an empty batch does nothing. -/
theorem C10_interval_zero (cfg : SmcConfig K) (env : Env K O E ω) (s : Smc K O ω)
    (o : O) (e : E) (os : List O) (es : List E) (hlen : es.length = os.length)
    (hok : (update cfg env s o e false).2 = .ok ()) :
    batchUpdate cfg env s (o :: os) (e :: es) 0 =
      ((update cfg env s o e false).1, .error .zeroDivisionError) ∧
    batchUpdate cfg env s [] [] 0 = (s, .ok ()) := by
  refine ⟨?_, rfl⟩
  simp only [batchUpdate, List.length_cons, hlen, ne_eq, not_true, if_false, List.zip_cons_cons,
    batchLoop]
  rcases heq : update cfg env s o e false with ⟨t, err | ⟨⟨⟩⟩⟩
  · rw [heq] at hok; simp at hok
  · rfl

/-- Case for C10: five data, interval 2: checks after the second and the fourth. -/
example : batchPlan 2 0 [(0, ()), (1, ()), (0, ()), (0, ()), (1, ())] =
    [.datum 0 (), .datum 1 (), .check, .datum 0 (), .datum 0 (), .check, .datum 1 ()] := by
  simp [batchPlan]

example : (batchUpdate cfg coinEnv fresh [0, 1, 0] [(), (), ()] 1).2.isOk ∧
    (batchUpdate cfg coinEnv fresh [0, 1, 0] [(), (), ()] 1).1.weights =
      (feed cfg coinEnv true [(0, ()), (1, ()), (0, ())] fresh).1.weights ∧
    (batchUpdate cfg coinEnv fresh [0, 1] [(), ()] 0).1.dataRecord = [0] := by
  refine ⟨?_, ?_, ?_⟩ <;> decide +kernel

end QInfer
