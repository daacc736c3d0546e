import Verif.Lemmas.SmcMicro
import Verif.Demo.Smc

/-!
# Properties of single calls to the updater: C01, C02, C03, C07, C50
-/

set_option linter.unusedSectionVars false

namespace QInfer

open Demo

variable {K : Type*} {O E ω : Type*}
variable [Field K] [LinearOrder K] [IsStrictOrderedRing K]

/-! ## C01: weights always form a probability vector -/

/-- **C01.** Construct an updater with at least one particle and perform any sequence of calls to
`update`, `batch_update`, `resample` and `reset`, going on after exceptions.  With policy `error` or
`skip` and a zero-weight threshold of at least the float spacing, the weights are always
non-negative, sum to one, and are as many as the particle locations. -/
theorem C01_weights_are_probability_vector (cfg : SmcConfig K) (env : Env K O E ω)
    (hg : GoodEnv env) (hp : cfg.policy = "error" ∨ cfg.policy = "skip")
    (ht : eps ≤ cfg.zeroThresh) (n : Nat) (hn : 0 < n) (track : Bool) (seed : ω)
    (ops : List (Op O E)) (hops : ∀ op ∈ ops, op.Sane) :
    let s := run cfg env ops (construct cfg env n track seed).1
    (∀ w ∈ s.weights, 0 ≤ w) ∧ s.weights.sum = 1 ∧ s.weights.length = s.locs.length := by
  have h := run_winv cfg env hg hp ht ops hops _ (construct_winv cfg env hg n hn track seed)
  exact ⟨h.1.1, h.1.2, h.2.symm⟩

/-- The default threshold satisfies the hypothesis of C01. -/
theorem C01_default_threshold : (eps : K) ≤ zeroThreshOf none ∧ (zeroThreshOf none : K) < 1 := by
  constructor
  · have := eps_pos (K := K)
    simp only [zeroThreshOf, Option.getD_none]; linarith
  · simp only [zeroThreshOf, Option.getD_none, eps]
    rw [mul_one_div, div_lt_one (by positivity)]
    norm_num

/-- Case for C01: a history with an informative update, an impossible outcome that raises, a
resampling and a reset. -/
example :
    let ops : List (Op Nat Unit) :=
      [.update 0 () true, .batch [0, 1] [(), ()] 1, .resample, .reset (some 2) none true,
        .update 0 () true]
    GoodEnv coinEnv ∧ (∀ op ∈ ops, op.Sane) ∧
      (run cfg coinEnv ops fresh).weights = [1 / 3, 2 / 3] := by
  refine ⟨coinEnv_good, ?_, by decide +kernel⟩
  intro op h
  simp only [List.mem_cons, List.not_mem_nil, or_false] at h
  rcases h with rfl | rfl | rfl | rfl | rfl <;> simp [Op.Sane]

/-! ## C02: the `reset` policy -/

/-- **C02, violated.**  With policy `reset`, after *every* zero-weight update without a resampling
check the weights are *not* those of a fresh cloud: their sum is below the float spacing (zero when
the likelihoods are zero), because line 441 overwrites the weights that `reset` has just set. -/
theorem C02_reset_policy_loses_weights (cfg : SmcConfig K) (env : Env K O E ω) (hg : GoodEnv env)
    (hp : cfg.policy = "reset") (ht : eps ≤ cfg.zeroThresh) (s : Smc K O ω)
    (hlen : s.locs.length = s.weights.length) (hw : ∀ x ∈ s.weights, 0 ≤ x) (o : O) (e : E)
    (hzero : evidence env.likelihood s.weights s.locs o e < eps) :
    (update cfg env s o e false).2 = .ok () ∧
    (update cfg env s o e false).1.weights.sum < eps ∧
    ¬ IsProb (update cfg env s o e false).1.weights := by
  have key : (update cfg env s o e false).2 = .ok () ∧ (update cfg env s o e false).1.weights =
      (s.weights.zip s.locs).map (fun p => p.1 * env.likelihood o p.2 e) := by
    rw [update_tiny cfg env s o e false hlen hw (fun x => hg.like_nonneg o x e) hzero]
    have hsum : ((s.weights.zip s.locs).map (fun p => p.1 * env.likelihood o p.2 e)).sum ≤
        cfg.zeroThresh := hzero.le.trans ht
    unfold applyUpdate
    rw [if_pos hsum]
    simp only [hp, String.reduceEq, if_false, if_true, reset, Option.isSome_none, Bool.and_self,
      Bool.false_eq_true]
    unfold finishUpdate
    rw [assignInto_eq _ _ (by simp [Smc.nParticles, Smc.warn, recordDatum, hlen])]
    simp only [Bool.false_eq_true, if_false]
    split <;> simp
  refine ⟨key.1, ?_, ?_⟩
  · rw [key.2]; exact hzero
  · rintro ⟨-, h⟩
    rw [key.2] at h
    have : evidence env.likelihood s.weights s.locs o e = 1 := h
    rw [this] at hzero
    exact absurd hzero (not_lt.2 eps_lt_one.le)

/-- **C02, what does hold.**  Under policy `reset` the particle locations do restart from the
prior (canonicalised if so configured, then moved by the model's time step), there are as many as
before, and the user is warned.  Missing from the full claim: the weights, see
`C02_reset_policy_loses_weights`. -/
theorem C02_reset_policy_locations_partial (cfg : SmcConfig K) (env : Env K O E ω)
    (hg : GoodEnv env) (hp : cfg.policy = "reset") (ht : eps ≤ cfg.zeroThresh) (s : Smc K O ω)
    (hlen : s.locs.length = s.weights.length) (hw : ∀ x ∈ s.weights, 0 ≤ x) (o : O) (e : E)
    (hzero : evidence env.likelihood s.weights s.locs o e < eps) :
    let draw := env.prior s.seed s.locs.length
    let start := if cfg.canonicalize then env.canon draw.1 else draw.1
    (update cfg env s o e false).1.locs = (env.timestep draw.2 start e).1 ∧
    (update cfg env s o e false).1.locs.length = s.locs.length ∧
    (update cfg env s o e false).1.warnings = s.warnings ++ [.zeroWeightsReset] := by
  have key : (update cfg env s o e false).1.locs = (env.timestep (env.prior s.seed s.locs.length).2
      (if cfg.canonicalize then env.canon (env.prior s.seed s.locs.length).1
        else (env.prior s.seed s.locs.length).1) e).1 ∧
      (update cfg env s o e false).1.warnings = s.warnings ++ [.zeroWeightsReset] := by
    rw [update_tiny cfg env s o e false hlen hw (fun x => hg.like_nonneg o x e) hzero]
    have hsum : ((s.weights.zip s.locs).map (fun p => p.1 * env.likelihood o p.2 e)).sum ≤
        cfg.zeroThresh := hzero.le.trans ht
    unfold applyUpdate
    rw [if_pos hsum]
    simp only [hp, String.reduceEq, if_false, if_true, reset, Option.isSome_none, Bool.and_self,
      Bool.false_eq_true]
    unfold finishUpdate
    rw [assignInto_eq _ _ (by simp [Smc.nParticles, Smc.warn, recordDatum, hlen])]
    simp only [Bool.false_eq_true, if_false]
    split <;> exact ⟨rfl, rfl⟩
  refine ⟨key.1, ?_, key.2⟩
  rw [key.1, hg.timestep_len]
  split <;> simp [hg.canon_len, hg.prior_len]

/-- Case for C02: a fair cloud at bias 0 sees outcome 0, which is impossible. -/
example :
    let c := { cfg with policy := "reset" }
    let s : Smc ℚ Nat Nat := { fresh with locs := [[0], [0], [0]] }
    evidence coinEnv.likelihood s.weights s.locs 0 () < eps ∧
    (update c coinEnv s 0 () false).1.weights = [0, 0, 0] ∧
    (update c coinEnv s 0 () false).1.locs = [[1 / 4], [1 / 2], [3 / 4]] := by
  refine ⟨?_, by decide +kernel, by decide +kernel⟩
  have : evidence coinEnv.likelihood [1/3, 1/3, 1/3] [[0], [0], [0]] 0 () = 0 := by decide +kernel
  show evidence coinEnv.likelihood [1/3, 1/3, 1/3] [[0], [0], [0]] 0 () < eps
  rw [this]; exact eps_pos

/-! ## C03: `hypothetical_update` is Bayes' rule -/

/-- What one `[outcome, experiment]` cell should hold: the total probability
`n = ∑ wᵢ Lᵢ` and, unless that is below the float spacing, weights with `w'ᵢ n = wᵢ Lᵢ` summing
to one. -/
structure BayesCell (like : List K → K) (w : List K) (locs : List (List K))
    (w' L : List K) (n : K) : Prop where
  length : w'.length = w.length
  likelihoods : L = locs.map like
  norm : n = ((w.zip locs).map fun p => p.1 * like p.2).sum
  bayes : eps ≤ |n| → w'.sum = 1 ∧ ∀ i (hw' : i < w'.length) (hw : i < w.length)
    (hl : i < locs.length), w'[i] * n = w[i] * like locs[i]
  tiny : |n| < eps → ∀ i (hw' : i < w'.length) (hw : i < w.length)
    (hl : i < locs.length), w'[i] = w[i] * like locs[i]

theorem bayesCell_hyp (env : Env K O E ω) (w : List K) (locs : List (List K)) (o : O) (e : E)
    (hlen : locs.length = w.length) : ∃ w' L n, hypCell env w locs o e = .ok (w', L, n) ∧
      BayesCell (fun x => env.likelihood o x e) w locs w' L n := by
  by_cases h : |evidence env.likelihood w locs o e| < eps
  · refine ⟨_, _, _, hypCell_tiny env w locs o e hlen h, ?_, rfl, rfl, fun h' => absurd h
      (not_lt.2 h'), ?_⟩
    · simp [hlen]
    · intro _ i h1 h2 h3; simp
  · refine ⟨_, _, _, hypCell_normal env w locs o e hlen (not_lt.1 h), ?_, rfl, rfl, ?_,
      fun h' => absurd h' h⟩
    · simp [posterior, hlen]
    · intro _
      have hne : evidence env.likelihood w locs o e ≠ 0 := by
        intro h0; rw [h0, abs_zero] at h; exact h eps_pos
      refine ⟨posterior_sum _ _ _ _ _ hne, fun i h1 h2 h3 => ?_⟩
      simp only [posterior, List.getElem_map, List.getElem_zip]
      field_simp

/-- **C03.** For a cloud with one weight per location, `hypothetical_update` on arrays of outcomes
and experiments succeeds, and each cell is Bayes' rule for its outcome and experiment. -/
theorem C03_hypothetical_update_is_bayes (env : Env K O E ω) (s : Smc K O ω)
    (hlen : s.locs.length = s.weights.length) (os : List O) (es : List E) :
    ∃ r, hypotheticalUpdate env s os es = .ok r ∧ List.Forall₂ (fun o row =>
      List.Forall₂ (fun e (c : List K × List K × K) =>
        BayesCell (fun x => env.likelihood o x e) s.weights s.locs c.1 c.2.1 c.2.2) es row) os r := by
  have inner : ∀ o, ∃ row, es.mapM (fun e => hypCell env s.weights s.locs o e) = .ok row ∧
      List.Forall₂ (fun e (c : List K × List K × K) =>
        BayesCell (fun x => env.likelihood o x e) s.weights s.locs c.1 c.2.1 c.2.2) es row := by
    intro o
    induction es with
    | nil => exact ⟨[], rfl, .nil⟩
    | cons e es ih =>
      obtain ⟨row, h1, h2⟩ := ih
      obtain ⟨w', L, n, hc, hb⟩ := bayesCell_hyp env s.weights s.locs o e hlen
      refine ⟨(w', L, n) :: row, ?_, .cons hb h2⟩
      rw [List.mapM_cons, hc, h1]; rfl
  unfold hypotheticalUpdate
  induction os with
  | nil => exact ⟨[], rfl, .nil⟩
  | cons o os ih =>
    obtain ⟨r, h1, h2⟩ := ih
    obtain ⟨row, h3, h4⟩ := inner o
    refine ⟨row :: r, ?_, .cons h4 h2⟩
    rw [List.mapM_cons, h3, h1]; rfl

/-- **C03, impossible outcomes.**  If the outcome has likelihood zero at every particle, the
hypothetical weights are all zero and the reported normalisation is zero. -/
theorem C03_impossible_outcome (env : Env K O E ω) (w : List K) (locs : List (List K))
    (hlen : locs.length = w.length) (o : O) (e : E) (h0 : ∀ x ∈ locs, env.likelihood o x e = 0) :
    hypCell env w locs o e = .ok (List.replicate w.length 0, List.replicate w.length 0, 0) := by
  have hz : (w.zip locs).map (fun p => p.1 * env.likelihood o p.2 e) =
      List.replicate w.length 0 := by
    rw [List.eq_replicate_iff]
    refine ⟨by simp [hlen], ?_⟩
    intro b hb
    obtain ⟨p, hp, rfl⟩ := List.mem_map.1 hb
    rw [h0 _ (List.of_mem_zip hp).2, mul_zero]
  have he : evidence env.likelihood w locs o e = 0 := by
    unfold evidence; rw [hz]; simp
  rw [hypCell_tiny env w locs o e hlen (by rw [he, abs_zero]; exact eps_pos), hz, he]
  congr 3
  unfold Env.likeRow
  rw [List.eq_replicate_iff]
  refine ⟨by simp [hlen], ?_⟩
  intro b hb
  obtain ⟨p, hp, rfl⟩ := List.mem_map.1 hb
  exact h0 _ hp

/-- Case for C03: three particles, both outcomes of one experiment. -/
example : fresh.locs.length = fresh.weights.length ∧
    (hypotheticalUpdate coinEnv fresh [0, 1] [()]).toOption =
    some [[([1/6, 1/3, 1/2], [1/4, 1/2, 3/4], 1/2)], [([1/2, 1/3, 1/6], [3/4, 1/2, 1/4], 1/2)]] := by
  constructor <;> decide +kernel

/-! ## C07: zero-weight policies -/

/-- **C07, policies matter only for impossible data.**  If the outcome has probability at least the
float spacing under the current cloud, `update` does the same whatever the policy string. -/
theorem C07_policy_irrelevant (cfg : SmcConfig K) (env : Env K O E ω) (hg : GoodEnv env)
    (ht : cfg.zeroThresh < 1) (s : Smc K O ω) (hlen : s.locs.length = s.weights.length)
    (hw : ∀ x ∈ s.weights, 0 ≤ x) (o : O) (e : E) (check : Bool)
    (hpos : eps ≤ evidence env.likelihood s.weights s.locs o e) (q : String) :
    update { cfg with policy := q } env s o e check = update cfg env s o e check := by
  rw [update_normal cfg env s o e check hlen hw (fun x => hg.like_nonneg o x e) ht hpos,
    update_normal { cfg with policy := q } env s o e check hlen hw
      (fun x => hg.like_nonneg o x e) ht hpos]
  rfl

/-- What a rejected update may change: only the data record and the just-resampled flag. -/
def OnlyRecorded (s t : Smc K O ω) (o : O) : Prop :=
  t = { s with dataRecord := s.dataRecord ++ [o], justResampled := false }

/-- **C07, table of policies.**  If the outcome has probability below the float spacing, then:
`skip` returns normally, `error` raises `RuntimeError` and an unknown policy raises `ValueError`,
all three leaving everything but the data record and the just-resampled flag as it was; `ignore`
and `warn` accept the (unnormalised) weights and record the normalisation, and `warn` warns. -/
theorem C07_policy_table (cfg : SmcConfig K) (env : Env K O E ω) (hg : GoodEnv env)
    (ht : eps ≤ cfg.zeroThresh) (s : Smc K O ω) (hlen : s.locs.length = s.weights.length)
    (hw : ∀ x ∈ s.weights, 0 ≤ x) (o : O) (e : E)
    (hzero : evidence env.likelihood s.weights s.locs o e < eps) :
    (cfg.policy = "skip" → ∀ check, (update cfg env s o e check).2 = .ok () ∧
      OnlyRecorded s (update cfg env s o e check).1 o) ∧
    (cfg.policy = "error" → ∀ check, (update cfg env s o e check).2 = .error .runtimeError ∧
      OnlyRecorded s (update cfg env s o e check).1 o) ∧
    (cfg.policy ∉ ["ignore", "skip", "warn", "error", "reset"] → ∀ check,
      (update cfg env s o e check).2 = .error .valueError ∧
      OnlyRecorded s (update cfg env s o e check).1 o) ∧
    (cfg.policy = "ignore" ∨ cfg.policy = "warn" →
      (update cfg env s o e false).2 = .ok () ∧
      (update cfg env s o e false).1.weights =
        (s.weights.zip s.locs).map (fun p => p.1 * env.likelihood o p.2 e) ∧
      (update cfg env s o e false).1.normRecord =
        s.normRecord ++ [evidence env.likelihood s.weights s.locs o e] ∧
      (update cfg env s o e false).1.warnings =
        s.warnings ++ (if cfg.policy = "warn" then [.zeroWeights] else [])) := by
  have hsum : ((s.weights.zip s.locs).map (fun p => p.1 * env.likelihood o p.2 e)).sum ≤
        cfg.zeroThresh := hzero.le.trans ht
  have hup := fun check => update_tiny cfg env s o e check hlen hw
    (fun x => hg.like_nonneg o x e) hzero
  refine ⟨?_, ?_, ?_, ?_⟩
  · intro hp check
    rw [hup]; unfold applyUpdate; rw [if_pos hsum]
    simp [hp, OnlyRecorded, recordDatum]
  · intro hp check
    rw [hup]; unfold applyUpdate; rw [if_pos hsum]
    simp [hp, OnlyRecorded, recordDatum]
  · intro hp check
    simp only [List.mem_cons, List.not_mem_nil, or_false, not_or] at hp
    obtain ⟨h1, h2, h3, h4, h5⟩ := hp
    rw [hup]; unfold applyUpdate; rw [if_pos hsum]
    simp [h1, h2, h3, h4, h5, OnlyRecorded, recordDatum]
  · intro hp
    rw [hup]; unfold applyUpdate; rw [if_pos hsum]
    rcases hp with hp | hp
    · simp only [hp, if_true, String.reduceEq, if_false]
      unfold finishUpdate
      rw [assignInto_eq _ _ (by simp [recordDatum, hlen])]
      simp only [Bool.false_eq_true, if_false]
      split <;> simp [recordDatum]
    · simp only [hp, if_true, String.reduceEq, if_false]
      unfold finishUpdate
      rw [assignInto_eq _ _ (by simp [recordDatum, hlen, Smc.warn])]
      simp only [Bool.false_eq_true, if_false]
      split <;> simp [recordDatum, Smc.warn]

/-- Case for C07: an impossible outcome under each policy. -/
example :
    let s : Smc ℚ Nat Nat := { fresh with locs := [[0], [0], [0]] }
    evidence coinEnv.likelihood s.weights s.locs 0 () = 0 ∧
    (update { cfg with policy := "skip" } coinEnv s 0 () true).1.weights = s.weights ∧
    (update cfg coinEnv s 0 () true).1.dataRecord = [0] ∧
    (update { cfg with policy := "ignore" } coinEnv s 0 () false).1.weights = [0, 0, 0] := by
  refine ⟨?_, ?_, ?_, ?_⟩ <;> decide +kernel

/-! ## C50: `reset` -/

/-- **C50.** `reset` without a column selection gives the requested (or the current) number of
particles, drawn from the prior, with uniform weights if weights are reset and otherwise unchanged
weights; records and counters stay. -/
theorem C50_reset_all (cfg : SmcConfig K) (env : Env K O E ω) (hg : GoodEnv env) (s : Smc K O ω)
    (n : Option Nat) (rw_ : Bool) :
    let t := (reset cfg env s n none rw_).1
    let m := n.getD s.locs.length
    (reset cfg env s n none rw_).2 = .ok () ∧ t.locs.length = m ∧
    t.locs = (if cfg.canonicalize then env.canon (env.prior s.seed m).1
      else (env.prior s.seed m).1) ∧
    t.weights = (if rw_ then List.replicate m (1 / (m : K)) else s.weights) ∧
    t.dataRecord = s.dataRecord ∧ t.normRecord = s.normRecord ∧
    t.resampleCount = s.resampleCount ∧ t.minNEss = s.minNEss := by
  have hf := reset_fields cfg env s n none rw_
  obtain ⟨h1, h2, h3, h4, -⟩ := hf
  refine ⟨?_, ?_, ?_, ?_, h1, h2, h4, h3⟩ <;>
  · simp only [reset, Option.isSome_none, Bool.and_false, Bool.false_eq_true, if_false,
      Smc.nParticles]
    first
    | done
    | (cases rw_ <;> simp [hg.canon_len, hg.prior_len, apply_ite List.length])

/-- **C50, both arguments.**  Asking for a new particle number and a column selection at once raises
`ValueError` and changes nothing. -/
theorem C50_reset_both (cfg : SmcConfig K) (env : Env K O E ω) (s : Smc K O ω)
    (n : Nat) (cols : List Nat) (rw_ : Bool) :
    reset cfg env s (some n) (some cols) rw_ = (s, .error .valueError) := by
  simp [reset]

/-- **C50, only some parameters.**  With `only_params`, every parameter outside the selection keeps
its value in every particle, the particle count and every row's length stay the same; without
canonicalisation a selected parameter takes the value of the prior draw. -/
theorem C50_reset_only (cfg : SmcConfig K) (env : Env K O E ω) (hg : GoodEnv env) (s : Smc K O ω)
    (cols : List Nat) (rw_ : Bool) :
    let t := (reset cfg env s none (some cols) rw_).1
    let draw := (env.prior s.seed s.locs.length).1
    (reset cfg env s none (some cols) rw_).2 = .ok () ∧ t.locs.length = s.locs.length ∧
    (∀ i j (hi : i < t.locs.length) (hi' : i < s.locs.length), j ∉ cols →
      t.locs[i][j]? = s.locs[i][j]?) ∧
    (∀ i (hi : i < t.locs.length) (hi' : i < s.locs.length),
      t.locs[i].length = s.locs[i].length) ∧
    (cfg.canonicalize = false → ∀ i j (hi : i < t.locs.length) (hi' : i < s.locs.length)
      (hi'' : i < draw.length) (hj : j < s.locs[i].length) (hj' : j < draw[i].length), j ∈ cols →
      t.locs[i][j]? = some draw[i][j]) := by
  have e2 : (reset cfg env s none (some cols) rw_).2 = .ok () := by simp [reset]
  have e1 : (reset cfg env s none (some cols) rw_).1.locs =
      (let locs := List.zipWith (fun old new =>
        old.mapIdx fun j x => if j ∈ cols then List.getD new j x else x) s.locs
          (env.prior s.seed s.locs.length).1
      if cfg.canonicalize then
        List.zipWith (fun old new => old.mapIdx fun j x =>
          if j ∈ cols then List.getD new (cols.idxOf j) x else x) locs
          (env.canon (locs.map fun row => cols.filterMap fun j => row[j]?)) else locs) := by
    simp only [reset, Option.isSome_none, Bool.false_and, Bool.false_eq_true, if_false,
      Option.getD_none, Smc.nParticles]
    cases rw_ <;> simp
  dsimp only at e1 ⊢
  rw [e1]
  cases hcan : cfg.canonicalize
  · simp only [Bool.false_eq_true, if_false]
    refine ⟨e2, by simp [hg.prior_len], ?_, ?_, ?_⟩
    · intro i j hi hi' hj
      simp [hj]
    · intro i hi hi'
      simp
    · intro _ i j hi hi' hi'' hj hj' hjc
      simp [hjc, List.getElem?_eq_getElem hj, List.getElem?_eq_getElem hj']
  · simp only [if_true]
    refine ⟨e2, by simp [hg.canon_len, hg.prior_len], ?_, ?_, by simp⟩
    · intro i j hi hi' hj
      simp [hj, Function.comp_def]
    · intro i hi hi'
      simp

/-- **C50, a hole.**  A new particle number *without* new weights leaves as many weights as before,
so weights and locations no longer match, and (unless either count is 1) the next update raises. -/
theorem C50_reset_count_without_weights (cfg : SmcConfig K) (env : Env K O E ω) (hg : GoodEnv env)
    (s : Smc K O ω) (m : Nat) (h1 : m ≠ s.weights.length) (h2 : m ≠ 1)
    (h3 : s.weights.length ≠ 1) (o : O) (e : E) (check : Bool) :
    let t := (reset cfg env s (some m) none false).1
    t.weights.length ≠ t.locs.length ∧ (update cfg env t o e check).2 = .error .valueError := by
  obtain ⟨-, hl, -, hw, -⟩ := C50_reset_all cfg env hg s (some m) false
  dsimp only at hl hw ⊢
  simp only [Option.getD_some, Bool.false_eq_true, if_false] at hl hw
  refine ⟨by rw [hl, hw]; exact h1.symm, ?_⟩
  have : hypCell env (recordDatum (reset cfg env s (some m) none false).1 o).weights
      (recordDatum (reset cfg env s (some m) none false).1 o).locs o e = .error .valueError := by
    unfold hypCell
    have hne : bcast (· * ·) (recordDatum (reset cfg env s (some m) none false).1 o).weights
        (env.likeRow (recordDatum (reset cfg env s (some m) none false).1 o).locs o e) =
        .error .valueError := by
      unfold bcast
      simp only [recordDatum, Env.likeRow, List.length_map, hl, hw]
      rw [if_neg h1.symm]
      split
      · rename_i x b ha; rw [ha] at h3; simp at h3
      · rename_i a b y hb _
        have := congrArg List.length hb
        simp only [List.length_map, hl, List.length_singleton] at this
        exact absurd this h2
      · rfl
    dsimp only
    rw [hne]
  unfold update
  dsimp only
  rw [this]

/-- Case for C50: resetting one of two columns; and a count change that breaks the next update. -/
example :
    let s : Smc ℚ Nat Nat := { fresh with locs := [[5, 6], [7, 8], [9, 10]] }
    (reset cfg coinEnv s none (some [0]) true).1.locs = [[1 / 4, 6], [1 / 2, 8], [3 / 4, 10]] ∧
    (update cfg coinEnv (reset cfg coinEnv s (some 2) none false).1 0 () true).2.isOk = false := by
  constructor <;> decide +kernel

end QInfer
