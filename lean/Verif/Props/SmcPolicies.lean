import Verif.Props.SmcHistory
import Verif.Props.SmcCore

/-!
# C04, C06, C08, C09 for every policy, and for batches that raise

`Props/SmcHistory.lean` states these for the policies that keep the weights normalised.  Here the
policy and the model are arbitrary; a datum counts as *accepted* when it leaves an entry in
`normalization_record`.
-/

set_option linter.unusedSectionVars false
set_option linter.unusedSimpArgs false

namespace QInfer

open Demo

variable {K : Type*} {O E ω : Type*}
variable [Field K] [LinearOrder K] [IsStrictOrderedRing K]

/-- The effective sample size `1 / ∑ w²`, infinite if all weights vanish. -/
def Spec.ess (w : List K) : WithTop K :=
  if (w.map fun x => x * x).sum = 0 then ⊤ else ((1 / (w.map fun x => x * x).sum : K) : WithTop K)

theorem nEss_eq_ess (w : List K) : nEss w = Spec.ess w := by
  simp only [nEss, recip, Spec.ess, pow_two]

/-- The two things an `update` can do, for every policy and model: reject the datum, or accept it and
then look at the effective sample size if asked to. -/
theorem update_cases (cfg : SmcConfig K) (env : Env K O E ω) (s : Smc K O ω) (o : O) (e : E) :
    let t := update cfg env s o e false
    (t.1.normRecord = s.normRecord ∧ t.1.minNEss = s.minNEss ∧ update cfg env s o e true = t) ∨
    (t.2 = .ok () ∧ (∃ n, t.1.normRecord = s.normRecord ++ [n]) ∧
      t.1.minNEss = min s.minNEss (nEss t.1.weights) ∧
      update cfg env s o e true = maybeResample cfg env t.1) := by
  have fin : ∀ (t : Smc K O ω) (w : List K) (n : K),
      let r := finishUpdate cfg env t w n e false
      (r.1.normRecord = t.normRecord ∧ r.1.minNEss = t.minNEss ∧
        finishUpdate cfg env t w n e true = r) ∨
      (r.2 = .ok () ∧ (∃ n, r.1.normRecord = t.normRecord ++ [n]) ∧
        r.1.minNEss = min t.minNEss (nEss r.1.weights) ∧
        finishUpdate cfg env t w n e true = maybeResample cfg env r.1) := by
    intro t w n
    unfold finishUpdate
    cases assignInto t.weights w with
    | error err => exact Or.inl ⟨rfl, rfl, rfl⟩
    | ok w' =>
      refine Or.inr ⟨rfl, ⟨n, ?_⟩, ?_, ?_⟩
      · simp only [Bool.false_eq_true, if_false]
        split <;> rfl
      · simp only [Bool.false_eq_true, if_false]
        split
        · rename_i h; exact (min_eq_right h).symm
        · rename_i h; exact (min_eq_left (not_le.1 h).le).symm
      · simp only [Bool.false_eq_true, if_false, if_true]
  have app : ∀ (t : Smc K O ω) (w : List K) (n : K),
      let r := applyUpdate cfg env t w n e false
      (r.1.normRecord = t.normRecord ∧ r.1.minNEss = t.minNEss ∧
        applyUpdate cfg env t w n e true = r) ∨
      (r.2 = .ok () ∧ (∃ n, r.1.normRecord = t.normRecord ++ [n]) ∧
        r.1.minNEss = min t.minNEss (nEss r.1.weights) ∧
        applyUpdate cfg env t w n e true = maybeResample cfg env r.1) := by
    intro t w n
    unfold applyUpdate
    split
    · split
      · exact fin t w n
      split
      · exact Or.inl ⟨rfl, rfl, rfl⟩
      split
      · exact fin (t.warn .zeroWeights) w n
      split
      · exact Or.inl ⟨rfl, rfl, rfl⟩
      split
      · obtain ⟨-, h1, h2, -⟩ := reset_fields cfg env (t.warn .zeroWeightsReset) none none true
        rcases hr : reset cfg env (t.warn .zeroWeightsReset) none none true with ⟨u, err | ⟨⟩⟩
        · rw [hr] at h1 h2
          exact Or.inl ⟨h1, h2, rfl⟩
        · rw [hr] at h1 h2
          have h1' : u.normRecord = t.normRecord := h1
          have h2' : u.minNEss = t.minNEss := h2
          have := fin u w n
          rw [h1', h2'] at this
          exact this
      · exact Or.inl ⟨rfl, rfl, rfl⟩
    · exact fin t w n
  unfold update
  dsimp only
  cases hypCell env (recordDatum s o).weights (recordDatum s o).locs o e with
  | error err => exact Or.inl ⟨rfl, rfl, rfl⟩
  | ok r =>
    obtain ⟨w, L, n⟩ := r
    dsimp only
    split
    · exact app (recordDatum s o) w n
    · exact app ((recordDatum s o).warn .negativeWeights) _ n

/-! ## C04 -/

/-- **C04, any policy.**  If policy `error` would accept all the data, then every other policy gives
the very same final state; so the closed form and the independence of the order hold for every
policy. -/
theorem C04_any_policy (cfg : SmcConfig K) (env : Env K O E ω) (hg : GoodEnv env)
    (hp : cfg.policy = "error") (ht : eps ≤ cfg.zeroThresh) (ht1 : cfg.zeroThresh < 1)
    (ds : List (O × E)) (s : Smc K O ω) (hlen : s.locs.length = s.weights.length)
    (hprob : IsProb s.weights) (hok : (feed cfg env false ds s).2 = .ok ()) (q : String) :
    feed { cfg with policy := q } env false ds s = feed cfg env false ds s := by
  induction ds generalizing s with
  | nil => rfl
  | cons d ds ih =>
    obtain ⟨o, e⟩ := d
    unfold feed at hok ⊢
    dsimp only at hok ⊢
    rcases hu : update cfg env s o e false with ⟨t, err | ⟨⟩⟩
    · rw [hu] at hok; cases hok
    · rw [hu] at hok
      have hev := datum_error_ok cfg env hg hp ht s hlen hprob.1 o e (by rw [hu])
      rw [C07_policy_irrelevant cfg env hg ht1 s hlen hprob.1 o e false hev q, hu]
      have hw := update_winv cfg env hg (Or.inl hp) ht s ⟨hprob, hlen⟩ o e false
      rw [hu] at hw
      exact ih t hw.2 hw.1 hok

/-- **C04, order, any policy.** -/
theorem C04_order_independent_any_policy (cfg : SmcConfig K) (env : Env K O E ω) (hg : GoodEnv env)
    (hst : Static env) (ht : eps ≤ cfg.zeroThresh)
    (ht1 : cfg.zeroThresh < 1) (s : Smc K O ω) (hlen : s.locs.length = s.weights.length)
    (hprob : IsProb s.weights) (ds ds' : List (O × E)) (hperm : ds.Perm ds')
    (hok : (feed { cfg with policy := "error" } env false ds s).2 = .ok ())
    (hok' : (feed { cfg with policy := "error" } env false ds' s).2 = .ok ()) :
    (feed cfg env false ds s).1.weights = dataPosterior env.likelihood s.weights s.locs ds ∧
    (feed cfg env false ds' s).1.weights = (feed cfg env false ds s).1.weights ∧
    (feed cfg env false ds' s).1.locs = (feed cfg env false ds s).1.locs := by
  have h1 := C04_any_policy { cfg with policy := "error" } env hg rfl ht ht1 ds s hlen hprob hok
    cfg.policy
  have h2 := C04_any_policy { cfg with policy := "error" } env hg rfl ht ht1 ds' s hlen hprob hok'
    cfg.policy
  have h3 := C04_order_independent { cfg with policy := "error" } env hg hst rfl ht ht1 s hlen hprob
    ds ds' hperm hok hok'
  have h4 := C04_posterior_closed_form { cfg with policy := "error" } env hg hst rfl ht ht1 s hlen
    hprob ds hok
  change feed cfg env false ds s = _ at h1
  change feed cfg env false ds' s = _ at h2
  rw [h1, h2]
  exact ⟨h4.1, h3.1.symm, h3.2.symm⟩

/-- Case for C04: policy `reset`, two orders of the same three data. -/
example :
    (feed { cfg with policy := "reset" } coinEnv false [(0, ()), (0, ()), (1, ())] fresh).1.weights =
      [3/20, 8/20, 9/20] ∧
    (feed { cfg with policy := "reset" } coinEnv false [(1, ()), (0, ()), (0, ())] fresh).1.weights =
      [3/20, 8/20, 9/20] ∧
    (feed { cfg with policy := "error" } coinEnv false [(1, ()), (0, ()), (0, ())] fresh).2.isOk := by
  refine ⟨?_, ?_, ?_⟩ <;> decide +kernel

/-! ## C06 -/

theorem batchLoop_raises (cfg : SmcConfig K) (env : Env K O E ω) (interval : Int)
    (ds : List (O × E)) (idx : Nat) (s : Smc K O ω)
    (hr : (batchLoop cfg env interval idx ds s).2 ≠ .ok ()) :
    ∃ k, 0 < k ∧ k ≤ ds.length ∧
      batchLoop cfg env interval idx (ds.take k) s = batchLoop cfg env interval idx ds s ∧
      (∀ j < k, (batchLoop cfg env interval idx (ds.take j) s).2 = .ok ()) ∧
      (batchLoop cfg env interval idx ds s).1.dataRecord =
        s.dataRecord ++ (ds.take k).map Prod.fst := by
  induction ds generalizing idx s with
  | nil => exact absurd rfl hr
  | cons d ds ih =>
    obtain ⟨o, e⟩ := d
    have hd := update_data cfg env s o e false
    have zero : ∀ j, j < 1 → (batchLoop cfg env interval idx (((o, e) :: ds).take j) s).2 = .ok () := by
      intro j hj
      obtain rfl : j = 0 := by omega
      rfl
    rcases hu : update cfg env s o e false with ⟨t, err | ⟨⟩⟩
    · rw [hu] at hd
      refine ⟨1, one_pos, by simp, ?_, zero, ?_⟩
      · simp [batchLoop, hu]
      · simp only [batchLoop, hu]; simpa using hd
    · rw [hu] at hd
      by_cases hi : interval = 0
      · refine ⟨1, one_pos, by simp, ?_, zero, ?_⟩
        · simp [batchLoop, hu, hi]
        · simp only [batchLoop, hu, hi, if_true]; simpa using hd
      by_cases hm : ((idx : Int) + 1) % interval = 0
      · rcases hmr : maybeResample cfg env t with ⟨u, err | ⟨⟩⟩
        · have hdu := (maybeResample_fields cfg env t).1
          rw [hmr] at hdu
          refine ⟨1, one_pos, by simp, ?_, zero, ?_⟩
          · simp [batchLoop, hu, hi, hm, hmr]
          · simp only [batchLoop, hu, hi, hm, hmr, if_true, if_false]
            simpa using hdu.trans hd
        · have hdu := (maybeResample_fields cfg env t).1
          rw [hmr] at hdu
          have hstep : ∀ l, batchLoop cfg env interval idx ((o, e) :: l) s =
              batchLoop cfg env interval (idx + 1) l u := by
            intro l; simp [batchLoop, hu, hi, hm, hmr]
          rw [hstep] at hr
          obtain ⟨k, h1, h2, h3, h4, h5⟩ := ih (idx + 1) u hr
          refine ⟨k + 1, by omega, by simpa using h2, ?_, ?_, ?_⟩
          · rw [List.take_succ_cons, hstep, hstep, h3]
          · intro j hj
            rcases j with _ | j
            · rfl
            · rw [List.take_succ_cons, hstep]; exact h4 j (by omega)
          · rw [hstep, h5, show u.dataRecord = s.dataRecord ++ [o] from hdu.trans hd]
            simp
      · have hstep : ∀ l, batchLoop cfg env interval idx ((o, e) :: l) s =
            batchLoop cfg env interval (idx + 1) l t := by
          intro l; simp [batchLoop, hu, hi, hm]
        rw [hstep] at hr
        obtain ⟨k, h1, h2, h3, h4, h5⟩ := ih (idx + 1) t hr
        refine ⟨k + 1, by omega, by simpa using h2, ?_, ?_, ?_⟩
        · rw [List.take_succ_cons, hstep, hstep, h3]
        · intro j hj
          rcases j with _ | j
          · rfl
          · rw [List.take_succ_cons, hstep]; exact h4 j (by omega)
        · rw [hstep, h5, show t.dataRecord = s.dataRecord ++ [o] from hd]
          simp

/-- **C06, a batch that raises.**  The outcomes recorded are those up to and including the one at
which the batch raised: if `k` is the least number of leading data that already makes `batch_update`
raise, then exactly the first `k` outcomes are recorded, and the rest of the batch has had no effect
at all. -/
theorem C06_batch_raises (cfg : SmcConfig K) (env : Env K O E ω) (s : Smc K O ω) (os : List O)
    (es : List E) (interval : Int) (hlen : es.length = os.length)
    (hr : (batchUpdate cfg env s os es interval).2 ≠ .ok ()) :
    ∃ k, 0 < k ∧ k ≤ os.length ∧
      batchUpdate cfg env s (os.take k) (es.take k) interval = batchUpdate cfg env s os es interval ∧
      (∀ j < k, (batchUpdate cfg env s (os.take j) (es.take j) interval).2 = .ok ()) ∧
      (batchUpdate cfg env s os es interval).1.dataRecord = s.dataRecord ++ os.take k := by
  have hz : ∀ j, (os.zip es).take j = (os.take j).zip (es.take j) := fun j => List.take_zipWith
  have hb : ∀ j, batchUpdate cfg env s (os.take j) (es.take j) interval =
      batchLoop cfg env interval 0 ((os.zip es).take j) s := by
    intro j
    rw [batchUpdate, if_neg (by simp [hlen]), hz]
  have h0 : batchUpdate cfg env s os es interval = batchLoop cfg env interval 0 (os.zip es) s := by
    rw [batchUpdate, if_neg (by simp [hlen])]
  rw [h0] at hr
  obtain ⟨k, h1, h2, h3, h4, h5⟩ := batchLoop_raises cfg env interval (os.zip es) 0 s hr
  refine ⟨k, h1, by simpa [hlen] using h2, ?_, ?_, ?_⟩
  · rw [hb, h0, h3]
  · intro j hj; rw [hb]; exact h4 j hj
  · rw [h0, h5, hz, List.map_fst_zip (by simp [hlen])]

/-- The normalisation of a datum, if it is accepted. -/
def normStep (env : Env K O E ω) (s : Smc K O ω) : Micro O E → List K
  | .datum o e => if eps ≤ evidence env.likelihood s.weights s.locs o e then
      [evidence env.likelihood s.weights s.locs o e] else []
  | _ => []

/-- The normalisations of the accepted data of a history, in order. -/
def normsSeen (cfg : SmcConfig K) (env : Env K O E ω) : List (Micro O E) → Smc K O ω → List K
  | [], _ => []
  | m :: ms, s => normStep env s m ++ normsSeen cfg env ms (microStep cfg env s m)

/-- **C06, normalization record of a history.**  With policy `error` or `skip`, after any history of
elementary steps `normalization_record` has grown by exactly the probabilities of the accepted data,
each under the cloud at its time, in order; resampling and resets leave no entry and remove none. -/
theorem C06_normalizations_of_history (cfg : SmcConfig K) (env : Env K O E ω) (hg : GoodEnv env)
    (hp : cfg.policy = "error" ∨ cfg.policy = "skip") (ht : eps ≤ cfg.zeroThresh)
    (ht1 : cfg.zeroThresh < 1) (ms : List (Micro O E)) (hms : ∀ m ∈ ms, m.Sane)
    (s : Smc K O ω) (hprob : IsProb s.weights) (hlen : s.locs.length = s.weights.length) :
    (runMicro cfg env ms s).normRecord = s.normRecord ++ normsSeen cfg env ms s := by
  induction ms generalizing s with
  | nil => simp [runMicro, normsSeen]
  | cons m ms ih =>
    have hr : runMicro cfg env (m :: ms) s = runMicro cfg env ms (microStep cfg env s m) := rfl
    have hs' := micro_winv cfg env hg hp ht s ⟨hprob, hlen⟩ m (hms m (by simp))
    rw [hr, ih (fun x hx => hms x (by simp [hx])) _ hs'.1 hs'.2, normsSeen, ← List.append_assoc]
    congr 1
    cases m with
    | datum o e =>
      have h := C06_normalization_record cfg env hg ht ht1 s hlen hprob.1 o e false
      have hq : cfg.policy ∉ ["ignore", "warn", "reset"] := by
        rcases hp with hp | hp <;> rw [hp] <;> decide
      rw [show microStep cfg env s (.datum o e) = (update cfg env s o e false).1 from rfl, h, normStep]
      by_cases hev : eps ≤ evidence env.likelihood s.weights s.locs o e
      · rw [if_pos hev, if_neg (fun h => absurd h.1 (not_lt.2 hev))]
      · rw [if_neg hev, if_pos ⟨not_le.1 hev, hq⟩]
    | check => simpa [normStep, microStep] using (maybeResample_fields cfg env s).2.1
    | resample => simpa [normStep, microStep] using (resample_fields cfg env s).2.1
    | reset n only rw_ => simpa [normStep, microStep] using (reset_fields cfg env s n only rw_).2.1

/-! ## C08 and C09 for every policy -/

/-- **C08, any policy and model.**  An accepted `update` that checks performs one resampling exactly if
the effective sample size of the weights the same call leaves without checking is strictly below
`n_particles * resample_thresh`; a rejected one does exactly what it does without checking, which
resamples nothing. -/
theorem C08_any_policy (cfg : SmcConfig K) (env : Env K O E ω) (s : Smc K O ω) (o : O) (e : E) :
    let t := (update cfg env s o e false).1
    let t' := (update cfg env s o e true).1
    (t.resampleCount = s.resampleCount ∧ t.justResampled = false) ∧
    (t.normRecord ≠ s.normRecord →
      ((Spec.ess t.weights < (((t.locs.length : K) * cfg.resampleThresh : K) : WithTop K) →
        t'.resampleCount = s.resampleCount + 1 ∧ t'.justResampled = true) ∧
      (¬ Spec.ess t.weights < (((t.locs.length : K) * cfg.resampleThresh : K) : WithTop K) →
        t'.resampleCount = s.resampleCount ∧ t'.justResampled = false ∧ t'.weights = t.weights ∧
        t'.locs = t.locs))) ∧
    (t.normRecord = s.normRecord → t' = t) := by
  obtain ⟨hj, hc⟩ := datum_just cfg env s o e
  refine ⟨⟨hc, hj⟩, ?_, ?_⟩
  · intro hn
    rcases update_cases cfg env s o e with ⟨h, -⟩ | ⟨-, -, -, h⟩
    · exact absurd h hn
    · have hm := maybeResample_count cfg env (update cfg env s o e false).1
      dsimp only at hm
      rw [nEss_eq_ess, hc, hj] at hm
      rw [h]
      rcases hm with ⟨a, b, c⟩ | ⟨a, b, c, d, d', -⟩
      · exact ⟨fun _ => ⟨b, c⟩, fun h => absurd a h⟩
      · exact ⟨fun h => absurd h a, fun _ => ⟨b, c, d, d'⟩⟩
  · intro hn
    rcases update_cases cfg env s o e with ⟨-, -, h⟩ | ⟨-, ⟨n, h⟩, -⟩
    · rw [h]
    · exfalso
      rw [hn] at h
      simpa using congrArg List.length h

/-- The effective sample size right after a datum, if the datum is accepted. -/
def essAfter (cfg : SmcConfig K) (env : Env K O E ω) (s : Smc K O ω) (m : Micro O E) :
    List (WithTop K) :=
  if (microStep cfg env s m).normRecord = s.normRecord then []
  else [Spec.ess (microStep cfg env s m).weights]

/-- The effective sample sizes right after the accepted data of a history, in order. -/
def essAll (cfg : SmcConfig K) (env : Env K O E ω) :
    List (Micro O E) → Smc K O ω → List (WithTop K)
  | [], _ => []
  | m :: ms, s => essAfter cfg env s m ++ essAll cfg env ms (microStep cfg env s m)

/-- **C09, any policy and model.**  After any history of elementary steps, for every policy and every
model and resampler, `min_n_ess` is the minimum of its initial value and the effective sample sizes
right after the accepted data. -/
theorem C09_any_policy (cfg : SmcConfig K) (env : Env K O E ω) (ms : List (Micro O E))
    (s : Smc K O ω) :
    (runMicro cfg env ms s).minNEss = (essAll cfg env ms s).foldl min s.minNEss := by
  induction ms generalizing s with
  | nil => rfl
  | cons m ms ih =>
    have hr : runMicro cfg env (m :: ms) s = runMicro cfg env ms (microStep cfg env s m) := rfl
    rw [hr, ih, essAll, List.foldl_append]
    congr 1
    unfold essAfter
    cases m with
    | datum o e =>
      rw [show (microStep cfg env s (.datum o e)) = (update cfg env s o e false).1 from rfl]
      rcases update_cases cfg env s o e with ⟨h, h', -⟩ | ⟨-, ⟨n, h⟩, h', -⟩
      · rw [if_pos h]; exact h'
      · rw [if_neg (by rw [h]; simp), h', nEss_eq_ess]; rfl
    | check =>
      rw [show (microStep cfg env s .check) = (maybeResample cfg env s).1 from rfl,
        if_pos (maybeResample_fields cfg env s).2.1]
      exact (maybeResample_fields cfg env s).2.2
    | resample =>
      rw [show (microStep cfg env s .resample) = (resample cfg env s).1 from rfl,
        if_pos (resample_fields cfg env s).2.1]
      exact (resample_fields cfg env s).2.2.1
    | reset n only rw_ =>
      rw [show (microStep cfg env s (.reset n only rw_)) = (reset cfg env s n only rw_).1 from rfl,
        if_pos (reset_fields cfg env s n only rw_).2.1]
      exact (reset_fields cfg env s n only rw_).2.2.1

/-- Case for C06, C08 and C09: policy `ignore` and a cloud at bias 0, for which outcome 0 is
impossible.  The impossible datum is accepted and leaves zero weights, whose effective sample size is
infinite: `min_n_ess` stays and nothing is resampled. -/
example :
    let c : SmcConfig ℚ := { cfg with policy := "ignore" }
    let s : Smc ℚ Nat Nat := { fresh with locs := [[0], [0], [0]] }
    essAll c coinEnv [.datum 1 (), .datum 0 ()] s = [((3 : ℚ) : WithTop ℚ), ⊤] ∧
    (update c coinEnv s 0 () true).1.weights = [0, 0, 0] ∧
    (update c coinEnv s 0 () true).1.resampleCount = 0 := by
  refine ⟨?_, ?_, ?_⟩ <;> decide +kernel

/-- Case for C06: a batch of three whose second datum raises. -/
example :
    let s : Smc ℚ Nat Nat := { fresh with locs := [[0], [0], [0]] }
    (batchUpdate cfg coinEnv s [1, 0, 1] [(), (), ()] 5).2.isOk = false ∧
    (batchUpdate cfg coinEnv s [1] [()] 5).2.isOk = true ∧
    (batchUpdate cfg coinEnv s [1, 0, 1] [(), (), ()] 5).1.dataRecord = [1, 0] ∧
    normsSeen cfg coinEnv [.datum 1 (), .datum 0 (), .resample, .datum 1 ()] s = [1, 1] := by
  refine ⟨?_, ?_, ?_, ?_⟩ <;> decide +kernel

end QInfer
