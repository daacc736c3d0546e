import Verif.Lemmas.SmcMicro
import Verif.Demo.Smc

/-!
# Further updater properties: C54 (clipping), C55 (resampling bookkeeping), C56 (construction)
-/

set_option linter.unusedSectionVars false

namespace QInfer

open Demo

variable {K : Type*} {O E ω : Type*}
variable [Field K] [LinearOrder K] [IsStrictOrderedRing K]

/-! ## C54 -/

/-- No negative weight. -/
def NonNeg (w : List K) : Prop := ∀ x ∈ w, 0 ≤ x

theorem assignInto_nonneg (dst src out : List K) (h : NonNeg src)
    (ho : assignInto dst src = .ok out) : NonNeg out := by
  unfold assignInto at ho
  split at ho
  · cases ho; exact h
  · split at ho
    · cases ho
      intro x hx
      rw [List.eq_of_mem_replicate hx]
      exact h _ (by simp)
    · cases ho

theorem finishUpdate_nonneg (cfg : SmcConfig K) (env : Env K O E ω) (s : Smc K O ω) (w : List K)
    (norm : K) (e : E) (hs : NonNeg s.weights) (hw : NonNeg w) :
    NonNeg (finishUpdate cfg env s w norm e false).1.weights := by
  unfold finishUpdate
  cases h : assignInto s.weights w with
  | error err => exact hs
  | ok out =>
    have := assignInto_nonneg _ _ _ hw h
    simp only [Bool.false_eq_true, if_false]
    split <;> exact this

theorem reset_nonneg (cfg : SmcConfig K) (env : Env K O E ω) (s : Smc K O ω) (n : Option Nat)
    (only : Option (List Nat)) (rw_ : Bool) (hs : NonNeg s.weights) :
    NonNeg (reset cfg env s n only rw_).1.weights := by
  unfold reset
  split
  · exact hs
  · have key : NonNeg (if rw_ then
        { s with weights := List.replicate (n.getD s.nParticles)
                  (1 / ((n.getD s.nParticles : Nat) : K)) } else s).weights := by
      split
      · intro x hx
        rw [List.eq_of_mem_replicate hx]
        positivity
      · exact hs
    cases only <;> exact key

theorem update_nonneg (cfg : SmcConfig K) (env : Env K O E ω) (s : Smc K O ω) (o : O) (e : E)
    (hs : NonNeg s.weights) : NonNeg (update cfg env s o e false).1.weights := by
  have happ : ∀ (t : Smc K O ω) (w : List K) (norm : K), NonNeg t.weights → NonNeg w →
      NonNeg (applyUpdate cfg env t w norm e false).1.weights := by
    intro t w norm ht hw
    unfold applyUpdate
    split
    · split
      · exact finishUpdate_nonneg _ _ _ _ _ _ ht hw
      · split
        · exact ht
        · split
          · exact finishUpdate_nonneg _ _ _ _ _ _ ht hw
          · split
            · exact ht
            · split
              · have hr := reset_nonneg cfg env (t.warn .zeroWeightsReset) none none true ht
                generalize reset cfg env (t.warn .zeroWeightsReset) none none true = r at hr
                obtain ⟨t', r⟩ := r
                cases r with
                | error err => exact hr
                | ok u => exact finishUpdate_nonneg _ _ _ _ _ _ hr hw
              · exact ht
    · exact finishUpdate_nonneg _ _ _ _ _ _ ht hw
  unfold update
  dsimp only
  split
  · exact hs
  · split
    · rename_i h
      refine happ _ _ _ hs ?_
      intro x hx
      simpa using List.all_eq_true.1 h x hx
    · refine happ _ _ _ hs ?_
      intro x hx
      obtain ⟨y, -, rfl⟩ := List.mem_map.1 hx
      unfold clip
      exact le_min (le_max_right _ _) zero_le_one

theorem resample_nonneg (cfg : SmcConfig K) (env : Env K O E ω) (s : Smc K O ω)
    (hr : ∀ r w l w' l', (env.resampler r w l).1 = .ok (w', l') → NonNeg w')
    (hs : NonNeg s.weights) : NonNeg (resample cfg env s).1.weights := by
  have hm : (markResampled s).weights = s.weights := by
    unfold markResampled; cases s.justResampled <;> rfl
  unfold resample runResampler
  generalize hq : env.resampler (markResampled s).seed (markResampled s).weights
    (markResampled s).locs = q
  obtain ⟨q, seed⟩ := q
  cases q with
  | error err => simp only; rw [hm]; exact hs
  | ok p =>
    obtain ⟨w, l⟩ := p
    have hw := hr _ _ _ w l (by rw [hq])
    dsimp only
    cases (markResampled s).divergences <;> cases env.clearCacheRaises <;> exact hw

/-- **C54, invariant.**  For every likelihood function (also one returning negative numbers), every
zero-weight policy and threshold, every prior and time step, and every resampler that returns
non-negative weights: after any history of public calls, exceptions included, no weight is
negative. -/
theorem C54_weights_nonneg (cfg : SmcConfig K) (env : Env K O E ω)
    (hr : ∀ r w l w' l', (env.resampler r w l).1 = .ok (w', l') → ∀ x ∈ w', 0 ≤ x)
    (n : Nat) (track : Bool) (seed : ω) (ops : List (Op O E)) :
    ∀ x ∈ (run cfg env ops (construct cfg env n track seed).1).weights, 0 ≤ x := by
  obtain ⟨mss, -, h⟩ := run_micro cfg env ops (construct cfg env n track seed).1
  rw [h]
  have h0 : NonNeg (construct cfg env n track seed).1.weights :=
    reset_nonneg _ _ _ _ _ _ (by intro x hx; simp at hx)
  generalize (construct cfg env n track seed).1 = s at h0
  generalize mss.flatten = ms
  show NonNeg _
  induction ms generalizing s with
  | nil => exact h0
  | cons m ms ih =>
    have : runMicro cfg env (m :: ms) s = runMicro cfg env ms (microStep cfg env s m) := rfl
    rw [this]
    apply ih
    cases m with
    | datum o e => exact update_nonneg cfg env s o e h0
    | resample => exact resample_nonneg cfg env s hr h0
    | reset n only rw_ => exact reset_nonneg cfg env s n only rw_ h0
    | check =>
      show NonNeg (maybeResample cfg env s).1.weights
      unfold maybeResample
      dsimp only
      have hw : NonNeg (if nEss s.weights ≤ ((10 : K) : WithTop K) then s.warn .smallEss
          else s).weights := by split <;> exact h0
      generalize (if nEss s.weights ≤ ((10 : K) : WithTop K) then s.warn .smallEss else s) = t at hw
      split
      · exact resample_nonneg cfg env t hr hw
      · exact hw

theorem clip_sum_ge (l : List K) :
    (∀ x ∈ l, x < 1) → l.sum ≤ (l.map (clip 0 1)).sum ∧
      ((∃ x ∈ l, x < 0) → l.sum < (l.map (clip 0 1)).sum) := by
  induction l with
  | nil => simp
  | cons a l ih =>
    intro h
    obtain ⟨h1, h2⟩ := ih fun x hx => h x (by simp [hx])
    have ha := h a (by simp)
    have hc : a ≤ clip 0 1 a := by unfold clip; exact le_min (le_max_left _ _) ha.le
    rw [List.map_cons, List.sum_cons, List.sum_cons]
    refine ⟨add_le_add hc h1, ?_⟩
    rintro ⟨x, hx, hneg⟩
    rcases List.mem_cons.1 hx with rfl | hx
    · have : x < clip 0 1 x := by
        unfold clip; exact lt_min (lt_max_of_lt_right hneg) ha
      exact add_lt_add_of_lt_of_le this h1
    · exact add_lt_add_of_le_of_lt hc (h2 ⟨x, hx, hneg⟩)

/-- **C54, clipping.**  When the normalised weights contain a negative number, `update` warns and
stores them cut to `[0, 1]`; they are not normalised again: their sum is at least one, and more than
one whenever no weight exceeded one. -/
theorem C54_clipping (cfg : SmcConfig K) (env : Env K O E ω) (s : Smc K O ω) (o : O) (e : E)
    (hlen : s.locs.length = s.weights.length) (ht : cfg.zeroThresh < 1)
    (hev : eps ≤ |evidence env.likelihood s.weights s.locs o e|)
    (hneg : ∃ x ∈ posterior env.likelihood s.weights s.locs o e, x < 0) :
    let p := posterior env.likelihood s.weights s.locs o e
    let t := (update cfg env s o e false).1
    (update cfg env s o e false).2 = .ok () ∧
    t.weights = p.map (fun x => min 1 (max 0 x)) ∧ t.warnings = s.warnings ++ [.negativeWeights] ∧
    1 ≤ t.weights.sum ∧ ((∀ x ∈ p, x < 1) → 1 < t.weights.sum) := by
  intro p t
  have hne : evidence env.likelihood s.weights s.locs o e ≠ 0 := by
    intro h0
    rw [h0, abs_zero] at hev
    exact absurd hev (not_le.2 eps_pos)
  have hsum : p.sum = 1 := posterior_sum env.likelihood s.weights s.locs o e hne
  have hall : ¬ (p.all fun x => decide (0 ≤ x)) = true := by
    intro h
    obtain ⟨x, hx, hlt⟩ := hneg
    have := List.all_eq_true.1 h x hx
    simp only [decide_eq_true_eq] at this
    exact absurd hlt (not_lt.2 this)
  have hclip : p.map (clip 0 1) = p.map (fun x => min 1 (max 0 x)) := by
    apply List.map_congr_left
    intro x _
    unfold clip
    rw [min_comm, max_comm]
  have hbound : ∀ x ∈ p.map (clip 0 1), 0 ≤ x := by
    intro x hx
    obtain ⟨y, -, rfl⟩ := List.mem_map.1 hx
    unfold clip
    exact le_min (le_max_right _ _) zero_le_one
  have hge : 1 ≤ (p.map (clip 0 1)).sum := by
    by_cases hbig : ∃ x ∈ p, 1 ≤ x
    · obtain ⟨x, hx, h1⟩ := hbig
      have hc : clip 0 1 x = 1 := by
        unfold clip; rw [max_eq_left (zero_le_one.trans h1), min_eq_right h1]
      have hm : (1 : K) ∈ p.map (clip 0 1) := List.mem_map.2 ⟨x, hx, hc⟩
      exact List.single_le_sum hbound _ hm
    · have := (clip_sum_ge p (fun x hx => lt_of_not_ge fun h => hbig ⟨x, hx, h⟩)).1
      rwa [hsum] at this
  have hcell := hypCell_normal env s.weights s.locs o e hlen hev
  have hplen : p.length = s.weights.length := by
    show (posterior env.likelihood s.weights s.locs o e).length = _
    simp [posterior, hlen]
  have hupd : update cfg env s o e false = finishUpdate cfg env
      ((recordDatum s o).warn .negativeWeights) (p.map (clip 0 1))
      (evidence env.likelihood s.weights s.locs o e) e false := by
    have h' : hypCell env (recordDatum s o).weights (recordDatum s o).locs o e = _ := hcell
    unfold update
    dsimp only
    rw [h']
    dsimp only
    rw [if_neg hall]
    unfold applyUpdate
    rw [if_neg (not_le.2 (lt_of_lt_of_le ht hge))]
  have hfin : (update cfg env s o e false).2 = .ok () ∧ t.weights = p.map (clip 0 1) ∧
      t.warnings = s.warnings ++ [.negativeWeights] := by
    show (update cfg env s o e false).2 = .ok () ∧ (update cfg env s o e false).1.weights = _ ∧
      (update cfg env s o e false).1.warnings = _
    rw [hupd]
    unfold finishUpdate
    rw [assignInto_eq _ _ (by simp [Smc.warn, recordDatum, hplen])]
    simp only [Bool.false_eq_true, if_false]
    split <;> exact ⟨trivial, rfl, rfl⟩
  refine ⟨hfin.1, by rw [hfin.2.1, hclip], hfin.2.2, by rw [hfin.2.1]; exact hge, ?_⟩
  intro hlt
  rw [hfin.2.1]
  have := (clip_sum_ge p hlt).2 hneg
  rwa [hsum] at this

/-- Case for `C54_clipping`: a model whose likelihood goes negative. -/
example :
    let env := { coinEnv with likelihood := fun _ x _ => x.headD 0 - 3/8 }
    let s := fresh
    posterior env.likelihood s.weights s.locs 0 () = [-1/3, 1/3, 1] ∧
    (update cfg env s 0 () false).1.weights = [0, 1/3, 1] ∧
    (update cfg env s 0 () false).1.warnings = [.negativeWeights] := by decide +kernel

/-! ## C55 -/

/-- **C55, one call.**  `resample` warns about missing new data exactly if the flag from the previous
resampling is still set; if it succeeds it warns about an uncleared cache exactly if the model could
not clear it; no other warning is given. -/
theorem C55_resample_warnings (cfg : SmcConfig K) (env : Env K O E ω) (s : Smc K O ω) :
    (resample cfg env s).1.warnings = s.warnings ++
      (if s.justResampled then [.resampleNoData] else []) ++
      (match (resample cfg env s).2 with
        | .ok () => if env.clearCacheRaises then [.clearCache] else []
        | .error _ => []) := by
  unfold resample runResampler markResampled
  dsimp only
  cases s.justResampled <;> simp only [Bool.false_eq_true, if_false, if_true, Smc.warn] <;>
  · generalize env.resampler _ _ _ = q
    obtain ⟨q, seed⟩ := q
    cases q with
    | error err => simp
    | ok p =>
      obtain ⟨w, l⟩ := p
      dsimp only
      cases s.divergences <;> cases env.clearCacheRaises <;> simp

/-- **C55, histories.**  After any history: resampling twice in a row warns the second time, also with
calls to `reset` in between; resampling after handing over a datum (even one whose update raised)
does not. -/
theorem C55_no_data_warning (cfg : SmcConfig K) (env : Env K O E ω) (ops : List (Op O E))
    (s₀ : Smc K O ω) :
    let s := run cfg env ops s₀
    (∀ resets : List (Option Nat × Option (List Nat) × Bool),
      let t := (resets.foldl (fun t r => (reset cfg env t r.1 r.2.1 r.2.2).1) (resample cfg env s).1)
      ∃ more, (resample cfg env t).1.warnings = t.warnings ++ .resampleNoData :: more) ∧
    (∀ o e, let t := (update cfg env s o e false).1
      ∃ more, (resample cfg env t).1.warnings = t.warnings ++ more ∧ .resampleNoData ∉ more) := by
  intro s
  constructor
  · intro resets t
    have hj : t.justResampled = true := by
      have h0 : (resample cfg env s).1.justResampled = true := (resample_fields cfg env s).2.2.2.2
      have : ∀ (rs : List (Option Nat × Option (List Nat) × Bool)) (u : Smc K O ω),
          u.justResampled = true →
          (rs.foldl (fun t r => (reset cfg env t r.1 r.2.1 r.2.2).1) u).justResampled = true := by
        intro rs
        induction rs with
        | nil => exact fun u h => h
        | cons r rs ih =>
          intro u h
          apply ih
          rw [(reset_fields cfg env u r.1 r.2.1 r.2.2).2.2.2.2.1]; exact h
      exact this resets _ h0
    rw [C55_resample_warnings, hj]
    exact ⟨_, by rw [if_pos rfl, List.append_assoc]; rfl⟩
  · intro o e t
    have hj : t.justResampled = false := by
      show (update cfg env s o e false).1.justResampled = false
      have hfin : ∀ (u : Smc K O ω) (w : List K) (norm : K), u.justResampled = false →
          (finishUpdate cfg env u w norm e false).1.justResampled = false := by
        intro u w norm hu
        unfold finishUpdate
        split
        · exact hu
        · simp only [Bool.false_eq_true, if_false]
          split <;> exact hu
      have happ : ∀ (u : Smc K O ω) (w : List K) (norm : K), u.justResampled = false →
          (applyUpdate cfg env u w norm e false).1.justResampled = false := by
        intro u w norm hu
        unfold applyUpdate
        split
        · split
          · exact hfin _ _ _ hu
          · split
            · exact hu
            · split
              · exact hfin _ _ _ hu
              · split
                · exact hu
                · split
                  · have hr := (reset_fields cfg env (u.warn .zeroWeightsReset) none none
                      true).2.2.2.2.1
                    generalize reset cfg env (u.warn .zeroWeightsReset) none none true = r at hr
                    obtain ⟨t', r⟩ := r
                    have hr' : t'.justResampled = false := hr.trans hu
                    cases r with
                    | error err => exact hr'
                    | ok u => exact hfin _ _ _ hr'
                  · exact hu
        · exact hfin _ _ _ hu
      unfold update
      dsimp only
      split
      · rfl
      · split <;> exact happ _ _ _ rfl
    rw [C55_resample_warnings, hj]
    refine ⟨_, by rw [List.append_assoc], ?_⟩
    rw [if_neg (by decide), List.nil_append]
    split
    · split <;> simp
    · simp

/-- **C55, divergences.**  With tracking on, every successful resampling records the divergence of the
cloud it leaves from the cloud it found; a failed one records nothing; without tracking nothing is
ever recorded. -/
theorem C55_divergences (cfg : SmcConfig K) (env : Env K O E ω) (s : Smc K O ω) :
    let t := (resample cfg env s).1
    (∀ ds, s.divergences = some ds → (resample cfg env s).2 = .ok () →
      t.divergences = some (ds ++ [env.kl t.weights t.locs s.weights s.locs])) ∧
    (∀ err, (resample cfg env s).2 = .error err →
      t.divergences = s.divergences ∧ t.weights = s.weights ∧ t.locs = s.locs) ∧
    (s.divergences = none → t.divergences = none) := by
  have hm : (markResampled s).divergences = s.divergences ∧ (markResampled s).weights = s.weights ∧
      (markResampled s).locs = s.locs := by
    unfold markResampled; cases s.justResampled <;> exact ⟨rfl, rfl, rfl⟩
  unfold resample runResampler
  generalize markResampled s = u at hm
  obtain ⟨h1, h2, h3⟩ := hm
  rw [← h1, ← h2, ← h3]
  generalize env.resampler _ _ _ = q
  obtain ⟨q, seed⟩ := q
  cases q with
  | error err => simp
  | ok p =>
    obtain ⟨w, l⟩ := p
    dsimp only
    cases u.divergences <;> cases env.clearCacheRaises <;> simp [Smc.warn]

/-- **C55, the new cloud.**  A successful resampling leaves the resampler's weights, and its locations
canonicalised if so configured; the resampler sees the cloud as it was before the call. -/
theorem C55_resampled_cloud (cfg : SmcConfig K) (env : Env K O E ω) (s : Smc K O ω)
    (hok : (resample cfg env s).2 = .ok ()) :
    ∃ w l seed, env.resampler s.seed s.weights s.locs = (.ok (w, l), seed) ∧
      (resample cfg env s).1.weights = w ∧ (resample cfg env s).1.seed = seed ∧
      (resample cfg env s).1.locs = (if cfg.canonicalize = true then env.canon l else l) := by
  have hm : (markResampled s).seed = s.seed ∧ (markResampled s).weights = s.weights ∧
      (markResampled s).locs = s.locs := by
    unfold markResampled; cases s.justResampled <;> exact ⟨rfl, rfl, rfl⟩
  unfold resample runResampler at hok ⊢
  generalize markResampled s = u at hm hok
  obtain ⟨h1, h2, h3⟩ := hm
  rw [← h1, ← h2, ← h3]
  generalize env.resampler _ _ _ = q at hok
  obtain ⟨q, seed⟩ := q
  cases q with
  | error err => simp at hok
  | ok p =>
    obtain ⟨w, l⟩ := p
    refine ⟨w, l, seed, rfl, ?_⟩
    dsimp only
    cases u.divergences <;> cases env.clearCacheRaises <;> exact ⟨rfl, rfl, rfl⟩

/-- **C55, low effective sample size.**  When the updater looks at the effective sample size it warns
exactly if that is at most ten, before deciding about resampling. -/
theorem C55_small_ess_warning (cfg : SmcConfig K) (env : Env K O E ω) (s : Smc K O ω) :
    ∃ more, (maybeResample cfg env s).1.warnings = s.warnings ++
        (if nEss s.weights ≤ ((10 : K) : WithTop K) then [.smallEss] else []) ++ more ∧
      .smallEss ∉ more ∧
      (¬ nEss s.weights < (((s.locs.length : K) * cfg.resampleThresh : K) : WithTop K) →
        more = []) := by
  have hres : ∀ t : Smc K O ω, ∃ more, (resample cfg env t).1.warnings = t.warnings ++ more ∧
      Warn.smallEss ∉ more := by
    intro t
    rw [C55_resample_warnings]
    refine ⟨_, by rw [List.append_assoc], ?_⟩
    rw [List.mem_append, not_or]
    constructor
    · split <;> simp
    · split
      · split <;> simp
      · simp
  unfold maybeResample
  dsimp only
  have hn : (if nEss s.weights ≤ ((10 : K) : WithTop K) then s.warn .smallEss else s).nParticles
      = s.locs.length := by split <;> rfl
  rw [hn]
  have hw : (if nEss s.weights ≤ ((10 : K) : WithTop K) then s.warn .smallEss else s).warnings =
      s.warnings ++ (if nEss s.weights ≤ ((10 : K) : WithTop K) then [.smallEss] else []) := by
    split <;> simp [Smc.warn]
  rw [← hw]
  generalize (if nEss s.weights ≤ ((10 : K) : WithTop K) then s.warn .smallEss else s) = t
  split
  · rename_i h
    obtain ⟨more, h1, h2⟩ := hres t
    exact ⟨more, h1, h2, fun h' => absurd h h'⟩
  · exact ⟨[], by simp, by simp, fun _ => rfl⟩

/-- Case for C55: two resamplings in a row with tracking and a cache that cannot be cleared. -/
example :
    let env := { coinEnv with clearCacheRaises := true, kl := fun _ _ w _ => w.headD 0 }
    let s := (update cfg env (construct cfg env 3 true 0).1 0 () false).1
    s.weights = [1/6, 1/3, 1/2] ∧
    (run cfg env [.resample, .resample] s).warnings = [.clearCache, .resampleNoData, .clearCache] ∧
    (run cfg env [.resample, .resample] s).divergences = some [1/6, 1/3] := by decide +kernel

/-! ## C56 -/

/-- **C56, fresh updater.**  Construction with `n` particles gives `n` prior draws (canonicalised if
so configured) with weights `1/n`, no record of data, normalisations or resamplings, a lowest
effective sample size of `n`, and no warning. -/
theorem C56_fresh_updater (cfg : SmcConfig K) (env : Env K O E ω) (n : Nat) (track : Bool)
    (seed : ω) :
    let s := (construct cfg env n track seed).1
    (construct cfg env n track seed).2 = .ok () ∧
    s.weights = List.replicate n (1 / (n : K)) ∧ s.weights.sum = (if n = 0 then 0 else 1) ∧
    s.locs = (if cfg.canonicalize then env.canon (env.prior seed n).1 else (env.prior seed n).1) ∧
    s.dataRecord = [] ∧ s.normRecord = [] ∧ s.resampleCount = 0 ∧ s.justResampled = false ∧
    s.minNEss = ((n : K) : WithTop K) ∧ s.warnings = [] ∧
    s.divergences = (if track then some [] else none) := by
  refine ⟨rfl, rfl, ?_, rfl, rfl, rfl, rfl, rfl, rfl, rfl, rfl⟩
  show (List.replicate n (1 / (n : K))).sum = _
  rw [List.sum_replicate, nsmul_eq_mul]
  split
  · rename_i h; simp [h]
  · rename_i h
    have : (n : K) ≠ 0 := by exact_mod_cast h
    field_simp

/-- **C56, resampler arguments.**  Construction refuses `resample_a` together with `resampler`, and
only then; a given resampler is used as it is, a given `resample_a` with the deprecation warning. -/
theorem C56_resampler_choice {Rs : Type*} (liuWestA : K → Rs) (liuWestN : Nat → Rs) (n : Nat)
    (a : Option K) (r : Option Rs) :
    let c := chooseResampler liuWestA liuWestN n a r
    ((∃ err, c.1 = .error err) ↔ a.isSome ∧ r.isSome) ∧
    (∀ err, c.1 = .error err → err = .valueError) ∧
    (∀ x, c.1 = .ok x → (∀ r', r = some r' → x = r') ∧ (∀ a', a = some a' → x = liuWestA a') ∧
      (a = none → r = none → x = liuWestN n)) ∧
    (c.2 = if a.isSome then [.resampleADeprecated] else []) := by
  cases a <;> cases r <;> simp [chooseResampler]

/-! ## C57 -/

/-- **C57, time steps.**  An accepted datum moves the particles by exactly one time step of the model
under the experiment performed, from where they were when the weights were computed. -/
theorem C57_one_time_step (cfg : SmcConfig K) (env : Env K O E ω) (s : Smc K O ω) (o : O) (e : E)
    (hlen : s.locs.length = s.weights.length) (hw : ∀ x ∈ s.weights, 0 ≤ x)
    (hL : ∀ x, 0 ≤ env.likelihood o x e) (ht : cfg.zeroThresh < 1)
    (hev : eps ≤ evidence env.likelihood s.weights s.locs o e) :
    (update cfg env s o e false).1.locs = (env.timestep s.seed s.locs e).1 ∧
    (update cfg env s o e false).1.seed = (env.timestep s.seed s.locs e).2 ∧
    (update cfg env s o e false).1.weights = posterior env.likelihood s.weights s.locs o e := by
  rw [update_normal cfg env s o e false hlen hw hL ht hev]
  unfold finishUpdate
  rw [assignInto_eq _ _ (by simp [recordDatum, posterior, hlen])]
  simp only [Bool.false_eq_true, if_false]
  split <;> exact ⟨rfl, rfl, rfl⟩

/-- **C57, histories.**  With a model that counts its time steps, the steps made by any sequence of
data are exactly those accepted: the counter equals the number of normalisations recorded. -/
theorem C57_steps_counted (cfg : SmcConfig K) (env : Env K O E (ω × Nat))
    (hts : ∀ r l e, (env.timestep r l e).2 = (r.1, r.2 + 1))
    (hpr : ∀ r n, (env.prior r n).2.2 = r.2) (hrs : ∀ r w l, (env.resampler r w l).2.2 = r.2)
    (n : Nat) (track : Bool) (seed : ω) (ops : List (Op O E)) :
    let s := run cfg env ops (construct cfg env n track (seed, 0)).1
    s.seed.2 = s.normRecord.length := by
  intro s
  obtain ⟨mss, -, h⟩ := run_micro cfg env ops (construct cfg env n track (seed, 0)).1
  show (run cfg env ops _).seed.2 = (run cfg env ops _).normRecord.length
  rw [h]
  have hreset : ∀ (t : Smc K O (ω × Nat)) n only rw_, t.seed.2 = t.normRecord.length →
      (reset cfg env t n only rw_).1.seed.2 = (reset cfg env t n only rw_).1.normRecord.length := by
    intro t n only rw_ ht
    rw [(reset_fields cfg env t n only rw_).2.1, ← ht]
    unfold reset
    split
    · rfl
    · cases only <;> cases rw_ <;> simp [hpr]
  have hfin : ∀ (t : Smc K O (ω × Nat)) w norm e, t.seed.2 = t.normRecord.length →
      (finishUpdate cfg env t w norm e false).1.seed.2 =
        (finishUpdate cfg env t w norm e false).1.normRecord.length := by
    intro t w norm e ht
    unfold finishUpdate
    split
    · exact ht
    · simp only [Bool.false_eq_true, if_false]
      split <;> simp [hts, ht]
  have hupd : ∀ (t : Smc K O (ω × Nat)) o e, t.seed.2 = t.normRecord.length →
      (update cfg env t o e false).1.seed.2 = (update cfg env t o e false).1.normRecord.length := by
    intro t o e ht
    have happ : ∀ (u : Smc K O (ω × Nat)) (w : List K) (norm : K),
        u.seed.2 = u.normRecord.length →
        (applyUpdate cfg env u w norm e false).1.seed.2 =
          (applyUpdate cfg env u w norm e false).1.normRecord.length := by
      intro u w norm hu
      unfold applyUpdate
      split
      · split
        · exact hfin _ _ _ _ hu
        · split
          · exact hu
          · split
            · exact hfin _ _ _ _ hu
            · split
              · exact hu
              · split
                · have hr := hreset (u.warn .zeroWeightsReset) none none true hu
                  generalize reset cfg env (u.warn .zeroWeightsReset) none none true = r at hr
                  obtain ⟨t', r⟩ := r
                  cases r with
                  | error err => exact hr
                  | ok u => exact hfin _ _ _ _ hr
                · exact hu
      · exact hfin _ _ _ _ hu
    unfold update
    dsimp only
    split
    · exact ht
    · split <;> exact happ _ _ _ ht
  have hresm : ∀ t : Smc K O (ω × Nat), t.seed.2 = t.normRecord.length →
      (resample cfg env t).1.seed.2 = (resample cfg env t).1.normRecord.length := by
    intro t ht
    rw [(resample_fields cfg env t).2.1, ← ht]
    have hm : (markResampled t).seed = t.seed := by
      unfold markResampled; cases t.justResampled <;> rfl
    unfold resample runResampler
    have := hrs (markResampled t).seed (markResampled t).weights (markResampled t).locs
    generalize env.resampler _ _ _ = q at this
    obtain ⟨q, sd⟩ := q
    rw [hm] at this
    cases q with
    | error err => exact this
    | ok p =>
      obtain ⟨w, l⟩ := p
      dsimp only
      cases (markResampled t).divergences <;> cases env.clearCacheRaises <;> exact this
  have h0 : (construct cfg env n track (seed, 0)).1.seed.2 =
      (construct cfg env (O := O) n track (seed, 0)).1.normRecord.length := hreset _ _ _ _ rfl
  generalize (construct cfg env n track (seed, 0)).1 = t at h0
  generalize mss.flatten = ms
  induction ms generalizing t with
  | nil => exact h0
  | cons m ms ih =>
    have : runMicro cfg env (m :: ms) t = runMicro cfg env ms (microStep cfg env t m) := rfl
    rw [this]
    apply ih
    cases m with
    | datum o e => exact hupd t o e h0
    | resample => exact hresm t h0
    | reset n only rw_ => exact hreset t n only rw_ h0
    | check =>
      show (maybeResample cfg env t).1.seed.2 = (maybeResample cfg env t).1.normRecord.length
      unfold maybeResample
      dsimp only
      have hw : (if nEss t.weights ≤ ((10 : K) : WithTop K) then t.warn .smallEss else t).seed.2 =
          (if nEss t.weights ≤ ((10 : K) : WithTop K) then t.warn .smallEss
            else t).normRecord.length := by split <;> exact h0
      generalize (if nEss t.weights ≤ ((10 : K) : WithTop K) then t.warn .smallEss else t) = u at hw
      split
      · exact hresm u hw
      · exact hw

/-- Case for C57: a model that shifts every parameter by 1/8 at each step and counts. -/
example :
    let env : Env ℚ Nat Unit (Unit × Nat) :=
      { likelihood := coinEnv.likelihood
        timestep := fun r l _ => (l.map (·.map (· + 1/8)), (r.1, r.2 + 1))
        canon := fun l => l, clearCacheRaises := false
        prior := fun r n => ((List.range n).map fun i => [((i : ℚ) + 1) / (n + 1)], r)
        resampler := fun r w l => (.ok (w, l), r), kl := fun _ _ _ _ => 0 }
    let s := run cfg env [.update 0 () true, .resample, .update 1 () true]
      (construct cfg env 3 false ((), 0)).1
    s.seed.2 = 2 ∧ s.normRecord.length = 2 ∧ s.locs = [[1/2], [3/4], [1]] := by decide +kernel

/-! ## C07, exact threshold -/

/-- **C07, threshold.**  With policy `error`, an update raises exactly when the sum of the weights
about to be stored is at most the threshold; that sum is one for outcomes at least as likely as the
float spacing, and otherwise the probability of the outcome. -/
theorem C07_exact_threshold (cfg : SmcConfig K) (env : Env K O E ω) (s : Smc K O ω) (o : O) (e : E)
    (hp : cfg.policy = "error") (hlen : s.locs.length = s.weights.length)
    (hw : ∀ x ∈ s.weights, 0 ≤ x) (hL : ∀ x, 0 ≤ env.likelihood o x e) :
    let ev := evidence env.likelihood s.weights s.locs o e
    ((update cfg env s o e false).2 = .error .runtimeError ↔
      (if ev < eps then ev else 1) ≤ cfg.zeroThresh) ∧
    ((update cfg env s o e false).2 = .ok () ↔ cfg.zeroThresh < (if ev < eps then ev else 1)) := by
  intro ev
  have happ : ∀ (w : List K) (norm : K), w.length = s.weights.length →
      ((applyUpdate cfg env (recordDatum s o) w norm e false).2 = .error .runtimeError ↔
        w.sum ≤ cfg.zeroThresh) ∧
      ((applyUpdate cfg env (recordDatum s o) w norm e false).2 = .ok () ↔
        cfg.zeroThresh < w.sum) := by
    intro w norm hwl
    unfold applyUpdate
    by_cases h : w.sum ≤ cfg.zeroThresh
    · simp [h, hp]
    · rw [if_neg h]
      unfold finishUpdate
      rw [assignInto_eq _ _ (by simp [recordDatum, hwl])]
      simp only [Bool.false_eq_true, if_false]
      simp [h, not_le.1 h]
  by_cases hev : ev < eps
  · rw [if_pos hev, update_tiny cfg env s o e false hlen hw hL hev]
    exact happ _ _ (by simp [hlen])
  · rw [if_neg hev]
    have hev' := not_lt.1 hev
    have hn : 0 < ev := lt_of_lt_of_le eps_pos hev'
    have hcell := hypCell_normal env s.weights s.locs o e hlen (hev'.trans (le_abs_self _))
    have h' : hypCell env (recordDatum s o).weights (recordDatum s o).locs o e = _ := hcell
    have hall : ((posterior env.likelihood s.weights s.locs o e).all fun x => decide (0 ≤ x)) = true := by
      rw [List.all_eq_true]
      intro x hx
      simpa using posterior_nonneg env.likelihood s.weights s.locs o e hw hL x hx
    unfold update
    dsimp only
    rw [h']
    dsimp only
    rw [if_pos hall]
    have := happ (posterior env.likelihood s.weights s.locs o e)
      (evidence env.likelihood s.weights s.locs o e) (by simp [posterior, hlen])
    rwa [posterior_sum env.likelihood s.weights s.locs o e hn.ne'] at this

/-- Case for the threshold: it is inclusive, and a threshold of one rejects everything. -/
example :
    let s : Smc ℚ Nat Nat := { fresh with locs := [[0], [0], [0]] }
    (update { cfg with zeroThresh := 0 } coinEnv s 0 () false).2.isOk = false ∧
    (update { cfg with zeroThresh := -1 } coinEnv s 0 () false).2.isOk = true ∧
    (update { cfg with zeroThresh := 1 } coinEnv s 1 () false).2.isOk = false := by
  refine ⟨?_, ?_, ?_⟩ <;> decide +kernel

end QInfer
