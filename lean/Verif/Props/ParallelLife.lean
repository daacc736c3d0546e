import Verif.Lemmas.ParallelLife

/-! # C138: the life of an engine-parallel model -/

namespace QInfer

variable {σ O M E α D K : Type}

/-! ## Steps -/

theorem step_fields (S : SerialModel σ O M E α D) (f : σ → σ) (s : ParObj σ K)
    (op : ParOp O M E K) :
    (s.step S f op).threshold = s.threshold ∧
    (s.step S f op).call = s.call + Spec.evaluations op ∧
    (s.step S f op).sim = s.sim + Spec.samples op ∧
    ((s.step S f op).dv.isSome = true ↔ s.dv.isSome = true ∧ ¬ Spec.IsReload op) ∧
    (∀ v, (s.step S f op).dv = some v → ∃ w, s.dv = some w ∧ w.engines = v.engines) := by
  cases op with
  | likelihood os ms es =>
    simp only [ParObj.step, ParObj.likelihood, Spec.evaluations, Spec.samples, Spec.IsReload]
    split
    · exact ⟨rfl, rfl, rfl, by simp, fun v hv => ⟨v, hv, rfl⟩⟩
    · cases hd : s.dv with
      | none => simp
      | some v => simp
  | simulate ms es rep b =>
    simp only [ParObj.step, ParObj.simulate, Spec.evaluations, Spec.samples, Spec.IsReload]
    by_cases hc : S.consistent es = false
    · rw [if_pos hc]
      exact ⟨rfl, rfl, rfl, by simp, fun v hv => ⟨v, hv, rfl⟩⟩
    · rw [if_neg hc]
      cases hd : s.dv with
      | none => simp
      | some v =>
        dsimp only
        by_cases ht : ((if b then ms.length else es.length : Nat) : ℤ) ≤ s.threshold
        · rw [if_pos ht]; simp
        · rw [if_neg ht]; cases b <;> simp
  | clearCache =>
    simp only [ParObj.step, ParObj.clearCache, Spec.evaluations, Spec.samples, Spec.IsReload]
    cases (S.clear s.und).1 with
    | error e => exact ⟨rfl, rfl, rfl, by simp, fun v hv => ⟨v, hv, rfl⟩⟩
    | ok x =>
      cases hd : s.dv with
      | none => simp [hd]
      | some v =>
        by_cases hr : v.refuses = true
        · simp [hr, hd]
        · cases hp : s.purge with
          | none => simp [hr]
          | some b => cases b <;> simp [hr]
  | reload => simp [ParObj.step, ParObj.reload, Spec.evaluations, Spec.samples, Spec.IsReload]
  | setIdentical b =>
    exact ⟨rfl, rfl, rfl, by simp [ParObj.step, Spec.IsReload], fun v hv => ⟨v, hv, rfl⟩⟩
  | setWarnAt x =>
    exact ⟨rfl, rfl, rfl, by simp [ParObj.step, Spec.IsReload], fun v hv => ⟨v, hv, rfl⟩⟩

theorem step_options (S : SerialModel σ O M E α D) (f : σ → σ) (s : ParObj σ K)
    (op : ParOp O M E K) (hr : ¬ Spec.IsReload op) :
    (¬ Spec.SetsIdentical op → (s.step S f op).identical = s.identical) ∧
    (¬ Spec.SetsWarnAt op → (s.step S f op).warnAt = s.warnAt) ∧
    (s.step S f op).purge = s.purge := by
  cases op with
  | likelihood os ms es =>
    simp only [ParObj.step, ParObj.likelihood]
    split
    · exact ⟨fun _ => rfl, fun _ => rfl, rfl⟩
    · cases s.dv <;> exact ⟨fun _ => rfl, fun _ => rfl, rfl⟩
  | simulate ms es rep b =>
    simp only [ParObj.step, ParObj.simulate]
    by_cases hc : S.consistent es = false
    · rw [if_pos hc]; exact ⟨fun _ => rfl, fun _ => rfl, rfl⟩
    · rw [if_neg hc]
      cases hd : s.dv with
      | none => exact ⟨fun _ => rfl, fun _ => rfl, rfl⟩
      | some v =>
        dsimp only
        by_cases ht : ((if b then ms.length else es.length : Nat) : ℤ) ≤ s.threshold
        · rw [if_pos ht]; exact ⟨fun _ => rfl, fun _ => rfl, rfl⟩
        · rw [if_neg ht]; cases b <;> exact ⟨fun _ => rfl, fun _ => rfl, rfl⟩
  | clearCache =>
    simp only [ParObj.step, ParObj.clearCache]
    cases (S.clear s.und).1 with
    | error e => exact ⟨fun _ => rfl, fun _ => rfl, rfl⟩
    | ok x =>
      cases hd : s.dv with
      | none => simp
      | some v =>
        by_cases hr : v.refuses = true
        · simp [hr]
        · cases hp : s.purge with
          | none => simp [hr, hp]
          | some b => cases b <;> simp [hr, hp]
  | reload => exact absurd trivial hr
  | setIdentical b => simp [ParObj.step, Spec.SetsIdentical]
  | setWarnAt x => simp [ParObj.step, Spec.SetsWarnAt]

theorem after_append (S : SerialModel σ O M E α D) (f : σ → σ) (s : ParObj σ K)
    (a b : List (ParOp O M E K)) : s.after S f (a ++ b) = (s.after S f a).after S f b := by
  simp [ParObj.after, List.foldl_append]

theorem after_cons (S : SerialModel σ O M E α D) (f : σ → σ) (s : ParObj σ K)
    (a : ParOp O M E K) (b : List (ParOp O M E K)) :
    s.after S f (a :: b) = (s.step S f a).after S f b := rfl

theorem after_options (S : SerialModel σ O M E α D) (f : σ → σ) (s : ParObj σ K)
    (ops : List (ParOp O M E K)) (hr : ∀ op ∈ ops, ¬ Spec.IsReload op) :
    ((∀ op ∈ ops, ¬ Spec.SetsIdentical op) → (s.after S f ops).identical = s.identical) ∧
    ((∀ op ∈ ops, ¬ Spec.SetsWarnAt op) → (s.after S f ops).warnAt = s.warnAt) ∧
    (s.after S f ops).purge = s.purge := by
  induction ops generalizing s with
  | nil => exact ⟨fun _ => rfl, fun _ => rfl, rfl⟩
  | cons op ops ih =>
    obtain ⟨h1, h2, h3⟩ := step_options S f s op (hr op (by simp))
    obtain ⟨g1, g2, g3⟩ := ih (s.step S f op) fun o ho => hr o (by simp [ho])
    rw [after_cons]
    exact ⟨fun h => (g1 fun o ho => h o (by simp [ho])).trans (h1 (h op (by simp))),
      fun h => (g2 fun o ho => h o (by simp [ho])).trans (h2 (h op (by simp))), g3.trans h3⟩

/-! ## Theorems -/

/-- **C138, counters.**  Over any life of the object — calls on the engines or in this process, calls
that raise, pickling and loading — `call_count` is the number of likelihoods asked for and `sim_count`
the number of data asked for. -/
theorem C138_counts (S : SerialModel σ O M E α D) (f : σ → σ) (w : K) (u : σ) (dv : Option DView)
    (purge : Bool) (thr : Option ℤ) (ops : List (ParOp O M E K)) :
    ((ParObj.new w u dv purge thr).after S f ops).call = (ops.map Spec.evaluations).sum ∧
    ((ParObj.new w u dv purge thr).after S f ops).sim = (ops.map Spec.samples).sum := by
  have key : ∀ s : ParObj σ K, (s.after S f ops).call = s.call + (ops.map Spec.evaluations).sum ∧
      (s.after S f ops).sim = s.sim + (ops.map Spec.samples).sum := by
    induction ops with
    | nil => intro s; simp [ParObj.after]
    | cons op ops ih =>
      intro s
      obtain ⟨-, h1, h2, -⟩ := step_fields S f s op
      obtain ⟨g1, g2⟩ := ih (s.step S f op)
      rw [after_cons, g1, g2, h1, h2, List.map_cons, List.sum_cons, List.map_cons, List.sum_cons]
      omega
  have := key (ParObj.new w u dv purge thr)
  simpa [ParObj.new] using this

/-- **C138, what the wrapped model sees.**  The wrapped model of this process is touched by exactly the
calls that are small enough to stay here: what the engines do never reaches it, so its own counters
miss that work. -/
theorem C138_wrapped (S : SerialModel σ O M E α D) (f : σ → σ) (w : K) (u : σ) (dv : Option DView)
    (purge : Bool) (thr : ℤ) (ops : List (ParOp O M E K)) :
    ((ParObj.new w u dv purge (some thr)).after S f ops).und =
      Spec.reaches S f thr dv.isSome ops u := by
  have key : ∀ s : ParObj σ K,
      (s.after S f ops).und = Spec.reaches S f s.threshold s.dv.isSome ops s.und := by
    induction ops with
    | nil => intro s; rfl
    | cons op ops ih =>
      intro s
      obtain ⟨ht, -, -, hd, -⟩ := step_fields S f s op
      rw [after_cons, ih (s.step S f op), ht]
      cases op with
      | likelihood os ms es =>
        have hd' : (s.step S f (.likelihood os ms es)).dv.isSome = s.dv.isSome := by
          rw [Bool.eq_iff_iff, hd]; simp [Spec.IsReload]
        rw [hd', Spec.reaches]
        congr 1
        simp only [ParObj.step, ParObj.likelihood]
        by_cases h : (ms.length : ℤ) ≤ s.threshold
        · rw [if_pos h, if_pos h]
        · rw [if_neg h, if_neg h]; cases s.dv <;> rfl
      | simulate ms es rep b =>
        have hd' : (s.step S f (.simulate ms es rep b)).dv.isSome = s.dv.isSome := by
          rw [Bool.eq_iff_iff, hd]; simp [Spec.IsReload]
        rw [hd', Spec.reaches]
        congr 1
        simp only [ParObj.step, ParObj.simulate]
        by_cases hc : S.consistent es = false
        · rw [if_pos hc, if_neg (by simp [hc])]
        · rw [if_neg hc]
          cases hdv : s.dv with
          | none => simp
          | some v =>
            have hc' : S.consistent es = true := by simpa using hc
            dsimp only
            by_cases h : ((if b then ms.length else es.length : Nat) : ℤ) ≤ s.threshold
            · rw [if_pos h, if_pos ⟨rfl, hc', h⟩]
            · cases b <;> simp at h <;> simp [not_le.mpr h]
      | clearCache =>
        have hd' : (s.step S f (.clearCache)).dv.isSome = s.dv.isSome := by
          rw [Bool.eq_iff_iff, hd]; simp [Spec.IsReload]
        rw [hd', Spec.reaches]
        congr 1
        simp only [ParObj.step, ParObj.clearCache]
        cases (S.clear s.und).1 with
        | error e => rfl
        | ok x =>
          cases hdv : s.dv with
          | none => rfl
          | some v =>
            by_cases hr : v.refuses = true
            · simp [hr]
            · cases hp : s.purge with
              | none => simp [hr]
              | some b => cases b <;> simp [hr]
      | reload =>
        rw [Spec.reaches]
        simp [ParObj.step, ParObj.reload]
      | setIdentical b => rw [Spec.reaches]; rfl
      | setWarnAt x => rw [Spec.reaches]; rfl
  exact key _

/-- **C138, answers while the engines are there.**  As long as the object has not been pickled, every
likelihood equals the serial one, whatever was called before, provided there is an engine and the
wrapped model answers each cell by itself. -/
theorem C138_connected (S : SerialModel σ O M E α D) (f : σ → σ) (w : K) (u : σ) (v : DView)
    (purge : Bool) (thr : Option ℤ) (ops : List (ParOp O M E K))
    (hops : ∀ op ∈ ops, ¬ Spec.IsReload op) (hv : v.engines ≠ 0)
    (lik : List O → List M → List E → Arr3 α) (hl : CellwiseLik lik)
    (hS : ∀ u os ms es, (S.lik u os ms es).1 = .ok (lik os ms es))
    (os : List O) (ms : List M) (es : List E) :
    ∃ A, (((ParObj.new w u (some v) purge thr).after S f ops).likelihood S os ms es).1 = .ok A ∧
      A.Same (lik os ms es) := by
  have key : ∀ s : ParObj σ K, (∃ x, s.dv = some x ∧ x.engines = v.engines) →
      ∃ x, (s.after S f ops).dv = some x ∧ x.engines = v.engines := by
    induction ops with
    | nil => exact fun s h => h
    | cons op ops ih =>
      rintro s ⟨x, hx, hxe⟩
      rw [after_cons]
      refine ih (fun o ho => hops o (by simp [ho])) _ ?_
      obtain ⟨-, -, -, hd, he⟩ := step_fields S f s op
      have : (s.step S f op).dv.isSome = true := hd.mpr ⟨by simp [hx], hops op (by simp)⟩
      obtain ⟨y, hy⟩ := Option.isSome_iff_exists.mp this
      obtain ⟨z, hz, hze⟩ := he y hy
      rw [hx] at hz; cases hz
      exact ⟨y, hy, hze ▸ hxe⟩
  obtain ⟨x, hx, hxe⟩ := key (ParObj.new w u (some v) purge thr) ⟨v, rfl, rfl⟩
  generalize (ParObj.new w u (some v) purge thr).after S f ops = s at hx
  obtain ⟨g, hg⟩ := hl
  have hsame := table_same hg os ms es
  simp only [ParObj.likelihood]
  split
  · exact ⟨_, hS _ _ _ _, hsame _ (hg os ms es)⟩
  · rw [hx]
    obtain ⟨cs, h1, -⟩ := arraySplit_ok ms x.engines (hxe ▸ hv)
    dsimp only
    rw [h1]
    obtain ⟨A, hA, hAt⟩ := engines_answer lik g hg x.engines (hxe ▸ hv) os ms es cs h1
      (fun p => match (S.lik (S.copy p.1 s.und) os p.2 es).1 with
          | .ok A => (.ok A : Except PyErr (Arr3 α))
          | .error _ => .error .other) (fun p _ => by rw [hS])
    exact ⟨A, hA, hsame A hAt⟩

/-- **C138, after loading.**  Once the object has been pickled and loaded it never has engines again:
`n_engines` is 0, the threshold is still the one fixed at construction, likelihoods of at most that many
models are the wrapped model's own, larger ones raise `RuntimeError`, and every simulation raises,
however small. -/
theorem C138_loaded (S : SerialModel σ O M E α D) (f : σ → σ) (w : K) (u : σ) (dv : Option DView)
    (purge : Bool) (thr : Option ℤ) (pre post : List (ParOp O M E K)) :
    let s := (ParObj.new w u dv purge thr).after S f (pre ++ .reload :: post)
    let t := thr.getD (10 * ((dv.map DView.engines).getD 0 : ℕ))
    s.nEngines = 0 ∧ s.threshold = t ∧
    (∀ os ms es, ((ms.length : ℤ) ≤ t → (s.likelihood S os ms es).1 = (S.lik s.und os ms es).1) ∧
      (t < ms.length → (s.likelihood S os ms es).1 = .error .runtimeError)) ∧
    (∀ ms es rep b, (s.simulate S ms es rep b).1 =
      .error (if S.consistent es then .runtimeError else .assertionError)) := by
  intro s t
  have key : ∀ (ops : List (ParOp O M E K)) (s : ParObj σ K),
      (s.after S f ops).threshold = s.threshold ∧
      (s.dv = none → (s.after S f ops).dv = none) := by
    intro ops
    induction ops with
    | nil => exact fun s => ⟨rfl, id⟩
    | cons op ops ih =>
      intro s
      obtain ⟨ht, -, -, hd, -⟩ := step_fields S f s op
      obtain ⟨h1, h2⟩ := ih (s.step S f op)
      rw [after_cons]
      refine ⟨h1.trans ht, fun h => h2 ?_⟩
      rw [← Option.not_isSome_iff_eq_none, hd, h]
      simp
  have hdv : s.dv = none := by
    rw [show s = _ from after_append S f _ pre _, after_cons]
    exact (key post _).2 rfl
  have hthr : s.threshold = t := by
    rw [show s.threshold = _ from (key _ _).1]
    cases thr <;> cases dv <;> rfl
  refine ⟨by rw [ParObj.nEngines, hdv], hthr, fun os ms es => ⟨fun h => ?_, fun h => ?_⟩,
    fun ms es rep b => ?_⟩
  · simp only [ParObj.likelihood, hthr, if_pos h]
  · simp only [ParObj.likelihood, hthr, if_neg (not_le.mpr h), hdv]
  · simp only [ParObj.simulate, hdv]
    cases S.consistent es <;> rfl

/-- **C138, options.**  The options of a model start at their defaults and keep the value last set, but
loading forgets them: until they are set again, reading `allow_identical_outcomes` or
`outcome_warning_threshold` raises `AttributeError`. -/
theorem C138_options (S : SerialModel σ O M E α D) (f : σ → σ) (w : K) (u : σ) (dv : Option DView)
    (purge : Bool) (thr : Option ℤ) (pre post : List (ParOp O M E K))
    (hpost : ∀ op ∈ post, ¬ Spec.IsReload op) :
    let s := fun ops => (ParObj.new w u dv purge thr).after S f ops
    ((∀ op ∈ post, ¬ Spec.SetsIdentical op) →
      (s post).getIdentical = .ok false ∧
      (∀ b, (s (pre ++ .setIdentical b :: post)).getIdentical = .ok b) ∧
      (s (pre ++ .reload :: post)).getIdentical = .error .attributeError) ∧
    ((∀ op ∈ post, ¬ Spec.SetsWarnAt op) →
      (s post).getWarnAt = .ok w ∧
      (∀ x, (s (pre ++ .setWarnAt x :: post)).getWarnAt = .ok x) ∧
      (s (pre ++ .reload :: post)).getWarnAt = .error .attributeError) := by
  intro s
  refine ⟨fun h => ⟨?_, fun b => ?_, ?_⟩, fun h => ⟨?_, fun b => ?_, ?_⟩⟩
  · simp only [s, ParObj.getIdentical, (after_options S f _ post hpost).1 h]; rfl
  · simp only [s, after_append, after_cons, ParObj.getIdentical,
      (after_options S f _ post hpost).1 h]; rfl
  · simp only [s, after_append, after_cons, ParObj.getIdentical,
      (after_options S f _ post hpost).1 h]; rfl
  · simp only [s, ParObj.getWarnAt, (after_options S f _ post hpost).2.1 h]; rfl
  · simp only [s, after_append, after_cons, ParObj.getWarnAt,
      (after_options S f _ post hpost).2.1 h]; rfl
  · simp only [s, after_append, after_cons, ParObj.getWarnAt,
      (after_options S f _ post hpost).2.1 h]; rfl

/-- **C138, clearing the cache.**  `clear_cache` clears the wrapped model and raises only what that
raises: a missing view, or one that refuses, is passed over in silence.  A view that does not refuse has
its results purged, and its client exactly if the object was made with `purge_client=True`. -/
theorem C138_clear_cache (S : SerialModel σ O M E α D) (f : σ → σ) (w : K) (u : σ)
    (dv : Option DView) (purge : Bool) (thr : Option ℤ) (ops : List (ParOp O M E K)) :
    let s := (ParObj.new w u dv purge thr).after S f ops
    (s.clearCache S).1 = (S.clear s.und).1 ∧ (s.clearCache S).2.und = (S.clear s.und).2 ∧
    (∀ v, s.dv = some v → (S.clear s.und).1 = .ok () → (s.clearCache S).2.dv = some
      (if v.refuses then v else
        { v with purges := v.purges + 1
                 clientPurges := if purge then v.clientPurges + 1 else v.clientPurges })) := by
  intro s
  have hp : ∀ (ops : List (ParOp O M E K)) (s : ParObj σ K), s.purge = some purge ∨ s.dv = none →
      (s.after S f ops).purge = some purge ∨ (s.after S f ops).dv = none := by
    intro ops
    induction ops with
    | nil => exact fun s h => h
    | cons op ops ih =>
      intro s h
      rw [after_cons]
      apply ih
      by_cases hr : Spec.IsReload op
      · cases op <;> first | exact Or.inr rfl | exact hr.elim
      · rcases h with h | h
        · exact Or.inl ((step_options S f s op hr).2.2.trans h)
        · refine Or.inr ?_
          rw [← Option.not_isSome_iff_eq_none, (step_fields S f s op).2.2.2.1, h]
          simp
  have hps : s.purge = some purge ∨ s.dv = none := hp ops _ (Or.inl rfl)
  refine ⟨?_, ?_, fun v hv hc => ?_⟩
  · simp only [ParObj.clearCache]
    cases (S.clear s.und).1 <;> rfl
  · simp only [ParObj.clearCache]
    cases (S.clear s.und).1 with
    | error e => rfl
    | ok x =>
      cases hdv : s.dv with
      | none => rfl
      | some v =>
        by_cases hr : v.refuses = true
        · simp [hr]
        · cases hp : s.purge with
          | none => simp [hr]
          | some b => cases b <;> simp [hr]
  · have hpp : s.purge = some purge := by
      rcases hps with h | h
      · exact h
      · rw [hv] at h; cases h
    simp only [ParObj.clearCache, hc, hv, hpp]
    by_cases hr : v.refuses = true
    · simp [hr, hv]
    · cases purge <;> simp [hr]

/-- **C138, nesting.**  The engines of a parallelized model get pickled copies of the wrapped model.  If
that is itself parallelized with threshold `t`, a call spread over `n` engines returns the serial
answer for up to `n t` models; with more, the copies raise. -/
theorem C138_nested (S : SerialModel σ O M E α D) (s : ParObj (ParObj σ K) K) (v : DView)
    (hdv : s.dv = some v) (hv : v.engines ≠ 0)
    (lik : List O → List M → List E → Arr3 α) (hl : CellwiseLik lik)
    (hS : ∀ u os ms es, (S.lik u os ms es).1 = .ok (lik os ms es))
    (os : List O) (ms : List M) (es : List E) (hms : s.threshold < ms.length) :
    ((ms.length : ℤ) ≤ v.engines * s.und.threshold → ∃ A,
      (s.likelihood (ParObj.asSerial S) os ms es).1 = .ok A ∧ A.Same (lik os ms es)) ∧
    ((v.engines : ℤ) * s.und.threshold < ms.length →
      (s.likelihood (ParObj.asSerial S) os ms es).1 = .error .other) := by
  obtain ⟨cs, h1, -⟩ := arraySplit_ok ms v.engines hv
  have hshort : ∀ (t : Nat) (c : List M), (c.length : ℤ) ≤ s.und.threshold →
      ((ParObj.asSerial S).lik ((ParObj.asSerial S).copy t s.und) os c es).1 =
        .ok (lik os c es) := by
    intro t c hc
    simp only [ParObj.asSerial, ParObj.likelihood, ParObj.reload, if_pos hc]
    exact hS _ _ _ _
  have hlong : ∀ (t : Nat) (c : List M), s.und.threshold < (c.length : ℤ) →
      ((ParObj.asSerial S).lik ((ParObj.asSerial S).copy t s.und) os c es).1 =
        .error .runtimeError := by
    intro t c hc
    simp only [ParObj.asSerial, ParObj.likelihood, ParObj.reload, if_neg (not_le.mpr hc)]
  constructor
  · intro h
    obtain ⟨g, hg⟩ := hl
    have hle := chunks_le ms v.engines hv cs h1 _ h
    obtain ⟨A, hA, hAt⟩ := engines_answer lik g hg v.engines hv os ms es cs h1
      (fun p => match ((ParObj.asSerial S).lik ((ParObj.asSerial S).copy p.1 s.und) os p.2 es).1 with
          | .ok A => (.ok A : Except PyErr (Arr3 α))
          | .error _ => .error .other)
      (fun p hp => by rw [hshort p.1 p.2 (hle p.2 hp)])
    refine ⟨A, ?_, table_same hg os ms es A hAt⟩
    unfold ParObj.likelihood
    dsimp only
    rw [if_neg (not_le.mpr hms), hdv]
    dsimp only
    rw [h1]
    exact hA
  · intro h
    obtain ⟨c, hc, hct⟩ := chunks_gt ms v.engines hv cs h1 _ h
    obtain ⟨t, ht⟩ := exists_mapIdx_pair cs c hc
    have hm := except_mapM_error
      (fun p : Nat × List M =>
        match ((ParObj.asSerial S).lik ((ParObj.asSerial S).copy p.1 s.und) os p.2 es).1 with
          | .ok A => (.ok A : Except PyErr (Arr3 α))
          | .error _ => .error .other) .other (cs.mapIdx fun t mps => (t, mps))
      (fun p _ => by
        rcases le_or_gt (p.2.length : ℤ) s.und.threshold with hp | hp
        · exact Or.inl ⟨_, by rw [hshort p.1 p.2 hp]⟩
        · exact Or.inr (by rw [hlong p.1 p.2 hp]))
      ⟨(t, c), ht, by dsimp only; rw [hlong t c hct]⟩
    unfold ParObj.likelihood
    dsimp only
    rw [if_neg (not_le.mpr hms), hdv]
    dsimp only
    rw [h1]
    exact congrArg (fun x => Except.bind x fun Ls => concatenate Arr3.cat1 Ls) hm

/-- **C138, nesting with the default thresholds.**  A parallelized model of a parallelized model, both
with default thresholds over `n` engines, answers likelihoods of at most `10 n²` models and no more. -/
theorem C138_nested_default (S : SerialModel σ O M E α D) (w : K) (u : σ) (n : Nat) (hn : n ≠ 0)
    (v₁ v₂ : DView) (h₁ : v₁.engines = n) (h₂ : v₂.engines = n) (p₁ p₂ : Bool)
    (lik : List O → List M → List E → Arr3 α) (hl : CellwiseLik lik)
    (hS : ∀ u os ms es, (S.lik u os ms es).1 = .ok (lik os ms es))
    (os : List O) (ms : List M) (es : List E) :
    let s := ParObj.new w (ParObj.new w u (some v₁) p₁ none) (some v₂) p₂ none
    (ms.length ≤ 10 * n ^ 2 → ∃ A,
      (s.likelihood (ParObj.asSerial S) os ms es).1 = .ok A ∧ A.Same (lik os ms es)) ∧
    (10 * n ^ 2 < ms.length →
      (s.likelihood (ParObj.asSerial S) os ms es).1 = .error .other) := by
  intro s
  have ht : s.threshold = 10 * (n : ℤ) := by simp [s, ParObj.new, h₂]
  have htu : s.und.threshold = 10 * (n : ℤ) := by simp [s, ParObj.new, h₁]
  have hn1 : (1 : ℤ) ≤ n := by exact_mod_cast Nat.pos_of_ne_zero hn
  rcases le_or_gt (ms.length : ℤ) s.threshold with h | h
  · refine ⟨fun _ => ?_, fun h' => ?_⟩
    · obtain ⟨g, hg⟩ := hl
      refine ⟨lik os ms es, ?_, table_same hg os ms es _ (hg os ms es)⟩
      rw [ht] at h
      have h1 : (ms.length : ℤ) ≤ s.threshold := by rw [ht]; exact h
      have h2 : (ms.length : ℤ) ≤ s.und.threshold := by rw [htu]; exact h
      simp only [ParObj.likelihood, ParObj.asSerial, if_pos h1, if_pos h2]
      exact hS _ _ _ _
    · rw [ht] at h
      have : (10 * (n : ℤ) ^ 2) < ms.length := by exact_mod_cast h'
      nlinarith
  · obtain ⟨g1, g2⟩ := C138_nested S s v₂ rfl (h₂ ▸ hn) lik hl hS os ms es h
    rw [h₂, htu] at g1 g2
    refine ⟨fun h' => g1 ?_, fun h' => g2 ?_⟩
    · have : (ms.length : ℤ) ≤ 10 * (n : ℤ) ^ 2 := by exact_mod_cast h'
      linarith [sq (n : ℤ)]
    · have : (10 * (n : ℤ) ^ 2) < ms.length := by exact_mod_cast h'
      linarith [sq (n : ℤ)]

/-! ## Examples -/

/-- A wrapped model that counts its own calls; the likelihood is a product. -/
def demoSerial : SerialModel Nat ℤ ℤ ℤ ℤ ℤ where
  lik u os ms es := (.ok ⟨os.length, ms.length, es.length,
    fun i j k => os.getD i 0 * ms.getD j 0 * es.getD k 0⟩, u + os.length * ms.length * es.length)
  sim u ms es r := (.ok ⟨r, ms.length, es.length, fun i j k => i + ms.getD j 0 * es.getD k 0⟩, u)
  clear u := (.ok (), u)
  consistent _ := true
  copy _ u := u

/-- Two engines, threshold 1: a call of three models goes to the engines and is missed by the wrapped
model's counter; after loading, the same call raises and is still counted. -/
example :
    let s := ParObj.new (σ := Nat) (99 : ℤ) 0 (some ⟨2, 0, 0, false⟩) false (some 1)
    let ops : List (ParOp ℤ ℤ ℤ ℤ) :=
      [.likelihood [0, 1] [2] [3], .likelihood [0, 1] [2, 5, 6] [3], .clearCache, .reload,
        .likelihood [1] [2, 5, 6] [3]]
    (s.after demoSerial id ops).und = 2 ∧ (s.after demoSerial id ops).call = 11 ∧
    (s.after demoSerial id ops).nEngines = 0 := by
  decide +kernel

/-- The joined answer of two engines. -/
example :
    let s := ParObj.new (σ := Nat) (99 : ℤ) 0 (some ⟨2, 0, 0, false⟩) false (some 1)
    ((s.likelihood demoSerial [0, 1] [2, 5, 6] [3]).1.toOption.map fun A =>
      (A.n0, A.n1, A.n2, A.get 1 0 0, A.get 1 1 0, A.get 1 2 0)) = some (2, 3, 1, 6, 15, 18) := by
  decide +kernel

/-- The demo model meets the hypotheses of the theorems on answers. -/
example : CellwiseLik (fun (os ms es : List ℤ) => (⟨os.length, ms.length, es.length,
      fun i j k => os.getD i 0 * ms.getD j 0 * es.getD k 0⟩ : Arr3 ℤ)) ∧
    ∀ u os ms es, (demoSerial.lik u os ms es).1 = .ok ⟨os.length, ms.length, es.length,
      fun i j k => os.getD i 0 * ms.getD j 0 * es.getD k 0⟩ := by
  refine ⟨⟨fun o m e => o * m * e, fun os ms es => ⟨rfl, rfl, rfl, ?_⟩⟩, fun _ _ _ _ => rfl⟩
  intro i hi j hj k hk
  simp [List.getElem?_eq_getElem hi, List.getElem?_eq_getElem hj, List.getElem?_eq_getElem hk]

end QInfer
