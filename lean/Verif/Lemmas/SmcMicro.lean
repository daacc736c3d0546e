import Verif.Lemmas.SmcFields

/-! # Public calls as sequences of elementary steps -/

set_option linter.unusedSectionVars false
set_option linter.unusedSimpArgs false

namespace QInfer

variable {K : Type*} {O E ω : Type*}
variable [Field K] [LinearOrder K]

theorem finishUpdate_split (cfg : SmcConfig K) (env : Env K O E ω) (s : Smc K O ω)
    (w : List K) (norm : K) (e : E) :
    (finishUpdate cfg env s w norm e true =
      maybeResample cfg env (finishUpdate cfg env s w norm e false).1 ∧
      (finishUpdate cfg env s w norm e false).2 = .ok ()) ∨
    finishUpdate cfg env s w norm e true = finishUpdate cfg env s w norm e false := by
  unfold finishUpdate
  split
  · right; rfl
  · left; simp

theorem applyUpdate_split (cfg : SmcConfig K) (env : Env K O E ω) (s : Smc K O ω)
    (w : List K) (norm : K) (e : E) :
    (applyUpdate cfg env s w norm e true =
      maybeResample cfg env (applyUpdate cfg env s w norm e false).1 ∧
      (applyUpdate cfg env s w norm e false).2 = .ok ()) ∨
    (applyUpdate cfg env s w norm e true = applyUpdate cfg env s w norm e false ∧
      (cfg.policy = "skip" ∨ (applyUpdate cfg env s w norm e false).2 ≠ .ok ())) := by
  have fin : ∀ t : Smc K O ω, (finishUpdate cfg env t w norm e true =
      maybeResample cfg env (finishUpdate cfg env t w norm e false).1 ∧
      (finishUpdate cfg env t w norm e false).2 = .ok ()) ∨
    (finishUpdate cfg env t w norm e true = finishUpdate cfg env t w norm e false ∧
      (cfg.policy = "skip" ∨ (finishUpdate cfg env t w norm e false).2 ≠ .ok ())) := by
    intro t
    unfold finishUpdate
    split
    · right; simp
    · left; simp
  unfold applyUpdate
  split
  · split
    · exact fin s
    · split
      · right; exact ⟨rfl, Or.inl ‹_›⟩
      · split
        · exact fin _
        · split
          · right; simp
          · split
            · split
              · right; simp
              · exact fin _
            · right; simp
  · exact fin s

/-- `update` with a check is `update` without a check followed by a check, unless it was
interrupted (by an exception or by the `skip` policy). -/
theorem update_split (cfg : SmcConfig K) (env : Env K O E ω) (s : Smc K O ω) (o : O) (e : E) :
    (update cfg env s o e true = maybeResample cfg env (update cfg env s o e false).1 ∧
      (update cfg env s o e false).2 = .ok ()) ∨
    (update cfg env s o e true = update cfg env s o e false ∧
      (cfg.policy = "skip" ∨ (update cfg env s o e false).2 ≠ .ok ())) := by
  unfold update
  dsimp only
  split
  · right; simp
  · split <;> exact applyUpdate_split ..

theorem runMicro_append (cfg : SmcConfig K) (env : Env K O E ω) (a b : List (Micro O E))
    (s : Smc K O ω) : runMicro cfg env (a ++ b) s = runMicro cfg env b (runMicro cfg env a s) := by
  simp [runMicro]

theorem batchLoop_micro (cfg : SmcConfig K) (env : Env K O E ω) (interval : Int)
    (ds : List (O × E)) (idx : Nat) (s : Smc K O ω) :
    ∃ ms, ms <+: batchPlan interval idx ds ∧
      (batchLoop cfg env interval idx ds s).1 = runMicro cfg env ms s ∧
      ((batchLoop cfg env interval idx ds s).2 = .ok () → ms = batchPlan interval idx ds) := by
  induction ds generalizing idx s with
  | nil => exact ⟨[], by simp [batchPlan], rfl, fun _ => rfl⟩
  | cons d ds ih =>
    obtain ⟨o, e⟩ := d
    unfold batchLoop batchPlan
    have hdvd : ((idx : Int) + 1) % interval = 0 ↔ interval ∣ ((idx : Int) + 1) :=
      Int.dvd_iff_emod_eq_zero.symm
    rcases heq : update cfg env s o e false with ⟨t, err | ⟨⟨⟩⟩⟩
    · dsimp only
      refine ⟨[.datum o e], ?_, by simp [runMicro, microStep, heq], by simp⟩
      split <;> simp [List.prefix_cons_inj]
    · dsimp only
      by_cases hi : interval = 0
      · rw [if_pos hi]
        refine ⟨[.datum o e], ?_, by simp [runMicro, microStep, heq], by simp⟩
        split <;> simp [List.prefix_cons_inj]
      · rw [if_neg hi]
        by_cases hm : ((idx : Int) + 1) % interval = 0
        · rw [if_pos hm, if_pos ⟨hi, hdvd.1 hm⟩]
          rcases heq2 : maybeResample cfg env t with ⟨u, err | ⟨⟨⟩⟩⟩
          · exact ⟨[.datum o e, .check], by simp [List.prefix_cons_inj],
              by simp [runMicro, microStep, heq, heq2], by simp⟩
          · obtain ⟨ms, h1, h2, h3⟩ := ih (idx + 1) u
            refine ⟨.datum o e :: .check :: ms, by simpa [List.prefix_cons_inj] using h1, ?_, ?_⟩
            · rw [h2]; simp [runMicro, microStep, heq, heq2]
            · intro h; rw [h3 h]
        · rw [if_neg hm, if_neg (fun h => hm (hdvd.2 h.2))]
          obtain ⟨ms, h1, h2, h3⟩ := ih (idx + 1) t
          refine ⟨.datum o e :: ms, by simpa [List.prefix_cons_inj] using h1, ?_, ?_⟩
          · rw [h2]; simp [runMicro, microStep, heq]
          · intro h; rw [h3 h]

/-- Every public call is a prefix of its plan of elementary steps. -/
theorem step_micro (cfg : SmcConfig K) (env : Env K O E ω) (s : Smc K O ω) (op : Op O E) :
    ∃ ms, ms <+: op.plan ∧ (step cfg env s op).1 = runMicro cfg env ms s ∧
      ((step cfg env s op).2 = .ok () → cfg.policy ≠ "skip" → ms = op.plan) := by
  cases op with
  | update o e check =>
    cases check with
    | false => exact ⟨[.datum o e], by simp [Op.plan], by simp [step, runMicro, microStep],
        fun _ _ => by simp [Op.plan]⟩
    | true =>
      rcases update_split cfg env s o e with ⟨h, h'⟩ | ⟨h, h'⟩
      · exact ⟨[.datum o e, .check], by simp [Op.plan], by simp [step, runMicro, microStep, h],
          fun _ _ => by simp [Op.plan]⟩
      · refine ⟨[.datum o e], by simp [Op.plan, List.prefix_cons_inj], by simp [step, runMicro, microStep, h], ?_⟩
        intro h1 h2
        rcases h' with h' | h'
        · exact absurd h' h2
        · simp only [step, h] at h1; exact absurd h1 h'
  | batch os es interval =>
    simp only [step, batchUpdate, Op.plan]
    by_cases h : es.length = os.length
    · simp only [h, ne_eq, not_true, if_false, if_true]
      obtain ⟨ms, h1, h2, h3⟩ := batchLoop_micro cfg env interval (os.zip es) 0 s
      exact ⟨ms, h1, h2, fun h _ => h3 h⟩
    · simp only [ne_eq, h, not_false_eq_true, if_true, if_false]
      exact ⟨[], by simp, rfl, fun _ _ => rfl⟩
  | resample => exact ⟨[.resample], by simp [Op.plan], by simp [step, runMicro, microStep],
        fun _ _ => by simp [Op.plan]⟩
  | reset n only rw_ => exact ⟨[.reset n only rw_], by simp [Op.plan],
      by simp [step, runMicro, microStep], fun _ _ => by simp [Op.plan]⟩

theorem run_micro (cfg : SmcConfig K) (env : Env K O E ω) (ops : List (Op O E)) (s : Smc K O ω) :
    ∃ mss : List (List (Micro O E)), List.Forall₂ (fun op ms => ms <+: op.plan) ops mss ∧
      run cfg env ops s = runMicro cfg env mss.flatten s := by
  induction ops generalizing s with
  | nil => exact ⟨[], .nil, rfl⟩
  | cons op ops ih =>
    obtain ⟨ms, h1, h2, -⟩ := step_micro cfg env s op
    obtain ⟨mss, h3, h4⟩ := ih (step cfg env s op).1
    exact ⟨ms :: mss, .cons h1 h3, by
      simp only [run, List.flatten_cons, runMicro_append, ← h2, h4]⟩

/-! ### The data record -/

theorem finishUpdate_data (cfg : SmcConfig K) (env : Env K O E ω) (s : Smc K O ω)
    (w : List K) (norm : K) (e : E) (check : Bool) :
    (finishUpdate cfg env s w norm e check).1.dataRecord = s.dataRecord := by
  unfold finishUpdate
  split
  · rfl
  · dsimp only
    cases check
    · simp only [Bool.false_eq_true, if_false]; split <;> rfl
    · simp only [if_true]
      rw [(maybeResample_fields cfg env _).1]; split <;> rfl

theorem applyUpdate_data (cfg : SmcConfig K) (env : Env K O E ω) (s : Smc K O ω)
    (w : List K) (norm : K) (e : E) (check : Bool) :
    (applyUpdate cfg env s w norm e check).1.dataRecord = s.dataRecord := by
  unfold applyUpdate
  split
  · split
    · exact finishUpdate_data ..
    · split
      · rfl
      · split
        · exact finishUpdate_data ..
        · split
          · rfl
          · split
            · have h := (reset_fields cfg env (s.warn .zeroWeightsReset) none none true).1
              split
              · rename_i heq; rw [heq] at h; exact h
              · rename_i heq; rw [heq] at h; rw [finishUpdate_data]; exact h
            · rfl
  · exact finishUpdate_data ..

theorem update_data (cfg : SmcConfig K) (env : Env K O E ω) (s : Smc K O ω) (o : O) (e : E)
    (check : Bool) : (update cfg env s o e check).1.dataRecord = s.dataRecord ++ [o] := by
  unfold update
  dsimp only
  split
  · rfl
  · split <;> rw [applyUpdate_data] <;> rfl

theorem runMicro_data (cfg : SmcConfig K) (env : Env K O E ω) (ms : List (Micro O E))
    (s : Smc K O ω) :
    (runMicro cfg env ms s).dataRecord = s.dataRecord ++ ms.filterMap Micro.outcome? := by
  induction ms generalizing s with
  | nil => simp [runMicro]
  | cons m ms ih =>
    have : runMicro cfg env (m :: ms) s = runMicro cfg env ms (microStep cfg env s m) := rfl
    rw [this, ih]
    cases m with
    | datum o e => simp [microStep, update_data, Micro.outcome?, List.filterMap_cons]
    | check => simp [microStep, (maybeResample_fields cfg env s).1, Micro.outcome?, List.filterMap_cons]
    | resample => simp [microStep, (resample_fields cfg env s).1, Micro.outcome?, List.filterMap_cons]
    | reset n only rw_ => simp [microStep, (reset_fields cfg env s n only rw_).1, Micro.outcome?, List.filterMap_cons]

theorem batchPlan_outcomes (interval : Int) (ds : List (O × E)) (idx : Nat) :
    (batchPlan interval idx ds).filterMap Micro.outcome? = ds.map Prod.fst := by
  induction ds generalizing idx with
  | nil => rfl
  | cons d ds ih =>
    unfold batchPlan
    split <;> simp [Micro.outcome?, List.filterMap_cons, ih]

theorem plan_outcomes (op : Op O E) : op.plan.filterMap Micro.outcome? = op.outcomes := by
  cases op with
  | update o e c => cases c <;> simp [Op.plan, Op.outcomes, Micro.outcome?, List.filterMap_cons]
  | batch os es i =>
    simp only [Op.plan, Op.outcomes]
    split
    · rename_i h
      rw [batchPlan_outcomes, List.map_fst_zip (by omega)]
    · rfl
  | resample => rfl
  | reset n only rw_ => rfl

end QInfer
