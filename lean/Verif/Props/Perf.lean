import Verif.Model.Perf
import Mathlib.Data.List.Basic
import Mathlib.Tactic.Linarith

/-! # C48, C49: performance tests and the numpy error policy -/

set_option linter.unusedSectionVars false

namespace QInfer

/-! ## C49 -/

/-- **C49, completed blocks** (partial: only blocks that complete, see `C49_not_restored`).  After a
block that completes, the policy is what it was before, for any keyword arguments and whatever the
block itself did to the policy; the block's result is passed on. -/
theorem C49_restored_partial {α : Type} (kw : ErrKw) (block : Block α) (w : PWorld) (a : α)
    (h : (block { w with pol := (seterr kw w.pol).1 }).2 = .ok a) :
    (withErrPolicy kw block w).1.pol = w.pol ∧ (withErrPolicy kw block w).2 = .ok a := by
  unfold withErrPolicy
  dsimp only
  generalize hb : block { w with pol := (seterr kw w.pol).1 } = r at h
  obtain ⟨w', r⟩ := r
  simp only at h
  subst h
  simp [seterr, ErrPol.toKw]

/-- **C49, inside the block.**  The block runs under the given settings: a named category gets its
mode, an unnamed one the mode of `all` if given, otherwise the previous one. -/
theorem C49_policy_in_block (kw : ErrKw) (p : ErrPol) :
    let q := (seterr kw p).1
    (∀ m, kw.divide = some m → q.divide = m) ∧ (∀ m, kw.over = some m → q.over = m) ∧
    (∀ m, kw.under = some m → q.under = m) ∧ (∀ m, kw.invalid = some m → q.invalid = m) ∧
    (kw.divide = none → kw.all = none → q.divide = p.divide) ∧
    (kw.over = none → kw.all = none → q.over = p.over) ∧
    (kw.under = none → kw.all = none → q.under = p.under) ∧
    (kw.invalid = none → kw.all = none → q.invalid = p.invalid) ∧
    (∀ m, kw.all = some m → (kw.divide = none → q.divide = m) ∧ (kw.over = none → q.over = m) ∧
      (kw.under = none → q.under = m) ∧ (kw.invalid = none → q.invalid = m)) := by
  refine ⟨?_, ?_, ?_, ?_, ?_, ?_, ?_, ?_, ?_⟩ <;> simp +contextual [seterr]

/-- **C49, violation.**  If the block raises, the policy stays as the block left it; so a block that
raises without touching the policy leaves the changed policy in force. -/
theorem C49_not_restored {α : Type} (kw : ErrKw) (block : Block α) (w w' : PWorld) (err : PyErr)
    (h : block { w with pol := (seterr kw w.pol).1 } = (w', .error err)) :
    withErrPolicy kw block w = (w', .error err) ∧
    (w'.pol = (seterr kw w.pol).1 → (seterr kw w.pol).1 ≠ w.pol →
      (withErrPolicy kw block w).1.pol ≠ w.pol) := by
  have : withErrPolicy kw block w = (w', .error err) := by
    unfold withErrPolicy; dsimp only; rw [h]
  refine ⟨this, fun h1 h2 => ?_⟩
  rw [this, h1]; exact h2

/-- Case for `C49_not_restored`: the documented `divide='raise'` with a failing division. -/
example :
    let w : PWorld := ⟨⟨.warn, .warn, .ignore, .warn⟩, []⟩
    let failing : Block Unit := fun w => (w, .error .other)
    (withErrPolicy { divide := some .raise } failing w).1.pol = ⟨.raise, .warn, .ignore, .warn⟩ := rfl

/-- Case for `C49_restored_partial`: a block that changes the policy itself and completes. -/
example :
    let w : PWorld := ⟨⟨.warn, .warn, .ignore, .warn⟩, []⟩
    let block : Block Nat := fun w => ({ w with pol := (seterr { all := some .ignore } w.pol).1 }, .ok 1)
    withErrPolicy { divide := some .raise } block w = (w, .ok 1) := rfl

/-! ## C48 -/

/-- Why trial `i` counts as failed: its own exception, or one from the progress bar's `update`. -/
def trialErr {R : Type} (prog : Option ProgBar) (i : Nat) : Except PyErr R → Option PyErr
  | .error err => some err
  | .ok _ => match prog with
    | none => none
    | some p => p.updateRaises i

/-- The calls to `update` expected from trials `ts`, numbered from `i`. -/
def updateCalls {R : Type} (prog : Option ProgBar) : Nat → List (Except PyErr R) → List ProgEv
  | _, [] => []
  | i, t :: ts => (match t, prog with
      | .ok _, some _ => [ProgEv.update i]
      | _, _ => []) ++ updateCalls prog (i + 1) ts

/-- The rows fit the trials from position `i` on. -/
def RowsFit {R : Type} (prog : Option ProgBar) (i : Nat) (ts : List (Except PyErr R))
    (rows : List (R × Bool)) : Prop :=
  ∀ j t, ts[j]? = some t → ∃ row, rows[i + j]? = some row ∧
    (trialErr prog (i + j) t = none → ∃ v, t = .ok v ∧ row = (v, false)) ∧
    (trialErr prog (i + j) t ≠ none → row.2 = true)

/-- The rows after storing a trial's result, if it has one. -/
def putRow {R : Type} (i : Nat) (t : Except PyErr R) (rows : List (R × Bool)) : List (R × Bool) :=
  match t with
  | .error _ => rows
  | .ok v => rows.set i (v, false)

theorem storeTrial_eq {R : Type} (prog : Option ProgBar) (idx : Nat) (t : Except PyErr R)
    (rows : List (R × Bool)) (w : PWorld) :
    storeTrial prog idx t rows w =
      (({ w with log := w.log ++ updateCalls prog idx [t] },
        putRow idx t rows),
       match trialErr prog idx t with
        | none => .ok ()
        | some err => .error err) := by
  cases t with
  | error err => simp [storeTrial, putRow, updateCalls, trialErr]
  | ok v =>
    cases prog with
    | none => simp [storeTrial, putRow, updateCalls, trialErr, progUpdate]
    | some p =>
      cases hu : p.updateRaises idx <;>
        simp [storeTrial, putRow, updateCalls, trialErr, progUpdate, hu]

theorem updateCalls_cons {R : Type} (prog : Option ProgBar) (i : Nat) (t : Except PyErr R)
    (ts : List (Except PyErr R)) :
    updateCalls prog i (t :: ts) = updateCalls prog i [t] ++ updateCalls prog (i + 1) ts := by
  simp [updateCalls]

theorem collect_ok {R : Type} (allow : Bool) (prog : Option ProgBar) (i : Nat)
    (ts : List (Except PyErr R)) (rows : List (R × Bool)) (w : PWorld)
    (hlen : rows.length = i + ts.length)
    (hok : allow = true ∨ ∀ j t, ts[j]? = some t → trialErr prog (i + j) t = none) :
    ∃ rows', collect allow prog i ts rows w
        = ({ w with log := w.log ++ updateCalls prog i ts }, .ok rows') ∧
      rows'.length = rows.length ∧ (∀ j < i, rows'[j]? = rows[j]?) ∧ RowsFit prog i ts rows' := by
  induction ts generalizing i rows w with
  | nil =>
    refine ⟨rows, ?_, rfl, fun _ _ => rfl, ?_⟩
    · simp [collect, updateCalls]
    · intro j t h; simp at h
  | cons t ts ih =>
    rw [List.length_cons] at hlen
    have hil : i < rows.length := by omega
    -- the rows handed to the rest of the loop
    have hstep : ∃ rows1 : List (R × Bool), collect allow prog i (t :: ts) rows w =
        collect allow prog (i + 1) ts rows1
          { w with log := w.log ++ updateCalls prog i [t] } ∧
        rows1.length = rows.length ∧ (∀ j < i, rows1[j]? = rows[j]?) ∧
        ∃ row, rows1[i]? = some row ∧
          (trialErr prog i t = none → ∃ v, t = .ok v ∧ row = (v, false)) ∧
          (trialErr prog i t ≠ none → row.2 = true) := by
      have heq := storeTrial_eq prog i t rows w
      cases he : trialErr prog i t with
      | none =>
        cases t with
        | error err => simp [trialErr] at he
        | ok v =>
          rw [he] at heq
          refine ⟨rows.set i (v, false), ?_, by simp, ?_, (v, false), ?_, ?_, by simp⟩
          · rw [collect]; dsimp only; rw [heq]; rfl
          · intro j hj; rw [List.getElem?_set_ne (by omega)]
          · simp [hil]
          · intro _; exact ⟨v, rfl, rfl⟩
      | some err =>
        have hallow : allow = true := by
          rcases hok with h | h
          · exact h
          · have := h 0 t (by simp)
            rw [Nat.add_zero, he] at this; cases this
        rw [he] at heq
        refine ⟨maskRow i (putRow i t rows), ?_, ?_, ?_, ?_⟩
        · rw [collect]; dsimp only; rw [heq]
          simp only [hallow, if_true]
        · cases t <;> simp [putRow, maskRow]
        · intro j hj
          have hne : i ≠ j := by omega
          cases t <;> simp [putRow, maskRow, hne]
        · cases t with
          | error e =>
            exact ⟨(rows[i].1, true), by simp [putRow, maskRow, hil], by simp, by simp⟩
          | ok v =>
            exact ⟨(v, true), by simp [putRow, maskRow, hil], by simp, by simp⟩
    obtain ⟨rows1, h1, h2, h3, row, h4, h5, h6⟩ := hstep
    obtain ⟨rows', g1, g2, g3, g4⟩ := ih (i + 1) rows1
      { w with log := w.log ++ updateCalls prog i [t] } (by omega) (by
        rcases hok with h | h
        · exact Or.inl h
        · right
          intro j u hu
          have := h (j + 1) u (by simpa using hu)
          rw [show i + 1 + j = i + (j + 1) by omega]; exact this)
    refine ⟨rows', ?_, by omega, ?_, ?_⟩
    · rw [h1, g1, updateCalls_cons prog i t ts]
      simp [List.append_assoc]
    · intro j hj
      rw [g3 j (by omega), h3 j hj]
    · intro j u hu
      cases j with
      | zero =>
        simp at hu; subst hu
        exact ⟨row, by rw [Nat.add_zero, g3 i (by omega), h4], h5, h6⟩
      | succ j =>
        have := g4 j u (by simpa using hu)
        rw [show i + 1 + j = i + (j + 1) by omega] at this
        exact this

theorem collect_fail {R : Type} (prog : Option ProgBar) (i : Nat) (ts rest : List (Except PyErr R))
    (bad : Except PyErr R) (err : PyErr) (rows : List (R × Bool)) (w : PWorld)
    (hok : ∀ j t, ts[j]? = some t → trialErr prog (i + j) t = none)
    (hbad : trialErr prog (i + ts.length) bad = some err) :
    collect false prog i (ts ++ bad :: rest) rows w =
      ({ w with log := w.log ++ updateCalls prog i (ts ++ [bad]) }, .error err) := by
  induction ts generalizing i rows w with
  | nil =>
    have heq := storeTrial_eq prog i bad rows w
    rw [show trialErr prog i bad = some err by simpa using hbad] at heq
    simp only [List.nil_append]
    rw [collect]; dsimp only; rw [heq]
    simp
  | cons t ts ih =>
    have h0 := hok 0 t (by simp)
    rw [Nat.add_zero] at h0
    have heq := storeTrial_eq prog i t rows w
    rw [h0] at heq
    rw [List.cons_append, collect]; dsimp only; rw [heq]
    dsimp only
    rw [ih (i + 1) _ _ (fun j u hu => by
        have := hok (j + 1) u (by simpa using hu)
        rw [show i + 1 + j = i + (j + 1) by omega]; exact this)
      (by rw [← hbad, List.length_cons]; congr 1; omega)]
    rw [List.cons_append, updateCalls_cons prog i t (ts ++ [bad])]
    simp [List.append_assoc]

/-- The events a usable progress bar sees. -/
def barEvents {R : Type} (prog : Option ProgBar) (n : Nat) (ts : List (Except PyErr R)) :
    List ProgEv :=
  match prog with
  | none => []
  | some _ => .start n :: updateCalls prog 0 ts ++ [.finished]

/-- **C48, failures allowed.**  With `allow_failures` and a progress bar that starts (or none), the
call returns one row per trial, in trial order: a failed trial's row is masked, every other row holds
that trial's result unmasked; the numpy error policy is restored, and the bar saw its start, one update
per trial that produced a result, and at the end `finished`. -/
theorem C48_allow_failures {R : Type} (zero : R) (trials : List (Except PyErr R))
    (prog : Option ProgBar) (hp : ∀ p, prog = some p → p.newRaises = none ∧ p.startRaises = none)
    (w : PWorld) :
    ∃ rows, perfTestMultiple zero trials true prog w =
        (⟨w.pol, w.log ++ barEvents prog trials.length trials⟩, .ok rows) ∧
      rows.length = trials.length ∧
      ∀ i t, trials[i]? = some t → ∃ row, rows[i]? = some row ∧
        (trialErr prog i t = none → ∃ v, t = .ok v ∧ row = (v, false)) ∧
        (trialErr prog i t ≠ none → row.2 = true) := by
  have key : ∀ (pr : Option ProgBar) (w : PWorld), ∃ rows,
      withErrPolicy { divide := some .raise } (collect true pr 0 trials
        (trials.map fun _ => (zero, false))) w =
        (⟨w.pol, w.log ++ updateCalls pr 0 trials⟩, .ok rows) ∧
      rows.length = trials.length ∧ RowsFit pr 0 trials rows := by
    intro pr w
    obtain ⟨rows, h1, h2, -, h4⟩ := collect_ok true pr 0 trials
      (trials.map fun _ => (zero, false)) { w with pol := (seterr { divide := some .raise } w.pol).1 }
      (by simp) (Or.inl rfl)
    refine ⟨rows, ?_, by simpa using h2, h4⟩
    unfold withErrPolicy
    dsimp only
    rw [h1]
    simp [seterr, ErrPol.toKw]
  cases prog with
  | none =>
    obtain ⟨rows, h1, h2, h3⟩ := key none w
    have hu : updateCalls (R := R) none 0 trials = [] := by
      have : ∀ (i : Nat) (ts : List (Except PyErr R)), updateCalls (R := R) none i ts = [] := by
        intro i ts
        induction ts generalizing i with
        | nil => rfl
        | cons t ts ih => cases t <;> simp [updateCalls, ih]
      exact this 0 trials
    refine ⟨rows, ?_, h2, fun i t ht => by simpa using h3 i t ht⟩
    rw [hu] at h1
    simpa [perfTestMultiple, barEvents] using h1
  | some p =>
    obtain ⟨hn, hs⟩ := hp p rfl
    obtain ⟨rows, h1, h2, h3⟩ := key (some p) { w with log := w.log ++ [.start trials.length] }
    refine ⟨rows, ?_, h2, fun i t ht => by simpa using h3 i t ht⟩
    simp only [perfTestMultiple, hn, hs]
    rw [h1]
    simp [barEvents, List.append_assoc]

/-- **C48, failures not allowed.**  Without `allow_failures`: if no trial fails the call returns every
trial's row in order; if trial number `ts.length` is the first to fail, its exception is raised.  In
both cases the progress bar is told that it finished. -/
theorem C48_failures_raised {R : Type} (zero : R) (prog : Option ProgBar)
    (hp : ∀ p, prog = some p → p.newRaises = none ∧ p.startRaises = none) (w : PWorld) :
    (∀ trials : List R, (∀ i p, prog = some p → p.updateRaises i = none) →
      ∃ w', perfTestMultiple zero (trials.map .ok) false prog w =
        (w', .ok (trials.map fun v => (v, false))) ∧ w'.pol = w.pol ∧
        (prog.isSome → w'.log.getLast? = some .finished)) ∧
    (∀ (ts rest : List (Except PyErr R)) (bad : Except PyErr R) (err : PyErr),
      (∀ i t, ts[i]? = some t → trialErr prog i t = none) →
      trialErr prog ts.length bad = some err →
      ∃ w', perfTestMultiple zero (ts ++ bad :: rest) false prog w = (w', .error err) ∧
        (prog.isSome → w'.log.getLast? = some .finished)) := by
  constructor
  · intro trials hup
    have hnone : ∀ j t, (trials.map (Except.ok (ε := PyErr)))[j]? = some t →
        trialErr prog (0 + j) t = none := by
      intro j t ht
      rw [List.getElem?_map] at ht
      cases hv : trials[j]? with
      | none => rw [hv] at ht; simp at ht
      | some v =>
        rw [hv] at ht
        simp at ht
        subst ht
        cases prog with
        | none => rfl
        | some p => simpa [trialErr] using hup j p rfl
    have key : ∀ (w : PWorld),
        withErrPolicy { divide := some .raise } (collect false prog 0 (trials.map .ok)
          ((trials.map (Except.ok (ε := PyErr))).map fun _ => (zero, false))) w =
        (⟨w.pol, w.log ++ updateCalls prog 0 (trials.map (Except.ok (ε := PyErr)))⟩,
          .ok (trials.map fun v => (v, false))) := by
      intro w
      obtain ⟨rows, h1, h2, -, h4⟩ := collect_ok false prog 0 (trials.map (Except.ok (ε := PyErr)))
        ((trials.map (Except.ok (ε := PyErr))).map fun _ => (zero, false))
        { w with pol := (seterr { divide := some .raise } w.pol).1 }
        (by simp) (Or.inr hnone)
      have hrows : rows = trials.map fun v => (v, false) := by
        apply List.ext_getElem?
        intro j
        rw [List.getElem?_map]
        cases hv : trials[j]? with
        | none =>
          have : trials.length ≤ j := List.getElem?_eq_none_iff.mp hv
          rw [List.getElem?_eq_none (by simp at h2; omega)]; rfl
        | some v =>
          obtain ⟨row, hr, hfit, -⟩ := h4 j (.ok v) (by simp [hv])
          obtain ⟨v', hv', hrow⟩ := hfit (hnone j (.ok v) (by simp [hv]))
          injection hv' with hv'
          subst hv'
          rw [Nat.zero_add] at hr
          rw [hr, hrow]; rfl
      unfold withErrPolicy
      dsimp only
      rw [h1, hrows]
      simp [seterr, ErrPol.toKw]
    cases prog with
    | none =>
      refine ⟨⟨w.pol, w.log ++ updateCalls none 0 (trials.map (Except.ok (ε := PyErr)))⟩,
        ?_, ?_, by simp⟩
      · simpa [perfTestMultiple] using key w
      · rfl
    | some p =>
      obtain ⟨hn, hs⟩ := hp p rfl
      refine ⟨⟨w.pol, w.log ++ [.start trials.length] ++
        updateCalls (some p) 0 (trials.map (Except.ok (ε := PyErr))) ++ [.finished]⟩, ?_, rfl, ?_⟩
      · simp only [perfTestMultiple, hn, hs]
        rw [key]
        simp
      · intro _; exact List.getLast?_concat
  · intro ts rest bad err hok hbad
    have key : ∀ (w : PWorld) rows, ∃ w', withErrPolicy { divide := some .raise }
        (collect false prog 0 (ts ++ bad :: rest) rows) w = (w', .error err) := by
      intro w rows
      have := collect_fail prog 0 ts rest bad err rows
        { w with pol := (seterr { divide := some .raise } w.pol).1 }
        (fun j t ht => by simpa using hok j t ht) (by simpa using hbad)
      unfold withErrPolicy
      dsimp only
      rw [this]
      exact ⟨_, rfl⟩
    cases prog with
    | none =>
      obtain ⟨w', h⟩ := key w ((ts ++ bad :: rest).map fun _ => (zero, false))
      exact ⟨w', by simpa [perfTestMultiple] using h, by simp⟩
    | some p =>
      obtain ⟨hn, hs⟩ := hp p rfl
      obtain ⟨w', h⟩ := key { w with log := w.log ++ [.start (ts ++ bad :: rest).length] }
        ((ts ++ bad :: rest).map fun _ => (zero, false))
      refine ⟨{ w' with log := w'.log ++ [.finished] }, ?_, by simp⟩
      simp only [perfTestMultiple, hn, hs]
      rw [h]

/-- **C48, always finished.**  Whatever the trials and whatever the bar's methods raise, once the bar
object exists the last call it receives is `finished`, exactly once more than before. -/
theorem C48_bar_finished {R : Type} (zero : R) (trials : List (Except PyErr R)) (allow : Bool)
    (p : ProgBar) (hn : p.newRaises = none) (w : PWorld) :
    (perfTestMultiple zero trials allow (some p) w).1.log.getLast? = some .finished ∧
    (perfTestMultiple zero trials allow (some p) w).1.log.count .finished
      = w.log.count .finished + 1 := by
  have hcount : ∀ (allow : Bool) (prog : Option ProgBar) (i : Nat) (ts : List (Except PyErr R))
      (rows : List (R × Bool)) (w : PWorld),
      (collect allow prog i ts rows w).1.log.count .finished = w.log.count .finished := by
    intro allow prog i ts
    induction ts generalizing i with
    | nil => intro rows w; rfl
    | cons t ts ih =>
      intro rows w
      have huc : (updateCalls prog i [t]).count ProgEv.finished = 0 := by
        cases t <;> cases prog <;> simp [updateCalls]
      rw [collect]; dsimp only; rw [storeTrial_eq]
      cases trialErr prog i t with
      | none =>
        dsimp only
        rw [ih]; simp [huc]
      | some err =>
        dsimp only
        cases allow with
        | true => rw [if_pos rfl, ih]; simp [huc]
        | false => simp [huc]
  have hwith : ∀ (block : Block (List (R × Bool))) (w : PWorld),
      (∀ w, (block w).1.log.count .finished = w.log.count .finished) →
      (withErrPolicy { divide := some .raise } block w).1.log.count .finished
        = w.log.count .finished := by
    intro block w hb
    have := hb { w with pol := (seterr { divide := some .raise } w.pol).1 }
    unfold withErrPolicy
    dsimp only
    generalize block { w with pol := (seterr { divide := some .raise } w.pol).1 } = r at this
    obtain ⟨w', r⟩ := r
    cases r <;> simpa using this
  simp only [perfTestMultiple, hn]
  cases hs : p.startRaises with
  | some err => simp
  | none =>
    dsimp only
    have := hwith (collect allow (some p) 0 trials (trials.map fun _ => (zero, false)))
      { w with log := w.log ++ [.start trials.length] } (fun w => hcount _ _ _ _ _ w)
    generalize withErrPolicy { divide := some .raise } (collect allow (some p) 0 trials
      (trials.map fun _ => (zero, false))) { w with log := w.log ++ [.start trials.length] } = r
      at this
    obtain ⟨w', r⟩ := r
    simp only at this
    simp [this]

/-- **C48/C49, consequence.**  A failing trial without `allow_failures` leaves numpy raising on
division by zero for the rest of the program. -/
theorem C48_failure_changes_policy {R : Type} (zero : R) (ts rest : List (Except PyErr R))
    (bad : Except PyErr R) (err : PyErr) (w : PWorld)
    (hok : ∀ i t, ts[i]? = some t → trialErr none i t = none)
    (hbad : trialErr none ts.length bad = some err) :
    (perfTestMultiple zero (ts ++ bad :: rest) false none w).1.pol = { w.pol with divide := .raise } := by
  have := collect_fail none 0 ts rest bad err ((ts ++ bad :: rest).map fun _ => (zero, false))
    { w with pol := (seterr { divide := some .raise } w.pol).1 }
    (fun j t ht => by simpa using hok j t ht) (by simpa using hbad)
  simp only [perfTestMultiple]
  unfold withErrPolicy
  dsimp only
  rw [this]
  rfl

/-- Case for the theorems above: three trials, the second failing, with a bar. -/
example :
    let w : PWorld := ⟨⟨.warn, .warn, .ignore, .warn⟩, []⟩
    perfTestMultiple 0 [.ok 5, .error .zeroDivisionError, .ok 7] true (some {}) w =
      (⟨w.pol, [.start 3, .update 0, .update 2, .finished]⟩,
        .ok [(5, false), (0, true), (7, false)]) ∧
    (perfTestMultiple 0 [.ok 5, .error .zeroDivisionError, .ok 7] false (some {}) w).2
      = .error .zeroDivisionError := ⟨rfl, rfl⟩

end QInfer
