import Verif.Model.Py

/-!
# Model of performance testing

`src/qinfer/perf_testing.py` 115-128 (`numpy_err_policy`) and 276-384 (`apply_serial`,
`perf_test_multiple`).

A trial is its outcome: a row of results or the exception it raises.  The state outside the call is the
numpy error policy and the calls received by the progress bar.
-/

namespace QInfer

/-- Modes of `np.seterr`. (perf_testing.py 126.) -/
inductive ErrMode
  | ignore | warn | raise | call | print | log
  deriving DecidableEq, Repr

/-- The policy held by numpy. (perf_testing.py 126.) -/
structure ErrPol where
  divide : ErrMode
  over : ErrMode
  under : ErrMode
  invalid : ErrMode
  deriving DecidableEq, Repr

/-- Keyword arguments of `np.seterr`. (perf_testing.py 116-126.) -/
structure ErrKw where
  all : Option ErrMode := none
  divide : Option ErrMode := none
  over : Option ErrMode := none
  under : Option ErrMode := none
  invalid : Option ErrMode := none

/-- `np.seterr(**kw)`: given keys are set, `all` is the default for the others, the rest keeps its
value.  The old policy is returned. (Called at perf_testing.py 126, 128.) -/
def seterr (kw : ErrKw) (p : ErrPol) : ErrPol × ErrPol :=
  let pick (k : Option ErrMode) (old : ErrMode) : ErrMode := k.getD (kw.all.getD old)
  (⟨pick kw.divide p.divide, pick kw.over p.over, pick kw.under p.under,
    pick kw.invalid p.invalid⟩, p)

/-- The old policy as keyword arguments, `**old_errs`. (perf_testing.py 128.) -/
def ErrPol.toKw (p : ErrPol) : ErrKw :=
  { divide := some p.divide, over := some p.over, under := some p.under,
    invalid := some p.invalid }

/-- Calls received by a progress bar. (perf_testing.py 347-382.) -/
inductive ProgEv
  | start (n : Nat) | update (i : Nat) | finished
  deriving DecidableEq, Repr

/-- State outside the calls. (perf_testing.py 116-128, 339-382.) -/
structure PWorld where
  pol : ErrPol
  log : List ProgEv
  deriving DecidableEq, Repr

/-- A block of code: changes the world and returns or raises.
(The body of the context manager at perf_testing.py 127.) -/
abbrev Block (α : Type) := PWorld → PWorld × Except PyErr α

/-- `with numpy_err_policy(**kw): block`, perf_testing.py 115-128.  There is no `try` around the
`yield`, so an exception in the block skips the last line. -/
def withErrPolicy {α : Type} (kw : ErrKw) (block : Block α) : Block α := fun w =>
  let r := seterr kw w.pol
  let old := r.2
  match block { w with pol := r.1 } with
  | (w, .ok a) => ({ w with pol := (seterr old.toKw w.pol).1 }, .ok a)
  | (w, .error err) => (w, .error err)

/-- A progress bar class: which of its methods raise. (perf_testing.py 347-354.) -/
structure ProgBar where
  newRaises : Option PyErr := none
  startRaises : Option PyErr := none
  updateRaises : Nat → Option PyErr := fun _ => none

/-- `prog.update(idx)` if there is a bar, perf_testing.py 366-371. -/
def progUpdate (prog : Option ProgBar) (idx : Nat) : Block Unit := fun w =>
  match prog with
  | none => (w, .ok ())
  | some p =>
    let w := { w with log := w.log ++ [.update idx] }
    match p.updateRaises idx with
    | none => (w, .ok ())
    | some err => (w, .error err)

/-- The body of the `try` at perf_testing.py 364-371 for one result: store the row, unmasked, and report. -/
def storeTrial {R : Type} (prog : Option ProgBar) (idx : Nat) (result : Except PyErr R)
    (rows : List (R × Bool)) : PWorld → (PWorld × List (R × Bool)) × Except PyErr Unit := fun w =>
  match result with
  | .error err => ((w, rows), .error err)
  | .ok v =>
    let rows := rows.set idx (v, false)
    match progUpdate prog idx w with
    | (w, r) => ((w, rows), r)

/-- `performance.mask[idx, :] = True`, perf_testing.py 375. -/
def maskRow {R : Type} (idx : Nat) (rows : List (R × Bool)) : List (R × Bool) :=
  rows.modify idx fun p => (p.1, true)

/-- The loop collecting results, perf_testing.py 360-377. -/
def collect {R : Type} (allow : Bool) (prog : Option ProgBar) :
    Nat → List (Except PyErr R) → List (R × Bool) → Block (List (R × Bool))
  | _, [], rows => fun w => (w, .ok rows)
  | idx, r :: rs, rows => fun w =>
    match storeTrial prog idx r rows w with
    | ((w, rows), .ok ()) => collect allow prog (idx + 1) rs rows w
    | ((w, rows), .error err) =>
      if allow then collect allow prog (idx + 1) rs (maskRow idx rows) w
      else (w, .error err)

/-- `perf_test_multiple`, perf_testing.py 296-384, with `apply_serial` (a trial runs when its result is fetched).
`zero` is a row of zeros. -/
def perfTestMultiple {R : Type} (zero : R) (trials : List (Except PyErr R)) (allow : Bool)
    (progressbar : Option ProgBar) : Block (List (R × Bool)) := fun w =>
  let rows := trials.map fun _ => (zero, false)
  let body : Option ProgBar → Block (List (R × Bool)) := fun prog =>
    withErrPolicy { divide := some .raise } (collect allow prog 0 trials rows)
  match progressbar with
  | none => body none w
  | some p =>
    match p.newRaises with
    | some err => (w, .error err)            -- `prog` is still `None` in the `finally`
    | none =>
      let w := { w with log := w.log ++ [.start trials.length] }
      match p.startRaises with
      | some err => ({ w with log := w.log ++ [.finished] }, .error err)
      | none =>
        match body (some p) w with
        | (w, r) => ({ w with log := w.log ++ [.finished] }, r)

end QInfer
