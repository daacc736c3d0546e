import Verif.Model.Perf

/-!
# Model of the delegation of trials and of progress bars

`src/qinfer/perf_testing.py` 276-384 (`apply_serial`, `perf_test_multiple` with its argument `apply`) and
`src/qinfer/ipy.py` 57-122 (`IPythonProgressBar`).

`Model/Perf.lean` takes the outcomes of the trials as given; here a trial is a function of the error policy
and of a random state, and the engine decides when it runs.
-/

namespace QInfer

/-- A trial `trial_fn`: what it returns or raises and the random state it leaves, given the numpy error policy.
(perf_testing.py 330-335.) -/
abbrev Task (S R : Type) := ErrPol → S → Except PyErr R × S

/-- An engine: `apply(fn)` and `result.get()`. (perf_testing.py 304, 358, 365.) -/
structure Engine (S R H : Type) where
  submit : Task S R → ErrPol → S → H × S
  get : H → ErrPol → S → (Except PyErr R × H) × S

/-- An `apply_serial` object, perf_testing.py 276-287; `value` is `_value` if `_done` is set. -/
structure Deferred (S R : Type) where
  fn : Task S R
  value : Option R

/-- `apply_serial.get`, perf_testing.py 289-294. -/
def Deferred.get {S R : Type} (d : Deferred S R) (p : ErrPol) (s : S) :
    (Except PyErr R × Deferred S R) × S :=
  match d.value with
  | some v => ((.ok v, d), s)
  | none => match d.fn p s with
    | (.ok v, s) => ((.ok v, { d with value := some v }), s)
    | (.error e, s) => ((.error e, d), s)

/-- The default engine `apply_serial`, perf_testing.py 276-294 and 301. -/
def serialEngine (S R : Type) : Engine S R (Deferred S R) where
  submit f _ s := (⟨f, none⟩, s)
  get d p s := d.get p s

/-- A progress bar class with instances in `B`; methods that raise return the exception.
(perf_testing.py 347-354, 366-371, 380-382.) -/
structure BarCls (B : Type) where
  new : Except PyErr B
  start : Nat → B → B × Option PyErr
  update : Nat → B → B × Option PyErr
  hasDescription : B → Bool
  setDescription : String → B → B × Option PyErr
  finished : B → B × Option PyErr

/-- The text shown, perf_testing.py 351-353 and 369-371. -/
def perfText (name : String) (i n : Nat) : String :=
  "Performance testing " ++ name ++ " (" ++ toString i ++ " / " ++ toString n ++ ")..."

/-- State outside the call: the numpy error policy, the random state, and the bar once it is made.
(perf_testing.py 339-382.) -/
structure RWorld (S B : Type) where
  pol : ErrPol
  rnd : S
  bar : Option B

/-- `if hasattr(prog, 'description'): prog.description = text`, perf_testing.py 350-353, 368-371. -/
def describe {B : Type} (c : BarCls B) (text : String) (b : B) : B × Option PyErr :=
  if c.hasDescription b then c.setDescription text b else (b, none)

/-- A method of the bar followed by the new description, perf_testing.py 349-353 and 367-371. -/
def barStep {S B : Type} (c : BarCls B) (method : B → B × Option PyErr) (text : String) (w : RWorld S B) :
    RWorld S B × Except PyErr Unit :=
  match w.bar with
  | none => (w, .ok ())
  | some b => match method b with
    | (b, some e) => ({ w with bar := some b }, .error e)
    | (b, none) => match describe c text b with
      | (b, some e) => ({ w with bar := some b }, .error e)
      | (b, none) => ({ w with bar := some b }, .ok ())

/-- The first loop, perf_testing.py 358. -/
def dispatch {S R H : Type} (eng : Engine S R H) (f : Task S R) (p : ErrPol) : Nat → S → List H × S
  | 0, s => ([], s)
  | n + 1, s =>
    let (h, s) := eng.submit f p s
    let (hs, s) := dispatch eng f p n s
    (h :: hs, s)

/-- The second loop, perf_testing.py 360-377: a row is stored before the bar is told. -/
def collectFrom {S R B H : Type} (eng : Engine S R H) (c : BarCls B) (name : String) (n : Nat) (allow : Bool) :
    Nat → List H → List (R × Bool) → RWorld S B → RWorld S B × Except PyErr (List (R × Bool))
  | _, [], rows, w => (w, .ok rows)
  | idx, h :: hs, rows, w =>
    match eng.get h w.pol w.rnd with
    | ((.ok v, _), s) =>
      let rows := rows.set idx (v, false)
      match barStep c (c.update idx) (perfText name idx n) { w with rnd := s } with
      | (w, .ok ()) => collectFrom eng c name n allow (idx + 1) hs rows w
      | (w, .error e) =>
        if allow then collectFrom eng c name n allow (idx + 1) hs (maskRow idx rows) w else (w, .error e)
    | ((.error e, _), s) =>
      if allow then collectFrom eng c name n allow (idx + 1) hs (maskRow idx rows) { w with rnd := s }
      else ({ w with rnd := s }, .error e)

/-- The part inside `with numpy_err_policy(divide='raise')`, perf_testing.py 355-377; an exception skips the
restoration of the policy (115-128). -/
def runTrials {S R B H : Type} (eng : Engine S R H) (c : BarCls B) (name : String) (zero : R) (f : Task S R) (n : Nat)
    (allow : Bool) (w : RWorld S B) : RWorld S B × Except PyErr (List (R × Bool)) :=
  let r := seterr { divide := some .raise } w.pol
  let (hs, s) := dispatch eng f r.1 n w.rnd
  match collectFrom eng c name n allow 0 hs (List.replicate n (zero, false)) { w with pol := r.1, rnd := s } with
  | (w, .ok rows) => ({ w with pol := (seterr r.2.toKw w.pol).1 }, .ok rows)
  | (w, .error e) => (w, .error e)

/-- The `finally` clause, perf_testing.py 380-382: an exception there replaces the result. -/
def finishBar {S B α : Type} (c : BarCls B) : RWorld S B × Except PyErr α → RWorld S B × Except PyErr α
  | (w, r) => match w.bar with
    | none => (w, r)
    | some b => match c.finished b with
      | (b, none) => ({ w with bar := some b }, r)
      | (b, some e) => ({ w with bar := some b }, .error e)

/-- `perf_test_multiple`, perf_testing.py 296-384.  `progressbar` is a class or absent, `name` the name of the
model's class. -/
def perfTestEngine {S R B H : Type} (eng : Engine S R H) (zero : R) (f : Task S R) (n : Nat) (allow : Bool)
    (progressbar : Option (BarCls B)) (name : String) (w : RWorld S B) :
    RWorld S B × Except PyErr (List (R × Bool)) :=
  match progressbar with
  | none =>
    runTrials eng ⟨.error .other, fun _ b => (b, none), fun _ b => (b, none), fun _ => false,
      fun _ b => (b, none), fun b => (b, none)⟩ name zero f n allow { w with bar := none }
  | some c => match c.new with
    | .error e => ({ w with bar := none }, .error e)
    | .ok b =>
      finishBar c (match barStep c (c.start n) (perfText name 0 n) { w with bar := some b } with
        | (w, .error e) => (w, .error e)
        | (w, .ok ()) => runTrials eng c name zero f n allow w)

/-! ## `IPythonProgressBar` -/

/-- What a widget does when it is told something: it may raise at any time, for instance once it is closed.
(ipy.py 70-73, 84-86, 90-92, 101-104, 110-113, 119-122.) -/
structure WidgetOps (W : Type) where
  make : W
  description : W → Except PyErr String
  setDescription : String → W → Except PyErr W
  setMax : Nat → W → Except PyErr W
  display : W → Except PyErr W
  setValue : Nat → W → Except PyErr W
  close : W → Except PyErr W

/-- `try: op except: pass`, ipy.py 89-92, 110-113, 119-122. -/
def tryOp {W : Type} (op : W → Except PyErr W) (w : W) : W :=
  match op w with
  | .ok w => w
  | .error _ => w

/-- `IPythonProgressBar`, ipy.py 57-122; `ipw` is `None` if `ipywidgets` or `IPython` is missing (45-50), then
the constructor raises `ImportError` (67-69, here `.other`).  The getter `description` (75-86) catches everything,
so `hasattr` is true. -/
def ipyBar {W : Type} (ipw : Option (WidgetOps W)) : BarCls W :=
  match ipw with
  | none => ⟨.error .other, fun _ b => (b, none), fun _ b => (b, none), fun _ => true,
      fun _ b => (b, none), fun b => (b, none)⟩
  | some o =>
    { new := .ok o.make
      start := fun n b => match o.setMax n b with
        | .error _ => (b, none)
        | .ok b => (tryOp o.display b, none)
      update := fun i b => (tryOp (o.setValue i) b, none)
      hasDescription := fun _ => true
      setDescription := fun t b => (tryOp (o.setDescription t) b, none)
      finished := fun b => (tryOp o.close b, none) }

/-- The property `description`, ipy.py 75-86: `None` if the widget raises. -/
def ipyDescription {W : Type} (o : WidgetOps W) (b : W) : Option String :=
  match o.description b with
  | .ok t => some t
  | .error _ => none

end QInfer
