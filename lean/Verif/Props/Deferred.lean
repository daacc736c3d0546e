import Verif.Model.Deferred

/-!
# C128: delegated trials and progress bars

Specification: the outcomes of trials run one after another on one random state (`Spec.outcomes`), and the number
of them that are fetched (`Spec.used`).
-/

namespace QInfer

namespace Spec

variable {S R H : Type}

/-- The outcomes of `n` trials run one after another. -/
def outcomes (f : Task S R) (p : ErrPol) : Nat → S → List (Except PyErr R)
  | 0, _ => []
  | n + 1, s => (f p s).1 :: outcomes f p n (f p s).2

/-- The random state after `n` trials. -/
def after (f : Task S R) (p : ErrPol) : Nat → S → S
  | 0, s => s
  | n + 1, s => after f p n (f p s).2

/-- How many results are fetched: all, or up to the first failure. -/
def used (allow : Bool) : List (Except PyErr R) → Nat
  | [] => 0
  | .ok _ :: l => used allow l + 1
  | .error _ :: l => if allow then used allow l + 1 else 1

/-- What an engine's results give when they are fetched in order, and the random state then. -/
def fetched (eng : Engine S R H) (p : ErrPol) : List H → S → List (Except PyErr R)
  | [], _ => []
  | h :: hs, s => (eng.get h p s).1.1 :: fetched eng p hs (eng.get h p s).2

/-- The policy during the trials: division by zero raises. -/
def trialPolicy (p : ErrPol) : ErrPol := { p with divide := .raise }

/-- The results of all `n` trials delegated to an engine. -/
def results (eng : Engine S R H) (f : Task S R) (n : Nat) (p : ErrPol) (s : S) : List (Except PyErr R) :=
  let d := dispatch eng f (trialPolicy p) n s
  fetched eng (trialPolicy p) d.1 d.2

/-- An engine in the same process that runs each trial when it is submitted. -/
def eager (S R : Type) : Engine S R (Except PyErr R) where
  submit f p s := f p s
  get h _ s := ((h, h), s)

/-- A bar of which no method raises. -/
structure Quiet {B : Type} (c : BarCls B) : Prop where
  start : ∀ n b, (c.start n b).2 = none
  update : ∀ i b, (c.update i b).2 = none
  describe : ∀ t b, (c.setDescription t b).2 = none
  finished : ∀ b, (c.finished b).2 = none

/-- A widget that does what it is told. -/
structure Glass where
  value : Nat
  max : Nat
  text : String
  shown : Bool
  closed : Bool
  deriving DecidableEq, Repr

/-- Its operations. -/
def glassOps : WidgetOps Glass where
  make := ⟨0, 100, "", false, false⟩
  description b := .ok b.text
  setDescription t b := .ok { b with text := t }
  setMax n b := .ok { b with max := n }
  display b := .ok { b with shown := true }
  setValue i b := .ok { b with value := i }
  close b := .ok { b with closed := true }

end Spec

open Spec

variable {S R B H : Type}

theorem dispatch_length (eng : Engine S R H) (f : Task S R) (p : ErrPol) (n : Nat) (s : S) :
    (dispatch eng f p n s).1.length = n := by
  induction n generalizing s with
  | zero => rfl
  | succ n ih => simp [dispatch, ih]

theorem fetched_length (eng : Engine S R H) (p : ErrPol) (hs : List H) (s : S) :
    (fetched eng p hs s).length = hs.length := by
  induction hs generalizing s with
  | nil => rfl
  | cons h hs ih => simp [fetched, ih]

theorem barStep_quiet (c : BarCls B) (hq : Quiet c) (m : B → B × Option PyErr) (hm : ∀ b, (m b).2 = none)
    (t : String) (w : RWorld S B) :
    ∃ b, barStep c m t w = ({ w with bar := b }, .ok ()) ∧ (b.isSome = w.bar.isSome) := by
  obtain ⟨pol, rnd, bar⟩ := w
  cases bar with
  | none => exact ⟨none, rfl, rfl⟩
  | some b =>
    rcases h1 : m b with ⟨b1, e1⟩
    have := hm b; rw [h1] at this; subst this
    have h2 : (describe c t b1).2 = none := by
      unfold describe; split
      · exact hq.describe t b1
      · rfl
    rcases h3 : describe c t b1 with ⟨b2, e2⟩
    rw [h3] at h2; subst h2
    exact ⟨some b2, by simp [barStep, h1, h3], by simp⟩

/-- Collecting with a quiet bar is collecting without one. -/
theorem collectFrom_quiet (eng : Engine S R H) (c : BarCls B) (hq : Quiet c) (name : String) (n : Nat) (allow : Bool)
    (idx : Nat) (hs : List H) (rows : List (R × Bool)) (w : RWorld S B) (lg : List ProgEv) :
    (collectFrom eng c name n allow idx hs rows w).2
      = (collect allow none idx (fetched eng w.pol hs w.rnd) rows ⟨w.pol, lg⟩).2
    ∧ (collectFrom eng c name n allow idx hs rows w).1.pol = w.pol
    ∧ (collect allow none idx (fetched eng w.pol hs w.rnd) rows ⟨w.pol, lg⟩).1.pol = w.pol
    ∧ (collectFrom eng c name n allow idx hs rows w).1.bar.isSome = w.bar.isSome := by
  induction hs generalizing idx rows w with
  | nil => exact ⟨rfl, rfl, rfl, rfl⟩
  | cons h hs ih =>
    unfold collectFrom fetched collect
    rcases hg : eng.get h w.pol w.rnd with ⟨⟨r, h'⟩, s⟩
    cases r with
    | ok v =>
      obtain ⟨b, hb, hbs⟩ := barStep_quiet c hq (c.update idx) (hq.update idx) (perfText name idx n)
        { w with rnd := s }
      simp only [hb, storeTrial, progUpdate]
      have := ih (idx + 1) (rows.set idx (v, false)) { w with rnd := s, bar := b }
      refine ⟨this.1, this.2.1, this.2.2.1, this.2.2.2.trans hbs⟩
    | error e =>
      simp only [storeTrial]
      cases allow with
      | true => exact ih (idx + 1) (maskRow idx rows) { w with rnd := s }
      | false => exact ⟨rfl, rfl, rfl, rfl⟩

theorem runTrials_quiet (eng : Engine S R H) (c : BarCls B) (hq : Quiet c) (name : String) (zero : R) (f : Task S R)
    (n : Nat) (allow : Bool) (w : RWorld S B) (lg : List ProgEv) :
    (runTrials eng c name zero f n allow w).2
      = (perfTestMultiple zero (results eng f n w.pol w.rnd) allow none ⟨w.pol, lg⟩).2
    ∧ (runTrials eng c name zero f n allow w).1.pol
      = (perfTestMultiple zero (results eng f n w.pol w.rnd) allow none ⟨w.pol, lg⟩).1.pol
    ∧ (runTrials eng c name zero f n allow w).1.bar.isSome = w.bar.isSome := by
  have hp : (seterr { divide := some .raise } w.pol).1 = trialPolicy w.pol := rfl
  have hrows : (results eng f n w.pol w.rnd).map (fun _ => (zero, false)) = List.replicate n (zero, false) := by
    simp [results, List.map_const', fetched_length, dispatch_length]
  unfold runTrials perfTestMultiple withErrPolicy
  simp only [hp, hrows]
  obtain ⟨h1, h2, h3, h4⟩ := collectFrom_quiet eng c hq name n allow 0 (dispatch eng f (trialPolicy w.pol) n w.rnd).1
    (List.replicate n (zero, false))
    { w with pol := trialPolicy w.pol, rnd := (dispatch eng f (trialPolicy w.pol) n w.rnd).2 } lg
  simp only at h1 h2 h3 h4
  simp only [results]
  rcases ha : collectFrom eng c name n allow 0 (dispatch eng f (trialPolicy w.pol) n w.rnd).1
    (List.replicate n (zero, false))
    { w with pol := trialPolicy w.pol, rnd := (dispatch eng f (trialPolicy w.pol) n w.rnd).2 } with ⟨wa, ra⟩
  rw [ha] at h1 h2 h4
  rcases hb : collect allow none 0 (fetched eng (trialPolicy w.pol) (dispatch eng f (trialPolicy w.pol) n w.rnd).1
    (dispatch eng f (trialPolicy w.pol) n w.rnd).2) (List.replicate n (zero, false)) ⟨trialPolicy w.pol, lg⟩ with ⟨wb, rb⟩
  rw [hb] at h1 h3
  simp only at h1 h2 h3 h4
  subst h1
  cases ra with
  | ok rows => exact ⟨rfl, by simp [h2, h3], h4⟩
  | error e => exact ⟨rfl, by simp [h2, h3], h4⟩

/-- **C128, a deferred task.**  The result of `apply_serial` is computed when it is first fetched, and from then on
every fetch returns the same value and leaves the random state as it is.  A task that raises is run again at the
next fetch. -/
theorem C128_deferred (f : Task S R) (p : ErrPol) (s : S) :
    ((serialEngine S R).submit f p s).2 = s ∧
    (∀ v s', f p s = (.ok v, s') →
      ∃ d : Deferred S R, (((serialEngine S R).submit f p s).1).get p s = ((.ok v, d), s') ∧
        ∀ q t, d.get q t = ((.ok v, d), t)) ∧
    (∀ e s', f p s = (.error e, s') →
      (((serialEngine S R).submit f p s).1).get p s = ((.error e, ((serialEngine S R).submit f p s).1), s')) := by
  refine ⟨rfl, fun v s' h => ⟨⟨f, some v⟩, ?_, fun q t => rfl⟩, fun e s' h => ?_⟩
  · simp [serialEngine, Deferred.get, h]
  · simp [serialEngine, Deferred.get, h]

/-- **C128, rows.**  For every engine and every bar that does not raise, or none: the rows or the exception, and
the numpy error policy afterwards, are those of `perfTestMultiple` (C48) on the results that the engine gives when
they are fetched in the order of the trials, with division by zero raising. -/
theorem C128_rows (eng : Engine S R H) (zero : R) (f : Task S R) (n : Nat) (allow : Bool)
    (bar : Option (BarCls B)) (hq : ∀ c, bar = some c → Quiet c) (hnew : ∀ c, bar = some c → ∃ b, c.new = .ok b)
    (name : String) (w : RWorld S B) (lg : List ProgEv) :
    (perfTestEngine eng zero f n allow bar name w).2
      = (perfTestMultiple zero (results eng f n w.pol w.rnd) allow none ⟨w.pol, lg⟩).2
    ∧ (perfTestEngine eng zero f n allow bar name w).1.pol
      = (perfTestMultiple zero (results eng f n w.pol w.rnd) allow none ⟨w.pol, lg⟩).1.pol := by
  cases bar with
  | none =>
    have := runTrials_quiet eng ⟨.error .other, fun _ b => (b, none), fun _ b => (b, none), fun _ => false,
      fun _ b => (b, none), fun b => (b, none)⟩ ⟨fun _ _ => rfl, fun _ _ => rfl, fun _ _ => rfl, fun _ => rfl⟩
      name zero f n allow { w with bar := (none : Option B) } lg
    exact ⟨this.1, this.2.1⟩
  | some c =>
    have hq := hq c rfl
    obtain ⟨b, hb⟩ := hnew c rfl
    obtain ⟨b', h1, -⟩ := barStep_quiet c hq (c.start n) (hq.start n) (perfText name 0 n) { w with bar := some b }
    have := runTrials_quiet eng c hq name zero f n allow { w with bar := b' } lg
    simp only [perfTestEngine, hb, h1]
    rcases hr : runTrials eng c name zero f n allow { w with bar := b' } with ⟨w1, r1⟩
    rw [hr] at this
    have hf : ∃ b2, finishBar c (w1, r1) = ({ w1 with bar := b2 }, r1) := by
      obtain ⟨pol, rnd, bar⟩ := w1
      cases bar with
      | none => exact ⟨none, rfl⟩
      | some b1 =>
        rcases hf : c.finished b1 with ⟨b2, e⟩
        have := hq.finished b1; rw [hf] at this; subst this
        exact ⟨some b2, by simp [finishBar, hf]⟩
    obtain ⟨b2, hf⟩ := hf
    rw [hf]
    exact ⟨this.1, this.2.1⟩

theorem serial_dispatch (f : Task S R) (p : ErrPol) (n : Nat) (s : S) :
    dispatch (serialEngine S R) f p n s = (List.replicate n (⟨f, none⟩ : Deferred S R), s) := by
  induction n with
  | zero => rfl
  | succ n ih =>
    show (_, _) = _
    simp only [serialEngine] at ih ⊢
    rw [ih]; rfl

theorem serial_get (f : Task S R) (p : ErrPol) (s : S) :
    ((serialEngine S R).get (⟨f, none⟩ : Deferred S R) p s).1.1 = (f p s).1
    ∧ ((serialEngine S R).get (⟨f, none⟩ : Deferred S R) p s).2 = (f p s).2 := by
  rcases h : f p s with ⟨r, s'⟩
  cases r <;> simp [serialEngine, Deferred.get, h]

theorem serial_fetched (f : Task S R) (p : ErrPol) (n : Nat) (s : S) :
    fetched (serialEngine S R) p (List.replicate n (⟨f, none⟩ : Deferred S R)) s = outcomes f p n s := by
  induction n generalizing s with
  | zero => rfl
  | succ n ih =>
    obtain ⟨h1, h2⟩ := serial_get f p s
    have := ih (f p s).2
    simp only [List.replicate_succ, fetched, outcomes]
    rw [h1, h2, this]

theorem eager_dispatch (f : Task S R) (p : ErrPol) (n : Nat) (s : S) :
    dispatch (eager S R) f p n s = (outcomes f p n s, after f p n s) := by
  induction n generalizing s with
  | zero => rfl
  | succ n ih =>
    have := ih (f p s).2
    show (_, _) = _
    simp only [eager] at this ⊢
    rw [this]; rfl

theorem eager_fetched (p : ErrPol) (hs : List (Except PyErr R)) (s : S) :
    fetched (eager S R) p hs s = hs := by
  induction hs generalizing s with
  | nil => rfl
  | cons h hs ih => exact congrArg (h :: ·) (ih s)

theorem serial_rnd (c : BarCls B) (hq : Quiet c) (f : Task S R) (name : String) (n : Nat) (allow : Bool)
    (idx k : Nat) (rows : List (R × Bool)) (w : RWorld S B) :
    (collectFrom (serialEngine S R) c name n allow idx (List.replicate k (⟨f, none⟩ : Deferred S R)) rows w).1.rnd
      = after f w.pol (used allow (outcomes f w.pol k w.rnd)) w.rnd := by
  induction k generalizing idx rows w with
  | zero => rfl
  | succ k ih =>
    obtain ⟨h1, h2⟩ := serial_get f w.pol w.rnd
    simp only [List.replicate_succ, collectFrom, outcomes]
    rcases hg : (serialEngine S R).get (⟨f, none⟩ : Deferred S R) w.pol w.rnd with ⟨⟨r, h'⟩, s⟩
    rw [hg] at h1 h2
    simp only at h1 h2
    rw [← h1, ← h2]
    cases r with
    | ok v =>
      obtain ⟨b, hb, -⟩ := barStep_quiet c hq (c.update idx) (hq.update idx) (perfText name idx n)
        { w with rnd := s }
      simp only [hb, used, after]
      rw [← h2]
      exact ih (idx + 1) _ { w with rnd := s, bar := b }
    | error e =>
      cases allow with
      | true =>
        simp only [used, if_true, after]
        rw [← h2]
        exact ih (idx + 1) _ { w with rnd := s }
      | false => simp [used, after, h2]

theorem eager_rnd (c : BarCls B) (hq : Quiet c) (name : String) (n : Nat) (allow : Bool)
    (idx : Nat) (hs : List (Except PyErr R)) (rows : List (R × Bool)) (w : RWorld S B) :
    (collectFrom (eager S R) c name n allow idx hs rows w).1.rnd = w.rnd := by
  induction hs generalizing idx rows w with
  | nil => rfl
  | cons h hs ih =>
    unfold collectFrom
    cases h with
    | ok v =>
      obtain ⟨b, hb, -⟩ := barStep_quiet c hq (c.update idx) (hq.update idx) (perfText name idx n) w
      simp only [eager]
      rw [hb]
      exact ih (idx + 1) _ { w with bar := b }
    | error e =>
      simp only [eager]
      cases allow with
      | true => exact ih (idx + 1) _ w
      | false => rfl

/-- A quiet bar that is never made. -/
theorem quiet_none : Quiet (⟨.error .other, fun _ b => (b, none), fun _ b => (b, none), fun _ => false,
      fun _ b => (b, none), fun b => (b, none)⟩ : BarCls B) :=
  ⟨fun _ _ => rfl, fun _ _ => rfl, fun _ _ => rfl, fun _ => rfl⟩

/-- **C128, when the trials run.**  `apply_serial` and an engine that runs the trials as they are submitted give
the same results, those of the trials run one after another, so the same rows and exceptions (`C128_rows`).  Only
the number of trials that are run differs: with `apply_serial` a failure that is not allowed is the last trial. -/
theorem C128_same_results (f : Task S R) (zero : R) (n : Nat) (allow : Bool) (name : String) (w : RWorld S B) :
    let p := trialPolicy w.pol
    let outs := outcomes f p n w.rnd
    results (serialEngine S R) f n w.pol w.rnd = outs ∧
    results (eager S R) f n w.pol w.rnd = outs ∧
    (perfTestEngine (serialEngine S R) zero f n allow (none : Option (BarCls B)) name w).1.rnd
      = after f p (used allow outs) w.rnd ∧
    (perfTestEngine (eager S R) zero f n allow (none : Option (BarCls B)) name w).1.rnd = after f p n w.rnd := by
  have hp : (seterr { divide := some .raise } w.pol).1 = trialPolicy w.pol := rfl
  refine ⟨?_, ?_, ?_, ?_⟩
  · simp only [results, serial_dispatch, serial_fetched]
  · simp only [results, eager_dispatch]
    exact eager_fetched _ _ _
  · have := serial_rnd (B := B) _ quiet_none f name n allow 0 n (List.replicate n (zero, false))
      ⟨trialPolicy w.pol, w.rnd, none⟩
    simp only [perfTestEngine, runTrials, hp, serial_dispatch]
    split <;> rename_i heq <;> rw [heq] at this <;> exact this
  · have := eager_rnd (S := S) (B := B) _ quiet_none name n allow 0 (outcomes f (trialPolicy w.pol) n w.rnd)
      (List.replicate n (zero, false)) ⟨trialPolicy w.pol, after f (trialPolicy w.pol) n w.rnd, none⟩
    simp only [perfTestEngine, runTrials, hp, eager_dispatch]
    split <;> rename_i heq <;> rw [heq] at this <;> exact this

/-- No method of an `IPythonProgressBar` raises, whatever its widget does. -/
theorem ipyBar_quiet {W : Type} (ipw : Option (WidgetOps W)) : Quiet (ipyBar ipw) := by
  cases ipw with
  | none => exact ⟨fun _ _ => rfl, fun _ _ => rfl, fun _ _ => rfl, fun _ => rfl⟩
  | some o =>
    refine ⟨fun n b => ?_, fun _ _ => rfl, fun _ _ => rfl, fun _ => rfl⟩
    simp only [ipyBar]
    split <;> rfl

theorem collectFrom_rnd {B' : Type} (eng : Engine S R H) (c : BarCls B) (c' : BarCls B') (hq : Quiet c)
    (hq' : Quiet c') (name : String) (n : Nat) (allow : Bool) (idx : Nat) (hs : List H) (rows : List (R × Bool))
    (w : RWorld S B) (w' : RWorld S B') (hp : w.pol = w'.pol) (hr : w.rnd = w'.rnd) :
    (collectFrom eng c name n allow idx hs rows w).1.rnd
      = (collectFrom eng c' name n allow idx hs rows w').1.rnd := by
  induction hs generalizing idx rows w w' with
  | nil => exact hr
  | cons h hs ih =>
    obtain ⟨pol, rnd, bar⟩ := w
    obtain ⟨pol', rnd', bar'⟩ := w'
    simp only at hp hr
    subst hp hr
    unfold collectFrom
    rcases hg : eng.get h pol rnd with ⟨⟨r, h'⟩, s⟩
    cases r with
    | ok v =>
      obtain ⟨b, hb, -⟩ := barStep_quiet c hq (c.update idx) (hq.update idx) (perfText name idx n)
        (⟨pol, s, bar⟩ : RWorld S B)
      obtain ⟨b', hb', -⟩ := barStep_quiet c' hq' (c'.update idx) (hq'.update idx) (perfText name idx n)
        (⟨pol, s, bar'⟩ : RWorld S B')
      simp only [hg, hb, hb']
      exact ih (idx + 1) _ _ _ rfl rfl
    | error e =>
      cases allow with
      | true => simp only [hg]; exact ih (idx + 1) _ _ _ rfl rfl
      | false => simp only [hg]; rfl

theorem runTrials_rnd {B' : Type} (eng : Engine S R H) (c : BarCls B) (c' : BarCls B') (hq : Quiet c)
    (hq' : Quiet c') (name : String) (zero : R) (f : Task S R) (n : Nat) (allow : Bool)
    (w : RWorld S B) (w' : RWorld S B') (hp : w.pol = w'.pol) (hr : w.rnd = w'.rnd) :
    (runTrials eng c name zero f n allow w).1.rnd = (runTrials eng c' name zero f n allow w').1.rnd := by
  have e : ∀ {B : Type} (c : BarCls B) (w : RWorld S B), (runTrials eng c name zero f n allow w).1.rnd =
      (collectFrom eng c name n allow 0 (dispatch eng f (trialPolicy w.pol) n w.rnd).1
        (List.replicate n (zero, false))
        { w with pol := trialPolicy w.pol, rnd := (dispatch eng f (trialPolicy w.pol) n w.rnd).2 }).1.rnd := by
    intro B c w
    have hp : (seterr { divide := some .raise } w.pol).1 = trialPolicy w.pol := rfl
    simp only [runTrials, hp]
    split <;> rename_i heq <;> rw [heq]
  rw [e, e, ← hp, ← hr]
  exact collectFrom_rnd eng c c' hq hq' name n allow 0 _ _ _ _ rfl rfl

/-- **C128, the bar for notebooks.**  Whatever its widget does or raises, also when the user closes it, an
`IPythonProgressBar` changes neither rows nor exceptions nor the error policy nor the random state.  Only where
`ipywidgets` is missing the call raises `ImportError`, before any trial is run. -/
theorem C128_ipython {W : Type} (eng : Engine S R H) (zero : R) (f : Task S R) (n : Nat) (allow : Bool)
    (name : String) (w : RWorld S W) :
    (∀ o : WidgetOps W,
      let a := perfTestEngine eng zero f n allow (some (ipyBar (some o))) name w
      let b := perfTestEngine eng zero f n allow none name w
      a.2 = b.2 ∧ a.1.pol = b.1.pol ∧ a.1.rnd = b.1.rnd) ∧
    perfTestEngine eng zero f n allow (some (ipyBar none)) name w = ({ w with bar := none }, .error .other) := by
  refine ⟨fun o => ?_, rfl⟩
  have ha := C128_rows eng zero f n allow (some (ipyBar (some o)))
    (fun c hc => by cases hc; exact ipyBar_quiet _) (fun c hc => by cases hc; exact ⟨o.make, rfl⟩) name w []
  have hb := C128_rows eng zero f n allow (none : Option (BarCls W)) (by simp) (by simp) name w []
  refine ⟨ha.1.trans hb.1.symm, ha.2.trans hb.2.symm, ?_⟩
  have hq := ipyBar_quiet (some o)
  obtain ⟨b', h1, -⟩ := barStep_quiet (ipyBar (some o)) hq ((ipyBar (some o)).start n) (hq.start n)
    (perfText name 0 n) { w with bar := some o.make }
  have hr := runTrials_rnd eng (ipyBar (some o)) _ hq (quiet_none (B := W)) name zero f n allow
    { w with bar := b' } { w with bar := (none : Option W) } rfl rfl
  have hfin : ∀ x : RWorld S W × Except PyErr (List (R × Bool)),
      (finishBar (ipyBar (some o)) x).1.rnd = x.1.rnd := by
    rintro ⟨⟨pol, rnd, bar⟩, r⟩
    cases bar <;> rfl
  have hnew : (ipyBar (some o)).new = .ok o.make := rfl
  simp only [perfTestEngine, hnew, h1, hfin]
  exact hr

/-- What the widget shows while results are collected. -/
theorem glass_collect (eng : Engine S R H) (name : String) (n : Nat) (allow : Bool) (idx : Nat) (hs : List H)
    (rows : List (R × Bool)) (w : RWorld S Glass) (g : Glass) (hg : w.bar = some g) :
    ∃ g', (collectFrom eng (ipyBar (some glassOps)) name n allow idx hs rows w).1.bar = some g' ∧
      g'.max = g.max ∧ g'.shown = g.shown ∧ g'.closed = g.closed ∧
      ((g'.value = g.value ∧ g'.text = g.text) ∨
        (idx ≤ g'.value ∧ g'.value < idx + hs.length ∧ g'.text = perfText name g'.value n)) ∧
      (hs ≠ [] → (∀ r ∈ fetched eng w.pol hs w.rnd, ∃ v, r = .ok v) → g'.value + 1 = idx + hs.length) := by
  induction hs generalizing idx rows w g with
  | nil => exact ⟨g, hg, rfl, rfl, rfl, Or.inl ⟨rfl, rfl⟩, by simp⟩
  | cons h hs ih =>
    unfold collectFrom
    rcases hget : eng.get h w.pol w.rnd with ⟨⟨r, h'⟩, s⟩
    cases r with
    | ok v =>
      have hb : barStep (ipyBar (some glassOps)) ((ipyBar (some glassOps)).update idx) (perfText name idx n)
          { w with rnd := s } =
          ({ w with rnd := s, bar := some { g with value := idx, text := perfText name idx n } }, .ok ()) := by
        simp [barStep, hg, ipyBar, describe, tryOp, glassOps]
      simp only [hb]
      obtain ⟨g', h1, h2, h3, h4, h5, h6⟩ := ih (idx + 1) (rows.set idx (v, false))
        { w with rnd := s, bar := some { g with value := idx, text := perfText name idx n } } _ rfl
      refine ⟨g', h1, h2, h3, h4, Or.inr ?_, fun _ hall => ?_⟩
      · simp only [List.length_cons]
        rcases h5 with ⟨h5, h5'⟩ | ⟨h5, h5', h5''⟩
        · rw [h5', h5]; simp
        · exact ⟨by omega, by omega, h5''⟩
      · by_cases hne : hs = []
        · subst hne
          simp only [List.length_cons, List.length_nil]
          rcases h5 with ⟨h5, -⟩ | ⟨h5, h5', -⟩
          · simp only at h5; omega
          · simp at h5'; omega
        · have := h6 hne (fun r hr => hall r (by simp only [fetched, hget]; simp [hr]))
          simp only [List.length_cons]; omega
    | error e =>
      cases allow with
      | true =>
        obtain ⟨g', h1, h2, h3, h4, h5, -⟩ := ih (idx + 1) (maskRow idx rows) { w with rnd := s } g hg
        refine ⟨g', h1, h2, h3, h4, ?_, fun _ hall => ?_⟩
        · rcases h5 with h5 | ⟨h5, h5', h5''⟩
          · exact Or.inl h5
          · refine Or.inr ⟨by omega, by simp only [List.length_cons]; omega, h5''⟩
        · obtain ⟨v, hv⟩ := hall (.error e) (by simp [fetched, hget])
          cases hv
      | false =>
        refine ⟨g, hg, rfl, rfl, rfl, Or.inl ⟨rfl, rfl⟩, fun _ hall => ?_⟩
        obtain ⟨v, hv⟩ := hall (.error e) (by simp [fetched, hget])
        cases hv

/-- The text of the bar after `k` of `n` trials. -/
def Spec.barText (name : String) (k n : Nat) : String := s!"Performance testing {name} ({k} / {n})..."

theorem perfText_eq (name : String) (k n : Nat) : perfText name k n = Spec.barText name k n := rfl

/-- **C128, what the bar shows.**  It is displayed with the number of trials as its end and closed at the end of
the call, also after an exception.  Its value and text are the index of the last trial that gave a result, counted
from zero: after all `n` trials it shows `n - 1` of `n`, so the end is never reached. -/
theorem C128_bar_shows (eng : Engine S R H) (zero : R) (f : Task S R) (n : Nat) (allow : Bool) (name : String)
    (w : RWorld S Glass) :
    ∃ g, (perfTestEngine eng zero f n allow (some (ipyBar (some glassOps))) name w).1.bar = some g ∧
      g.max = n ∧ g.shown = true ∧ g.closed = true ∧ g.text = Spec.barText name g.value n ∧
      (0 < n → g.value < n) ∧
      (0 < n → (∀ r ∈ results eng f n w.pol w.rnd, ∃ v, r = .ok v) → g.value = n - 1) := by
  have hp : (seterr { divide := some .raise } w.pol).1 = trialPolicy w.pol := rfl
  obtain ⟨g', h1, h2, h3, h4, h5, h6⟩ := glass_collect eng name n allow 0
    (dispatch eng f (trialPolicy w.pol) n w.rnd).1 (List.replicate n (zero, false))
    { pol := trialPolicy w.pol, rnd := (dispatch eng f (trialPolicy w.pol) n w.rnd).2,
      bar := some ⟨0, n, perfText name 0 n, true, false⟩ } _ rfl
  have hb : barStep (ipyBar (some glassOps)) ((ipyBar (some glassOps)).start n) (perfText name 0 n)
      { w with bar := some glassOps.make } =
      ({ w with bar := some ⟨0, n, perfText name 0 n, true, false⟩ }, .ok ()) := by
    simp [barStep, ipyBar, describe, tryOp, glassOps]
  have hnew : (ipyBar (some glassOps)).new = .ok glassOps.make := rfl
  refine ⟨{ g' with closed := true }, ?_, h2, h3, rfl, ?_, ?_, ?_⟩
  · simp only [perfTestEngine, hnew, hb, runTrials, hp]
    split <;> rename_i heq <;> rw [heq] at h1 <;> simp only at h1 <;>
      simp [finishBar, h1, ipyBar, tryOp, glassOps]
  · rw [← perfText_eq]
    rcases h5 with ⟨h5, h5'⟩ | ⟨-, -, h5⟩
    · simp only [h5', h5]
    · exact h5
  · intro hn
    rcases h5 with ⟨h5, -⟩ | ⟨-, h5, -⟩
    · simp only [h5]; exact hn
    · rw [dispatch_length] at h5; simpa using h5
  · intro hn hall
    have := h6 (by intro h; have := dispatch_length eng f (trialPolicy w.pol) n w.rnd; rw [h] at this; simp at this; omega)
      (by simpa [results] using hall)
    rw [dispatch_length] at this
    simp only; omega

theorem barStep_raises (c : BarCls B) (m : B → B × Option PyErr) (b b' : B) (e : PyErr) (hm : m b = (b', some e))
    (t : String) (w : RWorld S B) (hb : w.bar = some b) :
    barStep c m t w = ({ w with bar := some b' }, .error e) := by
  simp [barStep, hb, hm]

/-- **C128, a bar that raises.**  If `start` raises, that exception is raised before any trial, and the bar is
finished.  If `finished` raises, its exception takes the place of the result, whatever that is.  If `update` raises
at every trial, with `allow_failures` all rows are masked although their trials gave results, and otherwise the
first trial with a result ends the call. -/
theorem C128_bar_raises (eng : Engine S R H) (zero : R) (f : Task S R) (n : Nat) (c : BarCls B) (b₀ : B)
    (hnew : c.new = .ok b₀) (name : String) (w : RWorld S B) :
    (∀ allow e b, c.start n b₀ = (b, some e) → (c.finished b).2 = none →
      perfTestEngine eng zero f n allow (some c) name w =
        ({ w with bar := some (c.finished b).1 }, .error e)) ∧
    (∀ allow e, (∀ b, (c.finished b).2 = some e) →
      (perfTestEngine eng zero f n allow (some c) name w).2 = .error e) ∧
    (∀ e, (∀ m b, (c.start m b).2 = none) → (∀ t b, (c.setDescription t b).2 = none) →
      (∀ i b, (c.update i b).2 = some e) → (∀ b, (c.finished b).2 = none) →
      (∃ rows, (perfTestEngine eng zero f n true (some c) name w).2 = .ok rows ∧ rows.length = n ∧
        ∀ r ∈ rows, r.2 = true) ∧
      (∀ v l, results eng f n w.pol w.rnd = .ok v :: l →
        (perfTestEngine eng zero f n false (some c) name w).2 = .error e)) := by
  have keeps : ∀ (allow : Bool) (idx : Nat) (hs : List H) (rows : List (R × Bool)) (w : RWorld S B),
      w.bar.isSome → (collectFrom eng c name n allow idx hs rows w).1.bar.isSome := by
    intro allow idx hs
    have step : ∀ (m : B → B × Option PyErr) (t : String) (w : RWorld S B), w.bar.isSome →
        (barStep c m t w).1.bar.isSome := by
      intro m t w hw
      unfold barStep
      split
      · exact hw
      · split
        · rfl
        · split <;> rfl
    induction hs generalizing idx with
    | nil => intro rows w hw; exact hw
    | cons h hs ih =>
      intro rows w hw
      unfold collectFrom
      split
      · rename_i v h' s hg
        have := step (c.update idx) (perfText name idx n) { w with rnd := s } hw
        dsimp only
        split
        · rename_i w' heq; rw [heq] at this; exact ih _ _ _ this
        · rename_i w' e heq
          rw [heq] at this
          split
          · exact ih _ _ _ this
          · exact this
      · split
        · exact ih _ _ _ hw
        · exact hw
  refine ⟨fun allow e b hs hf => ?_, fun allow e hf => ?_, fun e hs hd hu hf => ?_⟩
  · rcases hf' : c.finished b with ⟨b', x⟩
    rw [hf'] at hf; simp only at hf; subst hf
    simp only [perfTestEngine, hnew, barStep_raises c (c.start n) b₀ b e hs (perfText name 0 n)
      { w with bar := some b₀ } rfl, finishBar, hf']
  · have fin : ∀ x : RWorld S B × Except PyErr (List (R × Bool)), x.1.bar.isSome →
        (finishBar c x).2 = .error e := by
      rintro ⟨⟨pol, rnd, bar⟩, r⟩ hx
      cases bar with
      | none => cases hx
      | some b =>
        rcases h : c.finished b with ⟨b', y⟩
        have := hf b; rw [h] at this; simp only at this; subst this
        simp [finishBar, h]
    simp only [perfTestEngine, hnew]
    apply fin
    have h0 : (barStep c (c.start n) (perfText name 0 n) { w with bar := some b₀ }).1.bar.isSome := by
      unfold barStep
      dsimp only
      split
      · rfl
      · split <;> rfl
    split
    · rename_i heq; rw [heq] at h0; exact h0
    · rename_i w1 heq
      rw [heq] at h0
      unfold runTrials
      dsimp only
      have := keeps allow 0 (dispatch eng f (trialPolicy w1.pol) n w1.rnd).1 (List.replicate n (zero, false))
        { w1 with pol := trialPolicy w1.pol, rnd := (dispatch eng f (trialPolicy w1.pol) n w1.rnd).2 } h0
      split <;> rename_i heq' <;> · have h := congrArg (fun x => x.1.bar.isSome) heq'; exact h.symm.trans this
  · obtain ⟨b1, h1⟩ : ∃ b1, barStep c (c.start n) (perfText name 0 n) { w with bar := some b₀ } =
        ({ w with bar := some b1 }, .ok ()) := by
      rcases ha : c.start n b₀ with ⟨b1, x⟩
      have := hs n b₀; rw [ha] at this; simp only at this; subst this
      have h2 : (describe c (perfText name 0 n) b1).2 = none := by
        unfold describe; split
        · exact hd _ b1
        · rfl
      rcases h3 : describe c (perfText name 0 n) b1 with ⟨b2, y⟩
      rw [h3] at h2; simp only at h2; subst h2
      exact ⟨b2, by simp [barStep, ha, h3]⟩
    have fin : ∀ x : RWorld S B × Except PyErr (List (R × Bool)), (finishBar c x).2 = x.2 := by
      rintro ⟨⟨pol, rnd, bar⟩, r⟩
      cases bar with
      | none => rfl
      | some b =>
        rcases h : c.finished b with ⟨b', y⟩
        have := hf b; rw [h] at this; simp only at this; subst this
        simp [finishBar, h]
    have upd : ∀ (idx : Nat) (w : RWorld S B), w.bar.isSome → ∃ b,
        barStep c (c.update idx) (perfText name idx n) w = ({ w with bar := some b }, .error e) := by
      intro idx w hw
      obtain ⟨b, hb⟩ := Option.isSome_iff_exists.1 hw
      rcases h : c.update idx b with ⟨b', y⟩
      have := hu idx b; rw [h] at this; simp only at this; subst this
      exact ⟨b', barStep_raises c _ b b' e h _ w hb⟩
    constructor
    · have main : ∀ (hs : List H) (idx : Nat) (rows : List (R × Bool)) (w : RWorld S B), w.bar.isSome →
          rows.length = idx + hs.length → (∀ r ∈ rows.take idx, r.2 = true) →
          ∃ w' rows', collectFrom eng c name n true idx hs rows w = (w', .ok rows') ∧
            rows'.length = rows.length ∧ ∀ r ∈ rows', r.2 = true := by
        intro hs
        induction hs with
        | nil =>
          intro idx rows w hw hl hr
          refine ⟨w, rows, rfl, rfl, ?_⟩
          rw [List.take_of_length_le (by simp at hl; omega)] at hr
          exact hr
        | cons h hs ih =>
          intro idx rows w hw hl hr
          have msk : ∀ rows' : List (R × Bool), rows'.length = rows.length → rows'.take idx = rows.take idx →
              ∀ r ∈ (maskRow idx rows').take (idx + 1), r.2 = true := by
            intro rows' hl' ht r hr'
            obtain ⟨j, hj, rfl⟩ := List.mem_iff_getElem.1 hr'
            rw [List.length_take] at hj
            rw [List.getElem_take]
            simp only [maskRow, List.getElem_modify]
            split
            · rfl
            · rename_i hne
              have hji : j < idx := by omega
              have hmem : rows'[j]'(by simp [maskRow] at hj; omega) ∈ rows'.take idx := by
                rw [List.mem_iff_getElem]
                exact ⟨j, by simp [maskRow] at hj; rw [List.length_take]; omega, by rw [List.getElem_take]⟩
              rw [ht] at hmem
              exact hr _ hmem
          unfold collectFrom
          rcases hg : eng.get h w.pol w.rnd with ⟨⟨r, h'⟩, s⟩
          cases r with
          | ok v =>
            obtain ⟨b, hb⟩ := upd idx { w with rnd := s } hw
            simp only [hb, if_true]
            obtain ⟨w', rows', e1, e2, e3⟩ := ih (idx + 1) (maskRow idx (rows.set idx (v, false)))
              { w with rnd := s, bar := some b } rfl (by simp [maskRow] at hl ⊢; omega)
              (msk _ (by simp) (by rw [List.take_set_of_le (Nat.le_refl _)]))
            exact ⟨w', rows', e1, by simpa [maskRow] using e2, e3⟩
          | error e' =>
            simp only [if_true]
            obtain ⟨w', rows', e1, e2, e3⟩ := ih (idx + 1) (maskRow idx rows)
              { w with rnd := s } hw (by simp [maskRow] at hl ⊢; omega) (msk _ rfl rfl)
            exact ⟨w', rows', e1, by simpa [maskRow] using e2, e3⟩
      obtain ⟨w', rows', e1, e2, e3⟩ := main (dispatch eng f (trialPolicy w.pol) n w.rnd).1 0
        (List.replicate n (zero, false))
        { pol := trialPolicy w.pol, rnd := (dispatch eng f (trialPolicy w.pol) n w.rnd).2, bar := some b1 } rfl
        (by simp [dispatch_length]) (by simp)
      have hp : (seterr { divide := some .raise } w.pol).1 = trialPolicy w.pol := rfl
      refine ⟨rows', ?_, by simpa using e2, e3⟩
      simp only [perfTestEngine, hnew, h1, fin, runTrials, hp, e1]
    · intro v l hres
      have hp : (seterr { divide := some .raise } w.pol).1 = trialPolicy w.pol := rfl
      simp only [perfTestEngine, hnew, h1, fin, runTrials, hp]
      simp only [results] at hres
      rcases hd' : dispatch eng f (trialPolicy w.pol) n w.rnd with ⟨hs', s'⟩
      rw [hd'] at hres
      cases hs' with
      | nil => simp [fetched] at hres
      | cons h hs' =>
        simp only [fetched, List.cons.injEq] at hres
        obtain ⟨hr, -⟩ := hres
        rcases hg : eng.get h (trialPolicy w.pol) s' with ⟨⟨r, h'⟩, s⟩
        rw [hg] at hr
        simp only at hr
        subst hr
        obtain ⟨b, hb⟩ := upd 0 { pol := trialPolicy w.pol, rnd := s, bar := some b1 } rfl
        simp only [collectFrom, hg, hb, Bool.false_eq_true, if_false]

/-- **C128, a closed widget.**  If a widget raises at everything once it is closed, then after `finished` the
description is `None`, and whatever is done with the bar is ignored.  Before, the description is the one set. -/
theorem C128_closed {W : Type} (o : WidgetOps W) (closed : W → Prop)
    (hclose : ∀ b b', o.close b = .ok b' → closed b')
    (hraise : ∀ b, closed b → (∃ e, o.description b = .error e) ∧ (∀ t, ∃ e, o.setDescription t b = .error e) ∧
      (∀ m, ∃ e, o.setMax m b = .error e) ∧ (∀ i, ∃ e, o.setValue i b = .error e) ∧ ∃ e, o.close b = .error e) :
    (∀ b b', o.close b = .ok b' →
      let d := ((ipyBar (some o)).finished b).1
      ipyDescription o d = none ∧ (∀ t, ((ipyBar (some o)).setDescription t d).1 = d) ∧
      (∀ m, ((ipyBar (some o)).start m d).1 = d) ∧ (∀ i, ((ipyBar (some o)).update i d).1 = d) ∧
      ((ipyBar (some o)).finished d).1 = d) ∧
    (∀ b t b', o.setDescription t b = .ok b' → o.description b' = .ok t →
      ipyDescription o ((ipyBar (some o)).setDescription t b).1 = some t) := by
  constructor
  · intro b b' hb
    have hd : ((ipyBar (some o)).finished b).1 = b' := by simp [ipyBar, tryOp, hb]
    obtain ⟨⟨e1, h1⟩, h2, h3, h4, ⟨e5, h5⟩⟩ := hraise b' (hclose b b' hb)
    simp only [hd]
    refine ⟨by simp [ipyDescription, h1], fun t => ?_, fun m => ?_, fun i => ?_, ?_⟩
    · obtain ⟨e, h⟩ := h2 t; simp [ipyBar, tryOp, h]
    · obtain ⟨e, h⟩ := h3 m; simp [ipyBar, h]
    · obtain ⟨e, h⟩ := h4 i; simp [ipyBar, tryOp, h]
    · simp [ipyBar, tryOp, h5]
  · intro b t b' h1 h2
    simp [ipyBar, tryOp, h1, ipyDescription, h2]

/-- Case for C128: a widget that is a text until it is closed. -/
example :
    let op (f : String → Option String) (b : Option String) : Except PyErr (Option String) :=
      match b with
      | none => .error .attributeError
      | some t => .ok (f t)
    let o : WidgetOps (Option String) :=
      ⟨some "", fun b => (op some b).map (·.getD ""), fun t => op fun _ => some t, fun _ => op some, op some,
        fun _ => op some, op fun _ => none⟩
    ipyDescription o ((ipyBar (some o)).finished (some "a")).1 = none ∧
    ipyDescription o ((ipyBar (some o)).setDescription "b" (some "a")).1 = some "b" := by
  intro op o
  have h := C128_closed o (· = none) (fun b b' h => by cases b <;> simp [o, op] at h; exact h.symm)
    (fun b hb => by subst hb; exact ⟨⟨_, rfl⟩, fun _ => ⟨_, rfl⟩, fun _ => ⟨_, rfl⟩, fun _ => ⟨_, rfl⟩, ⟨_, rfl⟩⟩)
  exact ⟨(h.1 (some "a") none rfl).1, h.2 (some "a") "b" (some "b") rfl rfl⟩

/-- Case for C128: a bar of which `update` always raises. -/
example :
    let f : Task Nat Nat := fun _ s => (.ok s, s + 1)
    let w : RWorld Nat Unit := ⟨⟨.warn, .warn, .ignore, .warn⟩, 0, none⟩
    let bar : BarCls Unit := ⟨.ok (), fun _ b => (b, none), fun _ b => (b, some .typeError), fun _ => false,
      fun _ b => (b, none), fun b => (b, none)⟩
    (perfTestEngine (serialEngine Nat Nat) 9 f 2 true (some bar) "M" w).2 = .ok [(0, true), (1, true)] ∧
    (perfTestEngine (serialEngine Nat Nat) 9 f 2 false (some bar) "M" w).2 = .error .typeError := ⟨rfl, rfl⟩

/-- Case for C128: a trial returns how often the random state has been used and fails at the second use; three
trials with failures allowed, and without. -/
example :
    let f : Task Nat Nat := fun _ s => (if s = 1 then .error .valueError else .ok s, s + 1)
    let w : RWorld Nat Glass := ⟨⟨.warn, .warn, .ignore, .warn⟩, 0, none⟩
    let bar := some (ipyBar (some glassOps))
    (perfTestEngine (serialEngine Nat Nat) 9 f 3 true bar "M" w).2 = .ok [(0, false), (9, true), (2, false)] ∧
    (perfTestEngine (serialEngine Nat Nat) 9 f 3 false bar "M" w).2 = .error .valueError ∧
    (perfTestEngine (serialEngine Nat Nat) 9 f 3 false bar "M" w).1.rnd = 2 ∧
    (perfTestEngine (Spec.eager Nat Nat) 9 f 3 false bar "M" w).1.rnd = 3 ∧
    ((perfTestEngine (serialEngine Nat Nat) 9 f 3 true bar "M" w).1.bar.map fun g => (g.value, g.max)) =
      some (2, 3) := by
  refine ⟨rfl, rfl, rfl, rfl, rfl⟩

end QInfer
