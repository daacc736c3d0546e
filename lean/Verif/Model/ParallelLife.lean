import Verif.Model.Parallel

/-!
# Model of the life of an engine-parallel model object

`src/qinfer/parallel.py` 107-287 (`DirectViewParallelizedModel`), `src/qinfer/abstract_model.py` 306-307,
420-425, 441-516 and `src/qinfer/derived_models.py` 92-94.

`Verif.Model.Parallel` describes a single call; here the object keeps its state between calls: the
counters, the options, the state of the wrapped model and the direct view, and it can be pickled and
loaded again.
-/

namespace QInfer

/-- The wrapped model, as an arbitrary object with state `σ` (its counters, caches and random numbers).
`copy t u` is what engine `t` receives when a model in state `u` is sent to it (parallel.py 216-222,
261-267). -/
structure SerialModel (σ O M E α D : Type) where
  lik : σ → List O → List M → List E → Except PyErr (Arr3 α) × σ
  sim : σ → List M → List E → Nat → Except PyErr (Arr3 D) × σ
  clear : σ → Except PyErr Unit × σ
  consistent : List E → Bool
  copy : Nat → σ → σ

/-- A direct view: its number of engines, how often its results and its client were purged, and whether
purging raises. (parallel.py 172-179.) -/
structure DView where
  engines : Nat
  purges : Nat
  clientPurges : Nat
  refuses : Bool
  deriving DecidableEq, Repr

/-- The attributes of a `DirectViewParallelizedModel`; the last three are `none` where the object has
no such attribute.  The scale matrix `_Q` is left out, because `Q` reads the wrapped model's.
(parallel.py 116-123, abstract_model.py 89, 423-425.) -/
structure ParObj (σ K : Type) where
  und : σ
  dv : Option DView
  threshold : ℤ
  call : Nat
  sim : Nat
  purge : Option Bool
  identical : Option Bool
  warnAt : Option K

variable {σ O M E α D K : Type}

/-- `len(direct_view)`, 0 for `None`, parallel.py 155-163. -/
def ParObj.nEngines (s : ParObj σ K) : Nat :=
  match s.dv with
  | some v => v.engines
  | none => 0

/-- `__init__`, parallel.py 109-123 with abstract_model.py 88-91 and 420-425.  `warnDefault` is the
default 0.99. -/
def ParObj.new (warnDefault : K) (u : σ) (dv : Option DView) (purge : Bool) (thr : Option ℤ) :
    ParObj σ K :=
  { und := u, dv := dv
    threshold := match thr with
      | none => 10 * ((match dv with | some v => v.engines | none => 0 : Nat) : ℤ)
      | some t => t
    call := 0, sim := 0, purge := some purge, identical := some false, warnAt := some warnDefault }

/-- Pickling and loading: only the attributes listed by `__getstate__` come back, with `_dv = None`
and the wrapped model pickled in turn (`f`).  Loading does not call `__init__`. (parallel.py 127-136.) -/
def ParObj.reload (f : σ → σ) (s : ParObj σ K) : ParObj σ K :=
  { und := f s.und, dv := none, threshold := s.threshold, call := s.call, sim := s.sim
    purge := none, identical := none, warnAt := none }

/-- `likelihood`, parallel.py 183-224; counting is abstract_model.py 466-468.  An exception on an engine
comes back as one of the view's own exception classes. -/
def ParObj.likelihood (S : SerialModel σ O M E α D) (s : ParObj σ K) (os : List O) (ms : List M)
    (es : List E) : Except PyErr (Arr3 α) × ParObj σ K :=
  let s := { s with call := s.call + os.length * ms.length * es.length }
  if (ms.length : ℤ) ≤ s.threshold then
    let r := S.lik s.und os ms es
    (r.1, { s with und := r.2 })
  else match s.dv with
    | none => (.error .runtimeError, s)
    | some v =>
      (do
        let chunks ← arraySplit ms v.engines
        let Ls ← (chunks.mapIdx fun t mps => (t, mps)).mapM fun p =>
          match (S.lik (S.copy p.1 s.und) os p.2 es).1 with
          | .ok A => (.ok A : Except PyErr (Arr3 α))
          | .error _ => .error .other
        concatenate Arr3.cat1 Ls, s)

/-- `simulate_experiment`, parallel.py 226-287; counting and the check of the data types are
abstract_model.py 306-307. -/
def ParObj.simulate (S : SerialModel σ O M E α D) (s : ParObj σ K) (ms : List M) (es : List E)
    (rep : Nat) (byModels : Bool) : Except PyErr (Arr3 D) × ParObj σ K :=
  let s := { s with sim := s.sim + ms.length * es.length * rep }
  if S.consistent es = false then (.error .assertionError, s)
  else match s.dv with
    | none => (.error .runtimeError, s)
    | some v =>
      if ((if byModels then ms.length else es.length : Nat) : ℤ) ≤ s.threshold then
        let r := S.sim s.und ms es rep
        (r.1, { s with und := r.2 })
      else if byModels then
        (do
          let chunks ← arraySplit ms v.engines
          let Ds ← (chunks.mapIdx fun t mps => (t, mps)).mapM fun p =>
            match (S.sim (S.copy p.1 s.und) p.2 es rep).1 with
            | .ok A => (.ok A : Except PyErr (Arr3 D))
            | .error _ => .error .other
          concatenate Arr3.cat0 Ds, s)
      else
        (do
          let chunks ← arraySplit es v.engines
          let Ds ← (chunks.mapIdx fun t eps => (t, eps)).mapM fun p =>
            match (S.sim (S.copy p.1 s.und) ms p.2 rep).1 with
            | .ok A => (.ok A : Except PyErr (Arr3 D))
            | .error _ => .error .other
          concatenate Arr3.cat1 Ds, s)

/-- `clear_cache`, parallel.py 167-181: the wrapped model first; whatever the view raises is ignored. -/
def ParObj.clearCache (S : SerialModel σ O M E α D) (s : ParObj σ K) :
    Except PyErr Unit × ParObj σ K :=
  let r := S.clear s.und
  let s := { s with und := r.2 }
  match r.1 with
  | .error e => (.error e, s)
  | .ok () => (.ok (), match s.dv with
    | none => s
    | some v =>
      if v.refuses then s
      else
        let v := { v with purges := v.purges + 1 }
        match s.purge with
        | some true => { s with dv := some { v with clientPurges := v.clientPurges + 1 } }
        | _ => { s with dv := some v })

/-- Reading `allow_identical_outcomes`, abstract_model.py 470-481. -/
def ParObj.getIdentical (s : ParObj σ K) : Except PyErr Bool :=
  match s.identical with
  | some b => .ok b
  | none => .error .attributeError

/-- Reading `outcome_warning_threshold`, abstract_model.py 494-505. -/
def ParObj.getWarnAt (s : ParObj σ K) : Except PyErr K :=
  match s.warnAt with
  | some x => .ok x
  | none => .error .attributeError

/-- What can be done with the object. (parallel.py 127-287, abstract_model.py 482-516.) -/
inductive ParOp (O M E K : Type)
  | likelihood (os : List O) (ms : List M) (es : List E)
  | simulate (ms : List M) (es : List E) (rep : Nat) (byModels : Bool)
  | clearCache
  | reload
  | setIdentical (b : Bool)
  | setWarnAt (x : K)

/-- The state after an operation, also when it raised. (parallel.py 127-287, abstract_model.py 492, 516.) -/
def ParObj.step (S : SerialModel σ O M E α D) (f : σ → σ) (s : ParObj σ K) :
    ParOp O M E K → ParObj σ K
  | .likelihood os ms es => (s.likelihood S os ms es).2
  | .simulate ms es rep b => (s.simulate S ms es rep b).2
  | .clearCache => (s.clearCache S).2
  | .reload => s.reload f
  | .setIdentical b => { s with identical := some b }
  | .setWarnAt x => { s with warnAt := some x }

/-- The state after a history of operations. (parallel.py 107-287.) -/
def ParObj.after (S : SerialModel σ O M E α D) (f : σ → σ) (s : ParObj σ K)
    (ops : List (ParOp O M E K)) : ParObj σ K :=
  ops.foldl (ParObj.step S f) s

/-- A parallelized model as the serial model of another one: engine `t` receives a pickled copy, whose
own wrapped model is the copy sent to that engine.  Simulations split by models, the default.
(parallel.py 127-136, 216-222.) -/
def ParObj.asSerial (S : SerialModel σ O M E α D) : SerialModel (ParObj σ K) O M E α D where
  lik s os ms es := s.likelihood S os ms es
  sim s ms es rep := s.simulate S ms es rep true
  clear s := s.clearCache S
  consistent := S.consistent
  copy t s := s.reload (S.copy t)

end QInfer
