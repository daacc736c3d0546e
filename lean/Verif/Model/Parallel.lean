import Verif.Model.Py

/-!
# Model of the engine-parallel wrapper

`src/qinfer/parallel.py` 110-125, 154-163 and 182-287 (`DirectViewParallelizedModel`).

A direct view is reduced to its number of engines; `map_sync` evaluates the function on each tuple of
arguments and returns the results in order.  Call counting is in `Verif.Model.Chain`.
-/

namespace QInfer

/-- An array with three axes; entries outside the shape have no meaning.
(The arrays at parallel.py 183-287.) -/
structure Arr3 (α : Type*) where
  n0 : Nat
  n1 : Nat
  n2 : Nat
  get : Nat → Nat → Nat → α

/-- Joining two arrays along axis 0; the other axes must agree. (parallel.py 269.) -/
def Arr3.cat0 {α : Type*} (a b : Arr3 α) : Except PyErr (Arr3 α) :=
  if a.n1 = b.n1 ∧ a.n2 = b.n2 then
    .ok ⟨a.n0 + b.n0, a.n1, a.n2,
      fun i j k => if i < a.n0 then a.get i j k else b.get (i - a.n0) j k⟩
  else .error .valueError

/-- Joining two arrays along axis 1; the other axes must agree. (parallel.py 224, 287.) -/
def Arr3.cat1 {α : Type*} (a b : Arr3 α) : Except PyErr (Arr3 α) :=
  if a.n0 = b.n0 ∧ a.n2 = b.n2 then
    .ok ⟨a.n0, a.n1 + b.n1, a.n2,
      fun i j k => if j < a.n1 then a.get i j k else b.get i (j - a.n1) k⟩
  else .error .valueError

/-- `np.concatenate(arrays, axis)`, joining by `cat`; an empty list raises `ValueError`.
(parallel.py 224, 269, 287.) -/
def concatenate {α : Type*} (cat : Arr3 α → Arr3 α → Except PyErr (Arr3 α)) :
    List (Arr3 α) → Except PyErr (Arr3 α)
  | [] => .error .valueError
  | a :: as => as.foldlM cat a

/-- Cutting a list into consecutive pieces of the given lengths. (parallel.py 218, 264, 283.) -/
def cutBy {α : Type*} : List Nat → List α → List (List α)
  | [], _ => []
  | s :: ss, l => l.take s :: cutBy ss (l.drop s)

/-- `np.array_split(l, n, axis=0)`: `len(l) % n` pieces of length `len(l) // n + 1`, then pieces of
length `len(l) // n`; `n = 0` raises `ValueError`. (parallel.py 218, 264, 283.) -/
def arraySplit {α : Type*} (l : List α) (n : Nat) : Except PyErr (List (List α)) :=
  if n = 0 then .error .valueError
  else
    let each := l.length / n
    let extras := l.length % n
    .ok (cutBy (List.replicate extras (each + 1) ++ List.replicate (n - extras) each) l)

/-- The state of a `DirectViewParallelizedModel`: engines of the direct view (`none` after
unpickling, parallel.py 130-138) and the serial threshold. -/
structure ParCfg where
  dv : Option Nat
  threshold : ℤ

/-- `n_engines`, parallel.py 154-163. -/
def ParCfg.nEngines (c : ParCfg) : Nat := c.dv.getD 0

/-- `__init__`, parallel.py 110-125. -/
def parInit (dv : Option Nat) (serialThreshold : Option ℤ) : ParCfg :=
  ⟨dv, serialThreshold.getD (10 * dv.getD 0)⟩

/-- Pickling and unpickling, parallel.py 130-138: the direct view is dropped. -/
def ParCfg.pickled (c : ParCfg) : ParCfg := ⟨none, c.threshold⟩

/-- `likelihood`, parallel.py 182-224.  `lik` is the serial model's likelihood. -/
def parLikelihood {O M E α : Type} (c : ParCfg) (lik : List O → List M → List E → Arr3 α)
    (os : List O) (ms : List M) (es : List E) : Except PyErr (Arr3 α) :=
  if (ms.length : ℤ) ≤ c.threshold then .ok (lik os ms es)
  else match c.dv with
    | none => .error .runtimeError
    | some _ => do
      let chunks ← arraySplit ms c.nEngines
      concatenate Arr3.cat1 (chunks.map fun mps => lik os mps es)

/-- `simulate_experiment`, parallel.py 226-287.  `sim t` is the serial model's simulation as run by engine `t`
(they draw different random numbers), `simLocal` the one run in this process. -/
def parSimulate {M E α : Type} (c : ParCfg) (simLocal : List M → List E → Nat → Arr3 α)
    (sim : Nat → List M → List E → Nat → Arr3 α)
    (ms : List M) (es : List E) (rep : Nat) (splitByModels : Bool) : Except PyErr (Arr3 α) :=
  match c.dv with
  | none => .error .runtimeError
  | some _ =>
    if splitByModels then
      if (ms.length : ℤ) ≤ c.threshold then .ok (simLocal ms es rep)
      else do
        let chunks ← arraySplit ms c.nEngines
        concatenate Arr3.cat0 (chunks.mapIdx fun t mps => sim t mps es rep)
    else
      if (es.length : ℤ) ≤ c.threshold then .ok (simLocal ms es rep)
      else do
        let chunks ← arraySplit es c.nEngines
        concatenate Arr3.cat1 (chunks.mapIdx fun t eps => sim t ms eps rep)

end QInfer
