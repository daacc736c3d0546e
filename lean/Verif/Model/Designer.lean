import Verif.Model.Py
import Mathlib.Logic.Function.Basic

/-!
# Model of `ExperimentDesigner`

`src/qinfer/expdesign.py` 227-438 and `src/qinfer/_lib/enum.py`.

Experiments are records `F → V` in a heap of arrays, so that sharing between the designer and its
caller is visible.  A scipy optimiser is its result: the location and value it reports, or the
`TypeError` of a too flat gradient (caught for NCG only).  The objective is a function of the record.
Python 3 comparison with `None` raises `TypeError`.
-/

namespace QInfer

/-- `OptimizationAlgorithms`, expdesign.py 74. -/
inductive OptAlgo
  | null | cg | ncg | nelderMead
  deriving DecidableEq, Repr

/-- The integers of `enum.enum("NULL", "CG", "NCG", "NELDER_MEAD")`, `_lib/enum.py`. -/
def OptAlgo.ofInt : ℤ → Option OptAlgo
  | 0 => some .null
  | 1 => some .cg
  | 2 => some .ncg
  | 3 => some .nelderMead
  | _ => none

/-- The `guess` argument: a heuristic object, another callable, or an array.
(expdesign.py 275-277, 308-320.) -/
inductive Guess (F V : Type)
  | heuristic
  | callable (f : F → V)
  | array (ep : F → V)

/-- What the scipy call does. (expdesign.py 352-413.) -/
inductive OptRes (V K : Type)
  | found (x : V) (f : K)
  | typeError

/-- Designer and heap: `__best_cost`, `__best_ep` (an index into the heap).
(expdesign.py 238-255.) -/
structure Designer (F V K : Type) where
  algo : OptAlgo
  bestCost : Option K
  bestEp : Option Nat
  heap : List (F → V)

variable {F V K : Type} [DecidableEq F] [LinearOrder K]

/-- `new_exp`, expdesign.py 249-255. -/
def Designer.newExp (d : Designer F V K) : Designer F V K := { d with bestCost := none, bestEp := none }

/-- `__init__`, expdesign.py 238-246. -/
def designerInit (algo : ℤ) (heap : List (F → V)) : Except PyErr (Designer F V K) :=
  match OptAlgo.ofInt algo with
  | none => .error .valueError
  | some a => .ok (Designer.newExp ⟨a, none, none, heap⟩)

/-- The `x_opt, f_opt` of the four branches, expdesign.py 356-415; `g` is the array guess.
`objective_function` also writes the trial values into `ep[field]`, which is overwritten later. -/
def runOpt (algo : OptAlgo) (g : F → V) (field : F) (res : OptRes V K) :
    Except PyErr (V × Option K) :=
  match algo with
  | .null => .ok (g field, none)
  | .ncg => match res with
    | .found x f => .ok (x, some f)
    | .typeError => .ok (g field, none)
  | _ => match res with
    | .found x f => .ok (x, some f)
    | .typeError => .error .typeError

/-- The comparison `self.__best_cost is None or (self.__best_cost > f_opt)`, expdesign.py 425. -/
def isBetter (best : Option K) (f : Option K) : Except PyErr Bool :=
  match best, f with
  | none, _ => .ok true
  | some _, none => .error .typeError
  | some b, some f => .ok (decide (f < b))

/-- `design_expparams_field`, expdesign.py 257-438.  The result is the index of the returned array.
A callable guess fails at `guess[0][field]`: functions cannot be indexed. -/
def Designer.design (d : Designer F V K) (guess : Guess F V) (field : F) (res : OptRes V K)
    (store : Bool) : Designer F V K × Except PyErr Nat :=
  match guess with
  | .heuristic => (d, .error .other)
  | .callable _ => (d, .error .typeError)
  | .array g =>
    match runOpt d.algo g field res with
    | .error err => (d, .error err)
    | .ok (x, f) =>
      if store then
        match isBetter d.bestCost f with
        | .error err => (d, .error err)
        | .ok true =>
          let i := d.heap.length
          ({ d with heap := d.heap ++ [Function.update g field x], bestCost := f, bestEp := some i },
            .ok i)
        | .ok false =>
          match d.bestEp with
          | some i => (d, .ok i)
          | none => (d, .ok d.heap.length)   -- unreachable: `__best_ep` is set with `__best_cost`
      else
        let i := d.heap.length
        ({ d with heap := d.heap ++ [Function.update g field x] }, .ok i)

/-- The caller assigns to an array it holds. (Of the array returned at expdesign.py 438.) -/
def Designer.callerWrites (d : Designer F V K) (i : Nat) (ep : F → V) : Designer F V K :=
  { d with heap := d.heap.set i ep }

end QInfer
