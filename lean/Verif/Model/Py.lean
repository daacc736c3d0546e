import Mathlib.Algebra.Order.Field.Basic
import Mathlib.Algebra.BigOperators.Group.List.Basic
import Mathlib.Order.WithBot

/-!
# Python and numpy primitives used by the models

Exceptions and warnings are values.  Arrays with one axis are lists.
-/

namespace QInfer

/-- Python exception classes raised by the modelled code.
(For example smc.py 137, 478, distributions.py 285, resamplers.py 271.) -/
inductive PyErr
  | valueError | runtimeError | indexError | zeroDivisionError | typeError
  | assertionError | attributeError | nameError | resamplerError | keyError
  | unboundLocalError | recursionError | other
  deriving DecidableEq, Repr

/-- Warnings issued by `src/qinfer/smc.py` (the message is reduced to its kind). -/
inductive Warn
  | smallEss          -- smc.py 268-274
  | negativeWeights   -- smc.py 417
  | zeroWeights       -- smc.py 429
  | zeroWeightsReset  -- smc.py 433
  | resampleNoData    -- smc.py 496-501
  | clearCache        -- smc.py 536
  | resampleADeprecated -- smc.py 151
  deriving DecidableEq, Repr

section
variable {K : Type*} [Field K]

/-- `np.spacing(1)`: the distance from 1 to the next double, `2 ^ (-52)`. (smc.py 174, 370.) -/
def eps : K := 1 / 2 ^ 52

/-- numpy broadcasting of a binary operation over two one-axis arrays: equal lengths are
combined entrywise, a length-one array is stretched, anything else raises `ValueError`.
(For example smc.py 353-362.) -/
def bcast (f : K → K → K) (a b : List K) : Except PyErr (List K) :=
  if a.length = b.length then .ok (List.zipWith f a b)
  else match a, b with
    | [x], b => .ok (b.map fun y => f x y)
    | a, [y] => .ok (a.map fun x => f x y)
    | _, _ => .error .valueError

/-- numpy slice assignment `dst[:] = src` on one-axis arrays.
(smc.py 441.) -/
def assignInto (dst src : List K) : Except PyErr (List K) :=
  if src.length = dst.length then .ok src
  else match src with
    | [x] => .ok (List.replicate dst.length x)
    | _ => .error .valueError

/-- `np.cumsum`. (distributions.py 329, 595, resamplers.py 308.) -/
def cumsum (w : List K) : List K := w.scanl (· + ·) 0 |>.tail

variable [LinearOrder K]

/-- `np.clip(x, lo, hi)` on a scalar: `minimum(maximum(x, lo), hi)`. (smc.py 418.) -/
def clip (lo hi x : K) : K := min (max x lo) hi

/-- `1 / x` as numpy computes it for `x ≥ 0`: infinity at zero. (distributions.py 299-309.) -/
def recip (x : K) : WithTop K := if x = 0 then ⊤ else ((1 / x : K) : WithTop K)

/-- `a.searchsorted(v, side='right')`: the number of leading entries `≤ v`
(numpy's binary search returns this on a sorted array).
(distributions.py 330, resamplers.py 318.) -/
def searchsortedRight (a : List K) (v : K) : Nat := (a.takeWhile (· ≤ v)).length

end

end QInfer
