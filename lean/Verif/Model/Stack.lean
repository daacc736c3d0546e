import Verif.Model.Nest
import Verif.Model.GaussHyper
import Verif.Model.Walk
import Verif.Model.Outcome

/-!
# Model of nested models: likelihoods

`src/qinfer/derived_models.py` 185-208, 314-329, 423-425, 443-486, 624-652, 701-703, 726-728, 864-872, 890-892.

The trees of `Model/Nest.lean` with the data the likelihood needs: the likelihood of the stand-alone model, the
noise of a poisoned model, the power of an `MLEModel`, the number of columns a Gaussian random walk adds.
Arrays are given entry by entry: one outcome, one row of model parameters, one experiment.  `none` as value is
NaN.  Call counters are left out.
-/

namespace QInfer

/-- What `clip` leaves: a number in the interval or NaN. (derived_models.py 207.) -/
def Flt.toOption : Flt → Option ℝ
  | .fin x => some x
  | _ => none

namespace Nest

variable {V : Type}

/-- One outcome: an integer, a real number, or the counts of all outcomes. (domains.py 306-625.) -/
inductive Outc
  | int (k : ℤ)
  | real (x : ℝ)
  | tuple (c : List ℤ)

/-- A wrapper with its data.  `z` are the normal variates drawn by `PoisonedModel` at line 197. `extra` is the
number of columns added by a Gaussian random walk, `len(self._srw_names)`.
(derived_models.py 148-963.) -/
inductive Layer (V : Type)
  | poisoned (mode : PoisonMode) (z : Outc → List ℝ → Exp V → ℝ)
  | binomial
  | gaussHyper
  | multinomial
  | mle (γ : ℝ)
  | randomWalk
  | gaussianRW (extra : Nat)

/-- The wrapper without its data. (derived_models.py 148-963.) -/
def Layer.wrap : Layer V → Wrap
  | .poisoned _ _ => .poisoned
  | .binomial => .binomial
  | .gaussHyper => .gaussHyper
  | .multinomial => .multinomial
  | .mle _ => .mle
  | .randomWalk => .randomWalk
  | .gaussianRW _ => .gaussianRW

/-- A model with the models it wraps; a stand-alone model has its number of parameters and its likelihood.
(derived_models.py 92-106.) -/
inductive Stack (V : Type)
  | base (b : Base) (nParams : Nat) (like : Nat → List ℝ → Exp V → ℝ)
  | wrap (l : Layer V) (u : Stack V)

/-- The tree of wrappers. (derived_models.py 92-106.) -/
def Stack.tree : Stack V → Tree
  | .base b _ _ => .base b
  | .wrap l u => .wrap l.wrap u.tree

/-- `n_modelparams`: derived_models.py 108-110 (forwarded), 423-425, 864-872. -/
def Stack.nParams : Stack V → Nat
  | .base _ n _ => n
  | .wrap .gaussHyper u => u.nParams + 4
  | .wrap (.gaussianRW extra) u => u.nParams + extra
  | .wrap _ u => u.nParams

open Classical in
/-- `x ** pow` for a likelihood. (derived_models.py 703.)  Simplification: a negative number gives NaN also if
the power is an integer, and 0 to a negative power is NaN instead of infinity; neither is met by a likelihood
with a positive power. -/
noncomputable def powEntry (γ x : ℝ) : Option ℝ :=
  if x < 0 ∨ (x = 0 ∧ γ < 0) then none else some (x ^ γ)

open Classical in
/-- `likelihood`, one entry.  Stand-alone models take outcomes that are not negative; other outcomes are
answered by an error that stands for whatever such a model does.  `count` reads the unsigned integer in
`n_meas`.
* `PoisonedModel`, derived_models.py 185-208: a NaN stays.
* `BinomialModel`, 314-329: the wrapped model is asked for outcome 1 with the unwrapped experiment; a real
  number is not a count and is not covered.
* `GaussianHyperparameterizedModel`, 443-486: the assertion at 466, then outcomes 0 and 1 of the wrapped
  model with the first columns.
* `MultinomialModel`, 624-652: all values of the wrapped domain but the last; a wrapped `RealDomain`, for which
  no outcome can be written down, is not covered.
* `MLEModel`, 701-703, `RandomWalkModel`, 726-728, `GaussianRandomWalkModel`, 890-892. -/
noncomputable def Stack.like (count : V → Nat) :
    Stack V → Outc → List ℝ → Exp V → Except PyErr (Option ℝ)
  | .base _ _ f, o, row, e => match o with
    | .int (.ofNat k) => .ok (some (f k row e))
    | _ => .error .other
  | .wrap (.poisoned mode z) u, o, row, e => do
    let l ← u.like count o row e
    match l with
    | none => .ok none
    | some l => do
      let r ← poisonEntry mode (z o row e) l
      .ok r.toOption
  | .wrap .binomial u, o, row, e => do
    let e' ← unwrapExp u.tree.dtype e
    let pr1 ← u.like count (.int 1) row e'
    let n ← e.get "n_meas"
    match o, pr1 with
    | .int k, some p => do
      let L ← binomialLikelihood (count n) [k] p
      .ok L.head?
    | .int _, none => .error .assertionError
    | _, _ => .error .other
  | .wrap .gaussHyper u, o, row, e =>
    if (ghSigma2 u.nParams row).all fun s => decide (0 < Real.sqrt s) then do
      let l0 ← u.like count (.int 0) (ghOrig u.nParams row) e
      let l1 ← u.like count (.int 1) (ghOrig u.nParams row) e
      match o, l0, l1 with
      | .tuple _, _, _ => .error .typeError
      | .int k, some a, some b =>
        .ok (some (ghCell (fun i _ _ => if i = 0 then a else b) u.nParams k row e))
      | .real x, some a, some b =>
        .ok (some (ghCell (fun i _ _ => if i = 0 then a else b) u.nParams x row e))
      | _, _, _ => .ok none
    else .error .assertionError
  | .wrap .multinomial u, o, row, e => do
    let e' ← unwrapExp u.tree.dtype e
    let d ← u.tree.domain count (none : Option (Exp V))
    match d, o with
    | .ints k, .tuple c => do
      let prs ← ((List.range k).dropLast).mapM fun (i : Nat) => u.like count (.int i) row e'
      if prs.any Option.isNone then .error .assertionError
      else do
        let v ← multinomialPdf c (prs.map fun p => p.getD 0)
        match v with
        | none => .error .assertionError
        | some x => .ok (some x)
    | _, _ => .error .other
  | .wrap (.mle γ) u, o, row, e => do
    let l ← u.like count o row e
    .ok (l.bind (powEntry γ))
  | .wrap .randomWalk u, o, row, e => u.like count o row e
  | .wrap (.gaussianRW _) u, o, row, e => u.like count o (row.take u.nParams) e

end Nest
end QInfer
