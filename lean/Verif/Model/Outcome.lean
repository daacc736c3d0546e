import Verif.Model.Py
import Verif.Model.Domain
import Mathlib.Analysis.SpecialFunctions.Trigonometric.Basic
import Mathlib.Analysis.SpecialFunctions.Log.Basic
import Mathlib.Analysis.SpecialFunctions.Gamma.Basic
import Mathlib.Data.Nat.Choose.Basic

/-!
# Model of the likelihood functions

`src/qinfer/abstract_model.py` (`FiniteOutcomeModel`, `DifferentiableModel`),
`src/qinfer/test_models.py`, `src/qinfer/rb.py`, the binomial and multinomial models of
`src/qinfer/derived_models.py` and the pdfs of `src/qinfer/utils.py` 106-161.

The array formulas act cell by cell over (outcome, model, experiment); a cell is modelled by its
parameters.
-/

namespace QInfer

/-! ## `FiniteOutcomeModel` -/

/-- The `outcomes` argument: a scalar or an array, read along its first axis.
(abstract_model.py 678-681.) -/
inductive OutcomesArg
  | scalar (o : ℤ)
  | array (os : List ℤ)
  deriving DecidableEq, Repr

/-- `pr0_to_likelihood_array`, abstract_model.py 666-686.  `np.concatenate` of an empty list
raises `ValueError`. -/
def pr0ToLikelihood {K : Type*} [Field K] {nM nE : Nat} (outcomes : OutcomesArg)
    (pr0 : Fin nM → Fin nE → K) : Except PyErr (List (Fin nM → Fin nE → K)) :=
  let pr1 : Fin nM → Fin nE → K := fun j k => 1 - pr0 j k
  let os := match outcomes with
    | .scalar o => [o]
    | .array os => os
  if os = [] then .error .valueError
  else .ok (os.map fun o => if o = 0 then pr0 else pr1)

/-- `np.argmax(cdf > u)` along the outcome axis: the first index where it holds, 0 if none.
(abstract_model.py 643, 656.) -/
def argmaxGt {K : Type*} [LinearOrder K] (cdf : List K) (u : K) : Nat :=
  (cdf.findIdx? fun c => decide (u < c)).getD 0

/-- Indexing of an array by an integer: negative indices count from the end.
(test_models.py 471, abstract_model.py 643-644, 656.) -/
def pyIndex {α : Type*} (l : List α) (i : ℤ) : Except PyErr α :=
  let j := if i < 0 then i + l.length else i
  if j < 0 then .error .indexError
  else match l[j.toNat]? with
    | some a => .ok a
    | none => .error .indexError

/-- One cell of `simulate_experiment`, abstract_model.py 640-644: `all_outcomes` is indexed by the
position found and then a second time by the outcome found there. -/
def simCell {K : Type*} [Field K] [LinearOrder K] (allOutcomes : List ℤ) (probs : List K) (u : K) :
    Except PyErr ℤ := do
  let idx ← pyIndex allOutcomes (argmaxGt (cumsum probs) u)
  pyIndex allOutcomes idx

/-- The value of `simulate_experiment`: a scalar datum or an array over (repetition, model,
experiment). (abstract_model.py 658.) -/
inductive SimOut (r nM nE : Nat)
  | scalar (o : ℤ)
  | array (os : Fin r → Fin nM → Fin nE → ℤ)

/-- Helper for the values at abstract_model.py 643. -/
def okOr0 : Except PyErr ℤ → ℤ
  | .ok z => z
  | .error _ => 0

/-- Helper for the values at abstract_model.py 643. -/
def isErr : Except PyErr ℤ → Bool
  | .ok _ => false
  | .error _ => true

/-- `outcomes[0, 0, 0] if repeat == 1 and expparams.shape[0] == 1 and modelparams.shape[0] == 1
else outcomes`, abstract_model.py 658. -/
def simReturn {r nM nE : Nat} (os : Fin r → Fin nM → Fin nE → ℤ) : SimOut r nM nE :=
  if h : r = 1 ∧ nE = 1 ∧ nM = 1 then
    .scalar (os ⟨0, by omega⟩ ⟨0, by omega⟩ ⟨0, by omega⟩)
  else .array os

/-- `simulate_experiment` for a constant number of outcomes, abstract_model.py 637-644 and 658;
`L j k` is the likelihood of each listed outcome for model `j` and experiment `k`, `u` the uniform
variates. -/
def simulateConst {K : Type*} [Field K] [LinearOrder K] {r nM nE : Nat} (allOutcomes : List ℤ)
    (L : Fin nM → Fin nE → List K) (u : Fin r → Fin nM → Fin nE → K) :
    Except PyErr (SimOut r nM nE) :=
  if ∃ i j k, isErr (simCell allOutcomes (L j k) (u i j k)) = true then .error .indexError
  else .ok (simReturn fun i j k => okOr0 (simCell allOutcomes (L j k) (u i j k)))

/-- What `domain` returns: one domain for `None`, otherwise a list.
(abstract_model.py 260-272, 625-630.) -/
inductive DomRet
  | one (d : IntDom)
  | many (ds : List IntDom)
  deriving DecidableEq, Repr

/-- `FiniteOutcomeModel.domain`, abstract_model.py 625-628; `nOut` gives the number of outcomes of
each experiment (`none`: the argument is `None`). -/
def finDomain (constant : Bool) (nConst : ℤ) (nOut : Option (List ℤ)) : Except PyErr DomRet :=
  if constant then
    match nOut with
    | none => .ok (.one ⟨.fin 0, .fin (nConst - 1)⟩)
    | some l => .ok (.many (l.map fun _ => ⟨.fin 0, .fin (nConst - 1)⟩))
  else
    match nOut with
    | none => .error .typeError
    | some l => .ok (.many (l.map fun n => ⟨.fin 0, .fin (n - 1)⟩))

/-- Attribute `values`; a Python list has none. (abstract_model.py 639, 652.) -/
def DomRet.values : DomRet → Except PyErr (List ℤ)
  | .one d => .ok d.values
  | .many _ => .error .attributeError

/-- The loop over experiments of the non-constant branch, abstract_model.py 651-657; `draw` stands
for lines 653-656. -/
def simLoop (constant : Bool) (nConst : ℤ) (draw : List ℤ → List ℤ) :
    List ℤ → Except PyErr (List (List ℤ))
  | [] => .ok []
  | n :: rest => do
    let d ← finDomain constant nConst (some [n])
    let vals ← d.values
    let more ← simLoop constant nConst draw rest
    .ok (draw vals :: more)

/-- The non-constant branch, abstract_model.py 646-657. -/
def simulateNonConst (nConst : ℤ) (nOuts : List ℤ) (draw : List ℤ → List ℤ) :
    Except PyErr (List (List ℤ)) :=
  match nOuts with
  | [] => .error .indexError
  | n :: _ => do
    let _ ← finDomain false nConst (some [n])
    simLoop false nConst draw nOuts

/-! ## pdfs -/

/-- `scipy.stats.binom(N, p).pmf(n)`, used by `binomial_pdf`, utils.py 106-111; `none` is NaN. -/
noncomputable def binomialPdf (N : Nat) (n : ℤ) (p : ℝ) : Option ℝ :=
  if 0 ≤ p ∧ p ≤ 1 then
    some (if 0 ≤ n ∧ n ≤ N then
      (N.choose n.toNat : ℝ) * p ^ n.toNat * (1 - p) ^ (N - n.toNat) else 0)
  else none

/-- One column of `BinomialModel.likelihood`, derived_models.py 314-329: one experiment and one
model, `pr1` being the underlying likelihood of outcome 1.  An empty outcome list makes
`np.concatenate` raise, a NaN the assertion fail. -/
noncomputable def binomialLikelihood (nMeas : Nat) (outcomes : List ℤ) (pr1 : ℝ) :
    Except PyErr (List ℝ) :=
  if outcomes = [] then .error .valueError
  else
    let L := outcomes.map fun o => binomialPdf nMeas o pr1
    if L.any Option.isNone then .error .assertionError
    else .ok (L.map fun v => v.getD 0)

/-- `nlogp`, utils.py 141-145, for non-negative probability. -/
noncomputable def nlogp (n : ℤ) (p : ℝ) : ℝ := if p ≠ 0 then n * Real.log p else 0

/-- `multinomial_pdf` for one column, utils.py 113-161; `none` is NaN, which `np.log` yields for a
negative probability.  Two shapes that differ otherwise make the boolean index fail. -/
noncomputable def multinomialPdf (n : List ℤ) (p : List ℝ) : Except PyErr (Option ℝ) :=
  let ep := if p.length + 1 = n.length then p ++ [1 - p.sum] else p
  if ep.length ≠ n.length then .error .indexError
  else if ep.any (fun x => decide (x < 0)) then .ok none
  else
    let logN := Real.log (Real.Gamma ((n.sum : ℝ) + 1))
    let logn := (n.map fun (m : ℤ) => Real.log (Real.Gamma ((m : ℝ) + 1))).sum
    let logp := (List.zipWith nlogp n ep).sum
    let probs := Real.exp (logN - logn + logp)
    let mask := (List.zipWith (fun m q => decide (m ≠ 0 ∧ q = 0)) n ep).all (fun b => !b)
    .ok (some ((if mask then 1 else 0) * probs))

/-- One entry of `MultinomialModel.likelihood`, derived_models.py 630-652: `under` lists the
underlying likelihoods of all outcomes, of which the last is not evaluated (`values[:-1]`). -/
noncomputable def multinomialLikelihood (counts : List ℤ) (under : List ℝ) : Except PyErr ℝ := do
  let v ← multinomialPdf counts under.dropLast
  match v with
  | none => .error .assertionError
  | some x => .ok x

/-! ## `test_models.py` -/

/-- `SimpleInversionModel.likelihood`, test_models.py 123-143: the probability of outcome 0. -/
noncomputable def inversionPr0 (ω t w_ : ℝ) : ℝ := Real.cos (t * (ω - w_) / 2) ^ 2

/-- A two-outcome likelihood, `pr0_to_likelihood_array`. (abstract_model.py 664-686.) -/
def twoOutcome {K : Type*} [Field K] (pr0 : K) (o : ℤ) : K := if o = 0 then pr0 else 1 - pr0

/-- `SimpleInversionModel.score`, test_models.py 145-166, for outcomes 0 and 1. -/
noncomputable def inversionScore (o : Fin 2) (ω t w_ : ℝ) : ℝ :=
  let arg := (ω - w_) * t / 2
  (t / Real.tan arg) ^ o.val * (-t * Real.tan arg) ^ (1 - o.val)

/-- `SimplePrecessionModel`, test_models.py 188-213: the inversion model with `w_ = 0`. -/
noncomputable def precessionPr0 (ω t : ℝ) : ℝ := inversionPr0 ω t 0

/-- Score of `SimplePrecessionModel`, test_models.py 199-213. -/
noncomputable def precessionScore (o : Fin 2) (ω t : ℝ) : ℝ := inversionScore o ω t 0

/-- `are_models_valid`, test_models.py 109-110. -/
noncomputable def inversionValid (minFreq ω : ℝ) : Bool := decide (minFreq < ω)

/-- `UnknownT2Model.likelihood`, test_models.py 250-259. -/
noncomputable def t2Pr0 (ω T2inv t : ℝ) : ℝ :=
  let visibility := Real.exp (-t * T2inv)
  visibility * Real.cos (ω * t / 2) ^ 2 + (1 - visibility) / 2

/-- `UnknownT2Model.are_models_valid`, test_models.py 247-248. -/
noncomputable def t2Valid (ω T2inv : ℝ) : Bool := decide (0 ≤ ω) && decide (0 ≤ T2inv)

section
variable {K : Type*} [Field K] [LinearOrder K]

/-- `CoinModel.are_models_valid` and `NoisyCoinModel.are_models_valid`, test_models.py 302-304,
386-388. -/
def coinValid (p : K) : Bool := decide (0 ≤ p) && decide (p ≤ 1)

/-- `CoinModel.likelihood`, test_models.py 317-326: the parameter is the probability of outcome
0. -/
def coinPr0 (p : K) : K := p

/-- `CoinModel.score`, test_models.py 328-345. -/
def coinScore (o : K) (p : K) : K := (1 - o) / p - o / (1 - p)

/-- `DifferentiableModel.fisher_information` with a constant number of outcomes, abstract_model.py
726-740, for one parameter: `Σ_o L(o) score(o)²`. -/
def fisherInfo (nOut : Nat) (L score : Nat → K) : K :=
  ((List.range nOut).map fun o => L o * score o * score o).sum

/-- `NoisyCoinModel.likelihood`, test_models.py 392-401. -/
def noisyCoinPr0 (p a b : K) : K := p * a + (1 - p) * b

/-- `NDieModel.are_models_valid`, test_models.py 449-452. -/
def dieValid (threshold : K) (p : List K) : Bool :=
  decide (|p.sum - 1| ≤ threshold) && p.all fun x => decide (0 ≤ x) && decide (x ≤ 1)

/-- `NDieModel.likelihood`, test_models.py 465-472: fancy indexing of the parameter vector. -/
def dieLikelihood (p : List K) (outcomes : List ℤ) : Except PyErr (List K) :=
  outcomes.mapM fun o => pyIndex p o

/-! ## `rb.py` -/

/-- `p(F, d)`, rb.py 59-67. -/
def rbP (F d : K) : K := (d * F - 1) / (d - 1)

/-- `F(p, d)`, rb.py 69-77. -/
def rbF (p d : K) : K := 1 - (1 - p) * (d - 1) / d

/-- `are_models_valid` of the non-interleaved model, rb.py 165-176. -/
def rbValid (p A B : K) : Bool :=
  decide (0 ≤ p) && decide (p ≤ 1) && decide (0 ≤ A) && decide (A ≤ 1) && decide (0 ≤ B) &&
    decide (B ≤ 1) && decide (A + B ≤ 1) && decide (A * p + B ≤ 1)

/-- `are_models_valid` of the interleaved model, rb.py 150-164; the first parameter `p̃` is called
`p_C` there. -/
def rbValidIl (pt p A B : K) : Bool :=
  decide (0 ≤ p) && decide (p ≤ 1) && decide (0 ≤ pt) && decide (pt ≤ 1) && decide (0 ≤ A) &&
    decide (A ≤ 1) && decide (0 ≤ B) && decide (B ≤ 1) && decide (A + B ≤ 1) &&
    decide (A * p + B ≤ 1) && decide (A * pt + B ≤ 1)

/-- `likelihood`, rb.py 188-193. -/
def rbPr0 (p A B : K) (m : Nat) : K := 1 - (A * p ^ m + B)

/-- `likelihood` of the interleaved model, rb.py 182-193. -/
def rbPr0Il (pt p A B : K) (m : Nat) (reference : Bool) : K :=
  let pC := pt * p
  let p' := if reference then p else pC
  1 - (A * p' ^ m + B)

/-- `m - 1` for the unsigned 64-bit field `m`: it wraps around at 0. (rb.py 142, 235-238.) -/
def uintPred (m : Nat) : Nat := if m = 0 then 2 ^ 64 - 1 else m - 1

/-- `score`, rb.py 205-219: derivatives with respect to `p`, `A` and `B` for outcome `o`. -/
def rbScore (o : Fin 2) (p A B : K) (m : Nat) : K × K × K :=
  let L := twoOutcome (rbPr0 p A B m) o.val
  let s : K := (-1) ^ (1 - o.val)
  (s * (A * m * p ^ uintPred m) / L, s * p ^ m / L, s * 1 / L)

/-- `score` of the interleaved model, rb.py 221-241: derivatives with respect to `p̃`, `p`, `A`
and `B`. -/
def rbScoreIl (o : Fin 2) (pt p A B : K) (m : Nat) (reference : Bool) : K × K × K × K :=
  let L := twoOutcome (rbPr0Il pt p A B m reference) o.val
  let s : K := (-1) ^ (1 - o.val)
  let pC := pt * p
  let p' := if reference then p else pC
  (s * (if reference then 0 else A * m * pt ^ uintPred m * p ^ m) / L,
   s * (if reference then A * m * p ^ uintPred m else A * m * p ^ uintPred m * pt ^ m) / L,
   s * p' ^ m / L, s * 1 / L)

end

end QInfer
