import Verif.Model.Smc
import Mathlib.Algebra.BigOperators.Fin
import Mathlib.Data.Matrix.Basic
import Mathlib.Analysis.SpecialFunctions.Log.Basic

/-!
# Model of `ParticleDistribution` (`src/qinfer/distributions.py`) and of the risk and
information estimates of `SMCUpdater` (`src/qinfer/smc.py` 553-663)

Algorithms over a single axis (constructor, sampling, credible region) work on lists.  Array
formulas over several axes work on functions of indices: an array of shape `(n, d)` is
`Fin n → Fin d → K`.  Arithmetic is exact; NaN is `none`.
-/

namespace QInfer

open Finset

section
variable {K : Type*} [Field K] [LinearOrder K]

/-- numpy `a / b` where `b = 0` only occurs together with `a = 0`: NaN then.
(distributions.py 284.) -/
def npDiv (a b : K) : Option K := if b = 0 then none else some (a / b)

/-- `ParticleDistribution.__init__`, distributions.py 276-287.  Result: locations and weights.
`np.zeros((1, None))` raises `TypeError`. -/
def particleInit (nMps : Option Nat) (locs : Option (List (List K))) (weights : Option (List K)) :
    Except PyErr (List (List K) × List (Option K)) :=
  match locs, weights, nMps with
  | some l, some w, none =>
    let a := w.map fun x => |x|
    .ok (l, a.map fun x => npDiv x a.sum)
  | some _, some _, some _ => .error .valueError
  | _, _, some d => .ok ([List.replicate d 0], [some 1])
  | _, _, none => .error .typeError

/-- The index chosen by `ParticleDistribution.sample` for one variate, distributions.py 329-333.
With no particles the index is `-1` and the lookup raises. -/
def sampleIdx (w : List K) (u : K) : Nat := min (searchsortedRight (cumsum w) u) (w.length - 1)

/-- `ParticleDistribution.sample`, distributions.py 319-333; `us` are the variates. -/
def particleSample {α : Type*} (w : List K) (locs : List α) (us : List K) :
    Except PyErr (List α) :=
  us.mapM fun u => match locs[sampleIdx w u]? with
    | some x => .ok x
    | none => .error .indexError

/-- `id_cred` of `est_credible_region`, distributions.py 588-604, for the sorted weights:
which positions are credible. -/
def credMask (sorted : List K) (level : K) : Except PyErr (List Bool) :=
  let idCred := (cumsum sorted).map fun c => decide (c ≤ level)
  let k := idCred.count true
  if k < idCred.length then .ok (idCred.set k true) else .error .indexError

/-- Boolean mask indexing `a[mask]`. (distributions.py 606-612.) -/
def select {α : Type*} (a : List α) (mask : List Bool) : List α :=
  ((a.zip mask).filter fun p => p.2).map fun p => p.1

/-- `est_credible_region(level, return_outside=True)`, distributions.py 558-614.  `idSort` is the
reversed `argsort` of the weights, `mps` the rows after slicing by `modelparam_slice`; both index
lookups `particle_weights[id_sort]`, `mps[id_sort]` are written with `filterMap` and lose nothing
when `idSort` is in range. -/
def credRegion {α : Type*} (w : List K) (mps : List α) (idSort : List Nat) (level : K) :
    Except PyErr (List α × List α) :=
  match credMask (idSort.filterMap fun i => w[i]?) level with
  | .error e => .error e
  | .ok m =>
    let sortedMps := idSort.filterMap fun i => mps[i]?
    .ok (select sortedMps m, select sortedMps (m.map not))

end

section
variable {K : Type*} [Field K]
variable {n d k m : Nat}

/-- `particle_mean`, distributions.py 336-348: `np.dot(weights, locations)`. -/
def pmean (w : Fin n → K) (x : Fin n → Fin d → K) : Fin d → K := fun j => ∑ i, w i * x i j

/-- `particle_covariance_mtx`, distributions.py 350-399, without the warning at 396-397. -/
def pcov (w : Fin n → K) (x : Fin n → Fin d → K) : Matrix (Fin d) (Fin d) K :=
  fun a b => (∑ i, w i * x i a * x i b) - pmean w x a * pmean w x b

/-- `est_meanfn`, distributions.py 411-430, for a scalar function. -/
def pmeanFn (w : Fin n → K) (x : Fin n → Fin d → K) (f : (Fin d → K) → K) : K := ∑ i, w i * f (x i)

/-- Normalisations of `hypothetical_update`, smc.py 356-362, for the likelihood array
`L[outcome, particle, experiment]`. -/
def hypN (w : Fin n → K) (L : Fin k → Fin n → Fin m → K) (o : Fin k) (e : Fin m) : K :=
  ∑ i, w i * L o i e

/-- The unnormalised weights of the last outcome, smc.py 590 and 651:
`(1 - L.sum(axis=0)) * weights`; `L` holds all outcomes but the last. -/
def lastRaw (w : Fin n → K) (L : Fin k → Fin n → Fin m → K) (e : Fin m) (i : Fin n) : K :=
  (1 - ∑ o, L o i e) * w i

/-- `N[-1, e]`, smc.py 591. -/
def lastN (w : Fin n → K) (L : Fin k → Fin n → Fin m → K) (e : Fin m) : K := ∑ i, lastRaw w L e i

/-- One entry of `var_hyp`, smc.py 600-608. -/
def qvar (Q : Fin d → K) (w : Fin n → K) (x : Fin n → Fin d → K) : K :=
  ∑ i, w i * ∑ j, Q j * (x i j - pmean w x j) ^ 2

variable [LinearOrder K]

/-- Hypothetical weights of `hypothetical_update`, smc.py 353-372. -/
def hypW (w : Fin n → K) (L : Fin k → Fin n → Fin m → K) (o : Fin k) (e : Fin m) (i : Fin n) : K :=
  w i * L o i e / (if |hypN w L o e| < eps then 1 else hypN w L o e)

/-- `bayes_risk` at one experiment, smc.py 576-612.  If the last outcome has total weight zero the
division at 592 yields NaN (or infinities, which the product with `N[-1] = 0` at 612 turns into
NaN), for at least one particle.  With several experiments and a varying number of outcomes the
method calls itself per experiment (571-575); with a constant number it computes all columns at
once, each by this formula. -/
def bayesRisk (Q : Fin d → K) (w : Fin n → K) (x : Fin n → Fin d → K)
    (L : Fin k → Fin n → Fin m → K) (e : Fin m) : Option K :=
  if lastN w L e = 0 then none
  else some ((∑ o, hypN w L o e * qvar Q (hypW w L o e) x) +
    lastN w L e * qvar Q (fun i => lastRaw w L e i / lastN w L e) x)

end

section
variable {n k m : Nat}

/-- Sum over an axis when entries may be NaN. (smc.py 660-663.) -/
noncomputable def nanSum (f : Fin n → Option ℝ) : Option ℝ :=
  open Classical in if ∀ i, (f i).isSome then some (∑ i, (f i).getD 0) else none

/-- `a * np.log(a / b)` for non-negative `a`, `b`: `0 / 0` and `0 * log 0` are NaN.
(smc.py 660.) -/
noncomputable def klTerm (a b : ℝ) : Option ℝ :=
  open Classical in if 0 < a ∧ 0 < b then some (a * Real.log (a / b)) else none

/-- `KLD`, smc.py 660. -/
noncomputable def kld (wh w : Fin n → ℝ) : Option ℝ := nanSum fun i => klTerm (wh i) (w i)

/-- `expected_information_gain` at one experiment, smc.py 614-663. -/
noncomputable def infoGain (w : Fin n → ℝ) (L : Fin k → Fin n → Fin m → ℝ) (e : Fin m) :
    Option ℝ :=
  open Classical in
  if lastN w L e = 0 then none
  else do
    let a ← nanSum fun o => (kld (hypW w L o e) w).map (hypN w L o e * ·)
    let b ← (kld (fun i => lastRaw w L e i / lastN w L e) w).map (lastN w L e * ·)
    return a + b

/-- `est_entropy`, distributions.py 457-464. -/
noncomputable def entropy (w : List ℝ) : ℝ :=
  open Classical in
  -(((w.filter fun x => decide (0 < x)).map fun x => Real.log x * x).sum)

end

end QInfer
