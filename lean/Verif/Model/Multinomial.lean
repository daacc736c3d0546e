import Verif.Model.PerfTest
import Mathlib.Data.Nat.Choose.Basic

/-!
# Model of multinomial sampling

`sample_multinomial` (`src/qinfer/utils.py` 163-203) and `MultinomialModel`
(`src/qinfer/derived_models.py` 510-679, without the likelihood, which is in `Model/Outcome.lean`).

`np.random.multinomial` is modelled by its algorithm (one binomial variate per face, the rest for the
last face).  The binomial variates come from a monad, so that the same definition serves for one run
(any variates) and for the distribution over all runs.
-/

namespace QInfer

/-! ## numpy arrays -/

/-- Position of an index in row-major order. (Used for utils.py 192-201.) -/
def ravel : List Nat → List Nat → Nat
  | n :: ns, i :: is => i * ns.prod + ravel ns is
  | _, _ => 0

/-- Index of a position in row-major order. (Used for utils.py 192-201.) -/
def unravel : List Nat → Nat → List Nat
  | [], _ => []
  | _ :: ns, k => k / ns.prod :: unravel ns (k % ns.prod)

/-- `numpy.reshape`. (Called at utils.py 192.) -/
def NdArr.reshape {α : Type*} (a : NdArr α) (shape : List Nat) : Except PyErr (NdArr α) :=
  if shape.prod = a.shape.prod then
    .ok ⟨shape, fun idx => a.get (unravel a.shape (ravel shape idx))⟩
  else .error .valueError

/-- `numpy.transpose` with a list of axes: one entry per axis is required, and each once.
(Called at utils.py 194.) -/
def NdArr.transpose {α : Type*} (a : NdArr α) (axes : List Nat) : Except PyErr (NdArr α) :=
  if axes.length ≠ a.shape.length ∨ ¬ axes.Nodup ∨ ¬ ∀ x ∈ axes, x < a.shape.length then
    .error .valueError
  else .ok ⟨axes.map fun x => a.shape.getD x 0,
    fun idx => a.get ((List.range a.shape.length).map fun x => idx.getD (axes.idxOf x) 0)⟩

/-! ## `np.random.multinomial` -/

section
variable {K : Type} [Field K] [LinearOrder K]

/-- One draw: `ps` are the probabilities from face `j` on without the last one, `S` what is left of
the total probability and `dn` what is left of the rolls. (Inside the call at utils.py 187.) -/
def multLoop {m : Type → Type} [Monad m] (binom : Nat → Nat → K → m Nat) :
    Nat → List K → K → Nat → m (List Nat)
  | _, [], _, dn => pure [dn]
  | j, p :: ps, S, dn => do
    let c ← binom j dn (p / S)
    if dn - c = 0 then pure (c :: List.replicate (ps.length + 1) 0)
    else do
      let cs ← multLoop binom (j + 1) ps (S - p) (dn - c)
      pure (c :: cs)

/-- `np.random.multinomial(N, pvals, size)`.  The sum of all probabilities but the last may not
exceed 1; with `strict` (newer versions of numpy) every probability, also the last, must lie between 0
and 1.  `binom r` gives the variates of draw `r`. (Called at utils.py 187.) -/
def npMultinomial (strict : Bool) (binom : Nat → Nat → Nat → K → Nat) (N : Nat) (pvals : List K)
    (size : Nat) : Except PyErr (List (List Nat)) :=
  if 1 + 1 / 10 ^ 12 < pvals.dropLast.sum then .error .valueError
  else if strict && pvals.any fun p => decide (p < 0) || decide (1 < p) then .error .valueError
  else .ok ((List.range size).map fun r => multLoop (m := Id) (binom r) 0 pvals.dropLast 1 N)

/-! ## `sample_multinomial` -/

/-- All indices of a shape in row-major order. (The axes at utils.py 185-201.) -/
def allIdx : List Nat → List (List Nat)
  | [] => [[]]
  | n :: ns => (List.range n).flatMap fun i => (allIdx ns).map (i :: ·)

/-- `np.apply_along_axis(take_samples, 0, p)`, utils.py 184-189: the draws of each distribution, one
after another along the first axis.  `binom m` gives the variates for the distribution at index `m` of
the axes after the first.  It fails if there is no distribution. -/
def takeSamples (strict : Bool) (binom : List Nat → Nat → Nat → Nat → K → Nat) (N : Nat)
    (p : NdArr K) (total : Nat) : Except PyErr (NdArr Nat) :=
  let sides := p.shape.getD 0 0
  let rest := p.shape.drop 1
  let draws := fun m : List Nat =>
    npMultinomial strict (binom m) N ((List.range sides).map fun j => p.get (j :: m)) total
  if rest.prod = 0 then .error .valueError
  else
    match (allIdx rest).find? fun m => !(draws m).isOk with
    | some _ => .error .valueError
    | none => .ok ⟨(total * sides) :: rest,
        fun idx => ((draws (idx.drop 1)).toOption.getD []).flatten.getD (idx.getD 0 0) 0⟩

/-- `sample_multinomial`, utils.py 163-203.  A list is the size as a tuple (an `int` is a tuple of one);
`s.ndim` is 1, whatever the length of `s`. -/
def sampleMultinomial (strict : Bool) (binom : List Nat → Nat → Nat → Nat → K → Nat) (N : Nat)
    (p : NdArr K) (size : Option (List Nat)) : Except PyErr (NdArr Nat) := do
  let s := size.getD [1]
  let samples ← takeSamples strict binom N p s.prod
  let samples ← samples.reshape (s ++ p.shape)
  let samples ← samples.transpose ((List.range p.shape.length).map (· + 1) ++ [0])
  if size = none then .ok ⟨samples.shape.dropLast, fun idx => samples.get (idx ++ [0])⟩
  else .ok samples

/-! ## `MultinomialModel` -/

/-- `simulate_experiment`, derived_models.py 654-678.  `under o m e` is the likelihood of outcome `o`
of the wrapped model, evaluated for all outcomes but the last; `garbage m e` is what
`np.empty` leaves for the last one.  The result is indexed by repetition, model and experiment, the
last axis (face) becoming the record of the outcome; an array with one entry is returned as that
entry. -/
def multModelSimulate (strict : Bool) (binom : Nat → List Nat → Nat → Nat → Nat → K → Nat)
    (sides nMps : Nat) (nMeas : List Nat) (under : Nat → Nat → Nat → K) (garbage : Nat → Nat → K)
    (reps : Nat) : Except PyErr (List (List (List (List Nat)))) := do
  if nMeas = [] then .error .valueError
  else
    let prs := fun e : Nat => (⟨[sides, nMps], fun idx =>
      if idx.getD 0 0 + 1 < sides then under (idx.getD 0 0) (idx.getD 1 0) e
      else garbage (idx.getD 1 0) e⟩ : NdArr K)
    let parts ← nMeas.zipIdx.mapM fun (n, e) =>
      sampleMultinomial strict (binom e) n (prs e) (some [reps])
    -- `np.concatenate([...]).transpose((3,2,0,1))`
    .ok ((List.range reps).map fun r => (List.range nMps).map fun m => parts.map fun a =>
      (List.range sides).map fun j => a.get [j, m, r])

/-! ## Distributions as weighted lists -/

/-- A finite distribution: outcomes with weights. (The law of the draws at utils.py 187.) -/
structure WDist (K : Type) (α : Type) where
  items : List (α × K)

/-- Sequencing of draws (`utils.py` 185-194: the cells are drawn one after another). -/
instance : Monad (WDist K) where
  pure a := ⟨[(a, 1)]⟩
  bind d f := ⟨d.items.flatMap fun aw => (f aw.1).items.map fun bv => (bv.1, aw.2 * bv.2)⟩

/-- The binomial distribution. (Inside the call at utils.py 187.) -/
def binomDist (n : Nat) (q : K) : WDist K Nat :=
  ⟨(List.range (n + 1)).map fun k => (k, n.choose k * q ^ k * (1 - q) ^ (n - k))⟩

/-- Total weight of an outcome. (The law of the draws at utils.py 187.) -/
def WDist.prob {α : Type} [DecidableEq α] (d : WDist K α) (a : α) : K :=
  (d.items.map fun bv => if bv.1 = a then bv.2 else 0).sum

end

end QInfer
