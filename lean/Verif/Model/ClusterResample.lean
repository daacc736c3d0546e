import Verif.Model.Estimates

/-!
# Model: `ClusteringResampler`

`src/qinfer/resamplers.py` 97-169, with the deprecated moment functions of `src/qinfer/utils.py` 216-287.
-/

namespace QInfer

section
variable {α : Type*}

/-- Selection by a mask, `a[mask]`, as used in resamplers.py 151-152 and 158. -/
def maskSelect : List Bool → List α → List α
  | true :: m, x :: a => x :: maskSelect m a
  | false :: m, _ :: a => maskSelect m a
  | _, _ => []

/-- Assignment through a mask, `a[mask] = v`, resamplers.py 161-162, for as many values as the mask
selects; see `assignMask` for other numbers. -/
def cellAssign : List Bool → List α → List α → List α
  | true :: m, _ :: a, v :: vs => v :: cellAssign m a vs
  | false :: m, x :: a, vs => x :: cellAssign m a vs
  | _, a, _ => a

/-- `a[mask] = v`, resamplers.py 161-162: a wrong number of values is a `ValueError`.  Simplified: NumPy
also repeats a single value. -/
def assignMask (m : List Bool) (a v : List α) : Except PyErr (List α) :=
  if v.length = (maskSelect m a).length then .ok (cellAssign m a v) else .error .valueError

end

section
variable {K : Type*} [Field K] {d : Nat}

/-- `particle_meanfn(weights, locations, fn)`, utils.py 216-232, for a function with values in `d`
dimensions.  The deprecation warning is not modelled. -/
def meanfn {L : Type*} (w : List K) (l : List L) (fn : L → Fin d → K) : Fin d → K := fun a =>
  ((w.zip l).map fun p => p.1 * fn p.2 a).sum

/-- `particle_covariance_mtx(weights, locations)`, utils.py 235-287.  The assertion on finiteness and the
warnings are not modelled. -/
def covarianceMtx (w : List K) (l : List (Fin d → K)) : Fin d → Fin d → K := fun a b =>
  ((w.zip l).map fun p => p.1 * p.2 a * p.2 b).sum - meanfn w l id a * meanfn w l id b

/-- A secondary resampler, resamplers.py 150-154: weights, locations and, for noise, the precomputed mean
and covariance; it returns new weights and locations or raises. -/
abbrev Secondary (K : Type*) (d : Nat) :=
  List K → List (Fin d → K) → Option ((Fin d → K) × (Fin d → Fin d → K)) →
    Except PyErr (List K × List (Fin d → K))

/-- `LiuWestResampler()` as secondary resampler (default of resamplers.py 110-114, call 150-154): it
takes the array of weights for its `particle_dist`, which has neither `est_mean` (267) nor
`particle_weights` (303).  Simplified: for noise, an infinite error of the square root, 296-299, comes
first. -/
def liuWestSecondary : Secondary K d := fun _ _ _ => .error .attributeError

/-- `extra_args`, resamplers.py 140-146: the moments of the whole cloud for noise. -/
def extraArgs (w : List K) (l : List (Fin d → K)) (label : Int) :
    Option ((Fin d → K) × (Fin d → Fin d → K)) :=
  if label = -1 then some (meanfn w l fun x => x, covarianceMtx w l) else none

/-- The loop over clusters, resamplers.py 131-162. -/
def clusterLoop (secondary : Secondary K d) (w : List K) (l : List (Fin d → K)) :
    List (Int × List Bool) → List K × List (Fin d → K) → Except PyErr (List K × List (Fin d → K))
  | [], acc => .ok acc
  | (label, mask) :: cs, acc => do
    let r ← secondary (maskSelect mask w) (maskSelect mask l) (extraArgs w l label)
    let ws := r.1.map fun v => v / (maskSelect mask w).sum
    let newW ← assignMask mask acc.1 ws
    let newL ← assignMask mask acc.2 r.2
    clusterLoop secondary w l cs (newW, newL)

/-- The names bound in the module, resamplers.py 40-70 and 74-400.  `import qinfer.clustering`, 61, binds
`qinfer`. -/
def resamplersScope : List String :=
  ["absolute_import", "division", "__all__", "np", "la", "warnings", "due", "BibTeX", "outer_product",
    "particle_meanfn", "particle_covariance_mtx", "sqrtm_psd", "ABCMeta", "abstractmethod",
    "abstractproperty", "with_metaclass", "qinfer", "ResamplerWarning", "ResamplerError",
    "ParticleDistribution", "logging", "logger", "Resampler", "ClusteringResampler", "LiuWestResampler"]

/-- `ClusteringResampler.__call__(model, particle_weights, particle_locations)`, resamplers.py 123-169,
with the names in scope, the labels DBSCAN returns, and the contents of the two arrays from `np.empty`.
The assertion on NaN, 165-167, is not modelled. -/
def clusterCall (scope : List String) (secondary : Secondary K d) (labels : List Int)
    (emptyW : List K) (emptyL : List (Fin d → K)) (w : List K) (l : List (Fin d → K)) :
    Except PyErr (List K × List (Fin d → K)) :=
  if "clustering" ∈ scope then
    clusterLoop secondary w l (particleClusters labels) (emptyW, emptyL)
  else .error .nameError

end

end QInfer
