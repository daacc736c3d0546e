import Verif.Model.Particle
import Verif.Model.Heur
import Verif.Model.SimpleDists
import Mathlib.LinearAlgebra.Matrix.NonsingularInverse

/-!
# Models of further estimates from a particle cloud

`est_covariance_mtx(corr=True)`, clusters, `_kl_divergence` and the ellipsoids of
`src/qinfer/distributions.py`, `particle_clusters` of `src/qinfer/clustering.py`, `mvee` and
`in_ellipsoid` of `src/qinfer/utils.py`, `posterior_marginal` and `posterior_mesh` of `src/qinfer/smc.py`.
-/

namespace QInfer

open Matrix
open scoped BigOperators

/-! ## Correlations -/

open Classical in
/-- One entry of `est_covariance_mtx(corr=True)`, distributions.py 446-453; `none` is NaN (the root of a
negative number, or a zero deviation). -/
noncomputable def corrEntry {n d : Nat} (w : Fin n → ℝ) (x : Fin n → Fin d → ℝ) (a b : Fin d) : Option ℝ :=
  let cov := pcov w x
  if cov a a < 0 ∨ cov b b < 0 then none
  else
    let den := Real.sqrt (cov a a) * Real.sqrt (cov b b)
    if den = 0 then none else some (cov a b / den)

/-! ## Clusters -/

/-- The pairs yielded by `particle_clusters`, clustering.py 127-153, for the labels returned by DBSCAN. -/
def particleClusters (labels : List Int) : List (Int × List Bool) :=
  let isNoise := labels.contains (-1)
  let nClusters : Nat := labels.dedup.length - (if isNoise then 1 else 0)
  let idxs : List Int := (if isNoise then [-1] else []) ++ (List.range nClusters).map fun k : Nat => (k : Int)
  idxs.map fun c => (c, labels.map fun l => decide (l = c))

/-- The warning of clustering.py 133-137. -/
def clusterWarning (labels : List Int) : Bool :=
  decide (((labels.count (-1) : ℚ)) / (labels.length : ℚ) ≥ 1 / 10)

section
variable {K : Type} [Field K] {n d : Nat}

/-- `sum(w)`, `particle_mean(w, l)` and `particle_covariance_mtx(w, l)` for the particles of one cluster,
distributions.py 516-523. -/
def clusterMass (w : Fin n → K) (mask : Fin n → Bool) : K := ∑ i with mask i = true, w i

/-- See `clusterMass`. (distributions.py 528-556.) -/
def clusterMean (w : Fin n → K) (x : Fin n → Fin d → K) (mask : Fin n → Bool) : Fin d → K :=
  fun j => ∑ i with mask i = true, w i * x i j

/-- See `clusterMass`. (distributions.py 528-556.) -/
def clusterCov (w : Fin n → K) (x : Fin n → Fin d → K) (mask : Fin n → Bool) : Matrix (Fin d) (Fin d) K :=
  fun a b => (∑ i with mask i = true, w i * x i a * x i b) - clusterMean w x mask a * clusterMean w x mask b

/-- `within_cluster_var`, distributions.py 539. -/
def withinVar {k : Nat} (w : Fin n → K) (x : Fin n → Fin d → K) (masks : Fin k → Fin n → Bool) :
    Matrix (Fin d) (Fin d) K :=
  fun a b => ∑ c, clusterMass w (masks c) * clusterCov w x (masks c) a b

/-- `between_cluster_var`, distributions.py 540-543. -/
def betweenVar {k : Nat} (w : Fin n → K) (x : Fin n → Fin d → K) (masks : Fin k → Fin n → Bool) :
    Matrix (Fin d) (Fin d) K :=
  pcov (fun c => clusterMass w (masks c)) (fun c => clusterMean w x (masks c))

/-- `total_var`, distributions.py 544. -/
def totalVar {k : Nat} (w : Fin n → K) (x : Fin n → Fin d → K) (masks : Fin k → Fin n → Bool) :
    Matrix (Fin d) (Fin d) K :=
  fun a b => withinVar w x masks a b + betweenVar w x masks a b

/-- `est_cluster_metric`, distributions.py 553-554; `none` stands for a division by zero. -/
def clusterMetric [DecidableEq K] {k : Nat} (w : Fin n → K) (x : Fin n → Fin d → K)
    (masks : Fin k → Fin n → Bool) (a : Fin d) : Option K :=
  if totalVar w x masks a a = 0 then none
  else some (betweenVar w x masks a a / totalVar w x masks a a)

end

/-! ## Kullback-Leibler divergence -/

/-- The smoothed density `np.sum(other_weights * K, axis=1)` at one particle, distributions.py 475-484;
`dist` are the rescaled distances. -/
noncomputable def klSmooth {m : Nat} (kernel : ℝ → ℝ) (delta : ℝ) (v : Fin m → ℝ) (dist : Fin m → ℝ) : ℝ :=
  ∑ j, v j * kernel (dist j / delta)

open Classical in
/-- `_kl_divergence`, distributions.py 466-487: `none` for a logarithm of zero or a negative number. -/
noncomputable def klDivergence {n m : Nat} (kernel : ℝ → ℝ) (delta : ℝ) (w : Fin n → ℝ) (v : Fin m → ℝ)
    (dist : Fin n → Fin m → ℝ) : Option ℝ :=
  if ∃ i, klSmooth kernel delta v (dist i) ≤ 0 then none
  else some (-entropy (List.ofFn w) -
    1 / delta * ∑ i, w i * Real.log (klSmooth kernel delta v (dist i)))

/-! ## posterior_marginal -/

/-- `np.linspace(a, b, n)[i]`. (smc.py 697, 819-820.) -/
noncomputable def linspace (a b : ℝ) (n i : Nat) : ℝ := a + (i : ℝ) * ((b - a) / ((n : ℝ) - 1))

/-- `np.gradient(f, h)[i]` for `n ≥ 2` values. (smc.py 710.) -/
noncomputable def npGradient (f : Nat → ℝ) (h : ℝ) (n i : Nat) : ℝ :=
  if i = 0 then (f 1 - f 0) / h
  else if i = n - 1 then (f (n - 1) - f (n - 2)) / h
  else (f (i + 1) - f (i - 1)) / (2 * h)

/-- The interpolated distribution function of `posterior_marginal`, smc.py 700-707: `sorted` are the
locations and weights in the order of `argsort`. -/
noncomputable def marginalCdf (sorted : List (ℝ × ℝ)) (rMin rMax p : ℝ) : ℝ :=
  (interp1d (sorted.map Prod.fst ++ [rMax + |rMax - rMin|]) (cumsum (sorted.map Prod.snd) ++ [1]) p).getD 0

/-- `posterior_marginal`, smc.py 691-716, without smoothing: `ps` and `pr`; `ps[1]` is an `IndexError` for
`res = 1`, and `np.min` of an empty cloud is not modelled. -/
noncomputable def posteriorMarginal (sorted : List (ℝ × ℝ)) (rangeMin rangeMax : Option ℝ) (res : Nat) :
    Except PyErr ((Nat → ℝ) × (Nat → ℝ)) :=
  let locs := sorted.map Prod.fst
  let rMin := rangeMin.getD (locs.getD 0 0)
  let rMax := rangeMax.getD (locs.getD (locs.length - 1) 0)
  if res < 2 then .error .indexError
  else
    let ps := linspace rMin rMax res
    .ok (ps, npGradient (fun i => marginalCdf sorted rMin rMax (ps i)) (ps 1 - ps 0) res)

/-! ## posterior_mesh -/

/-- The kernel density estimate of two parameters, smc.py 824-835; `pdf x loc` is `norm.pdf` with the
scale `smoothing`. -/
noncomputable def meshDensity {n : Nat} (pdf : ℝ → ℝ → ℝ) (w : Fin n → ℝ) (x y : Fin n → ℝ) (p : ℝ × ℝ) : ℝ :=
  ∑ i, pdf p.1 (x i) * pdf p.2 (y i) * w i

/-- `posterior_mesh`, smc.py 816-838, for the grids `xs` (`res1` values) and `ys` (`res2` values): the
entries of `p1s`, `p2s` and `pr` at row `i < res2` and column `j < res1`.  `plot_locs` lists the mesh
points in the order of the transposed mesh, `pr` is reshaped in the order of the mesh. -/
noncomputable def posteriorMesh {n : Nat} (pdf : ℝ → ℝ → ℝ) (w : Fin n → ℝ) (x y : Fin n → ℝ)
    (xs ys : Nat → ℝ) (res1 res2 : Nat) (i j : Nat) : ℝ × ℝ × ℝ :=
  let p1s : Nat → Nat → ℝ := fun _ b => xs b
  let p2s : Nat → Nat → ℝ := fun a _ => ys a
  let plotLocs : Nat → ℝ × ℝ := fun k => (p1s (k % res2) (k / res2), p2s (k % res2) (k / res2))
  (p1s i j, p2s i j, meshDensity pdf w x y (plotLocs (i * res1 + j)))

/-! ## Ellipsoids -/

open Classical in
/-- `in_ellipsoid`, utils.py 355-374, for one point. -/
noncomputable def inEllipsoid {d : Nat} (x : Fin d → ℝ) (A : Matrix (Fin d) (Fin d) ℝ) (c : Fin d → ℝ) :
    Except PyErr Bool :=
  if A.det = 0 then .error .other
  else
    let y := c - x
    .ok (decide (∑ j, ∑ l, y j * A⁻¹ j l * y l ≤ 1))

/-- Method `'pce'` of `in_credible_region`, distributions.py 722-728, for all parameters; `mult` is the
quantile of the chi-squared distribution. -/
noncomputable def inPce {n d : Nat} (w : Fin n → ℝ) (x : Fin n → Fin d → ℝ) (mult : ℝ) (p : Fin d → ℝ) :
    Except PyErr Bool :=
  inEllipsoid p (mult • pcov w x) (pmean w x)

/-- The points with a one appended, `Q`, utils.py 328-332. -/
def mveeQ {N d : Nat} (pts : Fin N → Fin d → ℝ) : Matrix (Fin d ⊕ Unit) (Fin N) ℝ :=
  fun a i => Sum.elim (pts i) (fun _ => 1) a

/-- `X`, utils.py 340. -/
def mveeX {N d : Nat} (pts : Fin N → Fin d → ℝ) (u : Fin N → ℝ) : Matrix (Fin d ⊕ Unit) (Fin d ⊕ Unit) ℝ :=
  mveeQ pts * diagonal u * (mveeQ pts)ᵀ

/-- `M`, utils.py 341. -/
noncomputable def mveeM {N d : Nat} (pts : Fin N → Fin d → ℝ) (u : Fin N → ℝ) (i : Fin N) : ℝ :=
  ((mveeQ pts)ᵀ * (mveeX pts u)⁻¹ * mveeQ pts) i i

open Classical in
/-- The body of the loop, utils.py 340-348. -/
noncomputable def mveeStep {N d : Nat} (pts : Fin N → Fin d → ℝ) (u : Fin N → ℝ) :
    Except PyErr (Fin N → ℝ) :=
  if (mveeX pts u).det = 0 then .error .other
  else do
    let j ← npArgmax (List.ofFn (mveeM pts u))
    let m := (List.ofFn (mveeM pts u)).getD j 0
    let step := (m - d - 1) / ((d + 1) * (m - 1))
    .ok fun i => (1 - step) * u i + if i.val = j then step else 0

open Classical in
/-- The loop, utils.py 338-348, for at most `fuel` iterations; `none` when these are used up. -/
noncomputable def mveeLoop {N d : Nat} (pts : Fin N → Fin d → ℝ) (tol : ℝ) :
    Nat → (Fin N → ℝ) → ℝ → Except PyErr (Option (Fin N → ℝ))
  | fuel, u, err =>
    if err ≤ tol then .ok (some u)
    else match fuel with
      | 0 => .ok none
      | fuel + 1 => do
        let u' ← mveeStep pts u
        mveeLoop pts tol fuel u' (Real.sqrt (∑ i, (u' i - u i) ^ 2))

/-- `np.dot(np.dot(points, U), points.T) - np.outer(c, c)`, utils.py 350-352. -/
def mveeS {N d : Nat} (pts : Fin N → Fin d → ℝ) (u : Fin N → ℝ) : Matrix (Fin d) (Fin d) ℝ :=
  fun a b => (∑ i, pts i a * u i * pts i b) - (∑ i, pts i a * u i) * (∑ i, pts i b * u i)

open Classical in
/-- `mvee`, utils.py 314-353. -/
noncomputable def mvee {N d : Nat} (pts : Fin N → Fin d → ℝ) (tol : ℝ) (fuel : Nat) :
    Except PyErr (Option (Matrix (Fin d) (Fin d) ℝ × (Fin d → ℝ))) :=
  if N = 0 then .error .zeroDivisionError
  else do
    let r ← mveeLoop pts tol fuel (fun _ => 1 / (N : ℝ)) 1
    match r with
    | none => .ok none
    | some u =>
      if d = 0 then .error .zeroDivisionError
      else if (mveeS pts u).det = 0 then .error .other
      else .ok (some ((1 / (d : ℝ)) • (mveeS pts u)⁻¹, fun a => ∑ i, pts i a * u i))

/-- Method `'hpd-mvee'` of `in_credible_region`, distributions.py 730-733, for the ellipsoid returned by
`region_est_ellipsoid`. -/
noncomputable def inMvee {d : Nat} (p : Fin d → ℝ) (A : Matrix (Fin d) (Fin d) ℝ) (c : Fin d → ℝ) :
    Except PyErr Bool :=
  inEllipsoid p A⁻¹ c

/-- The choice of `in_credible_region`, distributions.py 722-751: for another method name `results` is
never set. -/
def credibleMethod {α : Type} (method : String) (pce mvee hull : Except PyErr α) : Except PyErr α :=
  if method = "pce" then pce
  else if method = "hpd-mvee" then mvee
  else if method = "hpd-hull" then hull
  else .error .unboundLocalError

end QInfer
