import Verif.Model.Particle
import Verif.Model.Region
import Verif.Model.Bases
import Mathlib.Analysis.SpecialFunctions.Complex.Arg

/-!
# Model of `src/qinfer/tomography/plotting_tools.py`

A figure is the list of what has been drawn on it.  Colours, marker sizes, line styles, axis limits and
the legend are not modelled, nor the lookup of `axes.color_cycle` in matplotlib's settings.  The two
plotted axes are given by nonnegative indices.
-/

namespace QInfer

/-- What the functions add to a figure.  `marks` is a scatter plot under a legend entry, `ellipse` has
centre, full width, full height and the angle in degrees by which it is turned anticlockwise.
(plotting_tools.py 94, 113-117, 150-152, 275-283.) -/
inductive Artist
  | marks (label : String) (points : List (Fin 2 → ℝ))
  | circle (centre : Fin 2 → ℝ) (radius : ℝ)
  | ellipse (centre : Fin 2 → ℝ) (width height angle : ℝ)
  | polygon (points : List (Fin 2 → ℝ))
  | axisLabels (x y : String)

/-- `plot_rebit_modelparams`, plotting_tools.py 80-92, for `d` model parameters; indexing `None` raises
`TypeError`. -/
noncomputable def plotRebitModelparams (label : String) (d : Nat) (mps : Option (List (List ℝ)))
    (axes : Nat × Nat) : Except PyErr (List Artist) :=
  match mps with
  | none => .error .typeError
  | some rows =>
    if axes.1 < d ∧ axes.2 < d then
      .ok [.marks label (rows.map fun r => ![r.getD axes.1 0 * √2, r.getD axes.2 0 * √2])]
    else .error .indexError

/-- `plot_decorate_rebits`, plotting_tools.py 94-117. -/
def plotDecorateRebits (basis : Option TomoBasis) (axes : Nat × Nat) : Except PyErr (List Artist) :=
  let circle : Artist := .circle (fun _ => 0) 1
  match basis with
  | none => .ok [circle]
  | some b =>
    match b.labels[axes.1]?, b.labels[axes.2]? with
    | some x, some y => .ok [.axisLabels ("$\\langle\\!\\langle " ++ x ++ " | \\rho \\rangle\\!\\rangle$")
        ("$\\langle\\!\\langle " ++ y ++ " | \\rho \\rangle\\!\\rangle$"), circle]
    | _, _ => .error .indexError

/-- `np.arctan2(y, x)`. (plotting_tools.py 146.) -/
noncomputable def arctan2 (y x : ℝ) : ℝ := Complex.arg (x + y * Complex.I)

/-- `plot_cov_ellipse`, plotting_tools.py 123-153.  `eigh` returns eigenvalues and the matrix with the
eigenvectors as columns, `argsort` the sorting permutation.  The root of a negative number is NaN in the
code and zero here; covariance matrices have no negative eigenvalues. -/
noncomputable def plotCovEllipse
    (eigh : Matrix (Fin 2) (Fin 2) ℝ → (Fin 2 → ℝ) × Matrix (Fin 2) (Fin 2) ℝ)
    (argsort : (Fin 2 → ℝ) → Fin 2 → Fin 2) (cov : Matrix (Fin 2) (Fin 2) ℝ) (pos : Fin 2 → ℝ)
    (nstd : ℝ) : Artist :=
  let vals := (eigh cov).1
  let vecs := (eigh cov).2
  let order := fun i => argsort vals (Fin.rev i)
  let sortedVals := fun i => vals (order i)
  let sortedVecs := fun r i => vecs r (order i)
  let theta := arctan2 (sortedVecs 1 0) (sortedVecs 0 0) * 180 / Real.pi
  .ellipse pos (2 * nstd * √(sortedVals 0)) (2 * nstd * √(sortedVals 1)) theta

/-- The mark of a mean state, if there is one, plotting_tools.py 182-190 and 244-250. -/
noncomputable def plotMeanMark (label : String) (d : Nat) (mean : Option (Except PyErr (List ℝ)))
    (axes : Nat × Nat) : Except PyErr (List Artist) :=
  match mean with
  | none => .ok []
  | some (.error e) => .error e
  | some (.ok m) => plotRebitModelparams label d (some [m]) axes

/-- Runs drawing steps until one raises. (The statements of plotting_tools.py 170-195 and 225-291.) -/
def drawSteps : List (Except PyErr (List Artist)) → List Artist × Except PyErr Unit
  | [] => ([], .ok ())
  | .error e :: _ => ([], .error e)
  | .ok a :: rest => (a ++ (drawSteps rest).1, (drawSteps rest).2)

/-- A posterior cloud as `plot_rebit_posterior` sees it: weights, locations, and the basis of its model.
(plotting_tools.py 225-288.) -/
structure RebitCloud (n d : Nat) where
  w : Fin n → ℝ
  x : Fin n → Fin d → ℝ
  basis : TomoBasis

/-- Column `a` of the rows, for `a` in range. (plotting_tools.py 259-263.) -/
def atAxis {d : Nat} (v : Fin d → ℝ) (a : Nat) : ℝ := if h : a < d then v ⟨a, h⟩ else 0

/-- `plot_rebit_posterior`, plotting_tools.py 205-291.  `priorMean` is
`prior._basis.state_to_modelparams(prior._mean)`, absent without a prior; `hull` stands for
`updater.region_est_hull(level, modelparam_slice=rebit_axes)`. -/
noncomputable def plotRebitPosterior {n d : Nat}
    (eigh : Matrix (Fin 2) (Fin 2) ℝ → (Fin 2 → ℝ) × Matrix (Fin 2) (Fin 2) ℝ)
    (argsort : (Fin 2 → ℝ) → Fin 2 → Fin 2)
    (hull : List ℝ → List (Fin 2 → ℝ) → Except PyErr (List (List (Fin 2 → ℝ)) × List (Fin 2 → ℝ)))
    (c : RebitCloud n d) (priorMean : Option (Except PyErr (List ℝ)))
    (trueState : Option (List (List ℝ))) (nStd : ℝ) (axes : Nat × Nat) (method : Option String) :
    List Artist × Except PyErr Unit :=
  let posterior := plotRebitModelparams "Posterior" d
    (some (List.ofFn fun i => List.ofFn (c.x i))) axes
  let truth := plotRebitModelparams "True" d trueState axes
  let prior := plotMeanMark "Prior Mean" d priorMean axes
  let mean := plotRebitModelparams "Posterior Mean" d (some [List.ofFn (pmean c.w c.x)]) axes
  let region : Except PyErr (List Artist) :=
    if method = some "cov" then
      if h : axes.1 < d ∧ axes.2 < d then
        let sel : Fin 2 → Fin d := ![⟨axes.1, h.1⟩, ⟨axes.2, h.2⟩]
        let cov : Matrix (Fin 2) (Fin 2) ℝ := Matrix.of fun i j => 2 * pcov c.w c.x (sel i) (sel j)
        .ok [plotCovEllipse eigh argsort cov (fun i => pmean c.w c.x (sel i) * √2) nStd]
      else .error .indexError
    else if method = some "hull" then
      match hull (List.ofFn c.w) (List.ofFn fun i => ![atAxis (c.x i) axes.1, atAxis (c.x i) axes.2]) with
      | .error e => .error e
      | .ok (_, vertices) => .ok [.polygon (vertices.map fun v i => v i * √2)]
    else .ok []
  drawSteps [posterior, truth, prior, mean, region, plotDecorateRebits (some c.basis) axes]

/-- `plot_rebit_prior`, plotting_tools.py 156-195: `samples` are `prior.sample(n_samples)`, `mean` is the
parameter vector of `force_mean` or of `prior._mean`, absent if there is neither. -/
noncomputable def plotRebitPrior (d : Nat) (basis : TomoBasis) (samples : List (List ℝ))
    (trueState : Option (List (List ℝ))) (mean : Option (Except PyErr (List ℝ))) (axes : Nat × Nat) :
    List Artist × Except PyErr Unit :=
  let prior := plotRebitModelparams "Prior" d (some samples) axes
  let truth := match trueState with
    | none => .ok []
    | some s => plotRebitModelparams "True" d (some s) axes
  drawSteps [prior, truth, plotMeanMark "Mean" d mean axes, plotDecorateRebits (some basis) axes]

end QInfer
