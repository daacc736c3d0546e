import Verif.Model.Particle
import Verif.Model.Estimates
import Verif.Model.Domain

/-!
# Models of the estimated regions

`region_est_hull`, `region_est_ellipsoid` and the methods `'hpd-hull'` and `'hpd-mvee'` of
`in_credible_region`, `src/qinfer/distributions.py` 616-751.  SciPy's `ConvexHull` and `Delaunay` are
parameters; they raise for points with fewer than two coordinates.
-/

namespace QInfer

/-- The attributes `simplices` and `vertices` of a `scipy.spatial.ConvexHull`. (distributions.py 639-641.) -/
structure HullResult where
  simplices : List (List Nat)
  vertices : List Nat

/-- Fancy indexing `points[idx]`. (distributions.py 641.) -/
def takeRows {α : Type*} (points : List α) (idx : List Nat) : Except PyErr (List α) :=
  idx.mapM fun i => match points[i]? with
    | some p => .ok p
    | none => .error .indexError

variable {d : Nat}

/-- `region_est_hull`, distributions.py 616-641; `mps` are the rows after slicing, `idSort` the sorted
positions of `est_credible_region`. -/
noncomputable def regionEstHull (convexHull : List (Fin d → ℝ) → Except PyErr HullResult) (w : List ℝ)
    (mps : List (Fin d → ℝ)) (idSort : List Nat) (level : ℝ) :
    Except PyErr (List (List (Fin d → ℝ)) × List (Fin d → ℝ)) := do
  let region ← credRegion w mps idSort level
  let points := region.1
  let hull ← convexHull points
  let faces ← hull.simplices.mapM (takeRows points)
  let vertices ← takeRows points (uniquify hull.vertices)
  .ok (faces, vertices)

/-- `region_est_ellipsoid`, distributions.py 643-666; `none` when `fuel` iterations of `mvee` do not
suffice. -/
noncomputable def regionEstEllipsoid (convexHull : List (Fin d → ℝ) → Except PyErr HullResult) (w : List ℝ)
    (mps : List (Fin d → ℝ)) (idSort : List Nat) (level tol : ℝ) (fuel : Nat) :
    Except PyErr (Option (Matrix (Fin d) (Fin d) ℝ × (Fin d → ℝ))) := do
  let r ← regionEstHull convexHull w mps idSort level
  mvee r.2.get tol fuel

/-- Method `'hpd-hull'` of `in_credible_region`, distributions.py 735-749, for one point: `delaunay` builds
the triangulation and `find_simplex` looks the point up, giving `-1` for points outside. -/
noncomputable def inHpdHull {τ : Type} (delaunay : List (Fin d → ℝ) → Except PyErr τ) (findSimplex : τ → (Fin d → ℝ) → Int)
    (w : List ℝ) (mps : List (Fin d → ℝ)) (idSort : List Nat) (level : ℝ) (p : Fin d → ℝ) :
    Except PyErr Bool := do
  let region ← credRegion w mps idSort level
  let hull ← delaunay region.1
  .ok (decide (findSimplex hull p ≥ 0))

/-- Method `'hpd-mvee'` of `in_credible_region`, distributions.py 730-733, for one point. -/
noncomputable def inHpdMvee (convexHull : List (Fin d → ℝ) → Except PyErr HullResult) (w : List ℝ)
    (mps : List (Fin d → ℝ)) (idSort : List Nat) (level : ℝ) (tol : Option ℝ) (fuel : Nat) (p : Fin d → ℝ) :
    Except PyErr (Option Bool) := do
  let r ← regionEstEllipsoid convexHull w mps idSort level (tol.getD (1 / 10000)) fuel
  match r with
  | none => .ok none
  | some (A, c) => (inMvee p A c).map some

end QInfer
