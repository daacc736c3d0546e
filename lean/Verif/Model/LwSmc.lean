import Verif.Model.Smc
import Verif.Model.Resample

/-!
# Model: a Liu-West resampler in the hands of the updater

`LiuWestResampler.__call__`, `src/qinfer/resamplers.py` 256-392, as the updater calls it,
`src/qinfer/smc.py` 523, on a stock of random variates.
-/

namespace QInfer

/-- What the resampler has besides the cloud: its parameters `a` and `h` (resamplers.py 223-252), and
functions of the cloud that it computes first (265-300): mean, whether the covariance vanishes, and the
product of the square root of the covariance with a kernel draw. -/
structure LwSetup where
  a : ℝ
  h : ℝ
  maxiter : Nat
  kernel : Nat → List (List ℝ)
  mean : List ℝ → List (List ℝ) → List ℝ
  covZero : List ℝ → List (List ℝ) → Bool
  root : List ℝ → List (List ℝ) → List ℝ → List ℝ

/-- The loop's environment without postselection, resamplers.py 300 and 328-342:
`mus + np.dot(S, kernel).T` with `S = real(h * S)`. -/
noncomputable def LwSetup.env (p : LwSetup) (w : List ℝ) (l : List (List ℝ)) :
    LwEnv (List ℝ) (List ℝ) Unit where
  kernel _ m := (p.kernel m, ())
  disp mu z := mu.mapIdx fun j y => y + p.h * (p.root w l z).getD j 0
  valid rows := rows.map fun _ => true
  postselect := false

/-- `a * l[js, :] + (1 - a) * mean`, resamplers.py 325. -/
noncomputable def LwSetup.centre (p : LwSetup) (w : List ℝ) (l : List (List ℝ)) (x : List ℝ) : List ℝ :=
  x.mapIdx fun j y => p.a * y + (1 - p.a) * (p.mean w l).getD j 0

/-- The resampler as the updater calls it, smc.py 523: `resampler(model, updater)`.  The seed is the
stock of variates, one list for each call (resamplers.py 319); an empty stock does not occur.  A finite
square root is assumed; entries that stay undefined do not occur without postselection (C18). -/
noncomputable def LwSetup.resampler (p : LwSetup) (seed : List (List ℝ)) (w : List ℝ)
    (l : List (List ℝ)) : Except PyErr (List ℝ × List (List ℝ)) × List (List ℝ) :=
  match seed with
  | [] => (.error .other, [])
  | us :: rest =>
    match liuWest (p.env w l) p.maxiter (p.covZero w l) true w l (p.centre w l) us.length us () with
    | .error e => (.error e, rest)
    | .ok (locs, ws, _) => (.ok (ws.map (·.getD 0), locs.map (·.getD [])), rest)

end QInfer
