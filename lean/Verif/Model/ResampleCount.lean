import Verif.Model.Resample

/-!
# How many particles a resampler returns

`LiuWestResampler.__call__` (`src/qinfer/resamplers.py` 256-392) with its argument `n_particles`.
-/

namespace QInfer

variable {ρ Z ω : Type*} {K : Type*} [Field K] [LinearOrder K]

/-- `LiuWestResampler.__call__` with the number of particles of resamplers.py 275-279; `variates n` is
`np.random.random((n,))` at 318-319. -/
def liuWestCall (env : LwEnv ρ Z ω) (maxiter : Nat) (covZero sqrtFinite : Bool) (w : List K) (l : List ρ)
    (centre : ρ → ρ) (arg dflt : Option Nat) (variates : Nat → List K) (seed : ω) :
    Except PyErr (List (Option ρ) × List (Option K) × List LwWarn × Nat × ω) :=
  let n := lwCount arg dflt l.length
  liuWest env maxiter covZero sqrtFinite w l centre n (variates n) seed

end QInfer
