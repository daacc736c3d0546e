import Verif.Model.Smc
import Verif.Model.Outcome

/-!
# `BinomialModel` and `MultinomialModel` in an updater (`src/qinfer/derived_models.py`)

The surroundings of an updater whose model wraps another one and takes numbers of outcomes as data.  An
experiment is the experiment of the wrapped model together with the number of measurements.
-/

namespace QInfer

variable {O E ω : Type}

/-- `BinomialModel.likelihood` and `update_timestep`, derived_models.py 314-329, 357-360.  The wrapped model
is asked for the likelihood of outcome 1.  Simplification: an `Env` cannot raise, so where the call raises
(`binomialLikelihood`) the value is 0. -/
noncomputable def binomialEnv (env : Env ℝ ℤ E ω) : Env ℝ ℤ (E × ℕ) ω where
  likelihood o x e := match binomialLikelihood e.2 [o] (env.likelihood 1 x e.1) with
    | .ok [v] => v
    | _ => 0
  timestep r l e := env.timestep r l e.1
  canon := env.canon
  clearCacheRaises := env.clearCacheRaises
  prior := env.prior
  resampler := env.resampler
  kl := env.kl

/-- `MultinomialModel.likelihood`, derived_models.py 630-652, and the inherited `update_timestep`, 140-141.
`vals` are the values of the underlying domain.  Simplifications: where the call raises
(`multinomialLikelihood`) the value is 0; the time step of the wrapped model sees only the fields of its own
experiments. -/
noncomputable def multinomialEnv (vals : List O) (env : Env ℝ O E ω) : Env ℝ (List ℤ) (E × ℕ) ω where
  likelihood c x e := match multinomialLikelihood c (vals.map fun o => env.likelihood o x e.1) with
    | .ok v => v
    | _ => 0
  timestep r l e := env.timestep r l e.1
  canon := env.canon
  clearCacheRaises := env.clearCacheRaises
  prior := env.prior
  resampler := env.resampler
  kl := env.kl

end QInfer
