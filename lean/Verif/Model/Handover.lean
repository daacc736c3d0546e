import Verif.Model.Particle

/-!
# Model of an updater that is the prior of another one

`SMCUpdater` is a `ParticleDistribution` and hence a distribution, so it can be given as `prior` to the
next updater: `reset` (`src/qinfer/smc.py` 281-320) then calls `ParticleDistribution.sample`
(`src/qinfer/distributions.py` 319-333) of the first updater.
-/

namespace QInfer

variable {K : Type*} {O E : Type*} [Field K] [LinearOrder K]

/-- `prior.sample(n)` of a cloud, distributions.py 319-333, reading the variates of
`np.random.random` from a stream.  A cloud without particles raises `IndexError` there, which is not
modelled here (C17): the clouds below have weights that add up to one. -/
def cloudPrior (w : List K) (locs : List (List K)) (us : ℕ → K) (n : ℕ) : List (List K) × (ℕ → K) :=
  ((particleSample w locs (List.ofFn fun i : Fin n => us i)).toOption.getD [], fun i => us (n + i))

/-- The environment of an updater whose prior is the updater `u`, smc.py 141-142 and 296-318. -/
def withPrior (env : Env K O E (ℕ → K)) (u : Smc K O (ℕ → K)) : Env K O E (ℕ → K) :=
  { env with prior := cloudPrior u.weights u.locs }

end QInfer
