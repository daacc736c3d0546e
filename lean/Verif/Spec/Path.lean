import Verif.Spec.Smc

/-!
# Paths of particles

Vocabulary for models whose parameters drift: a particle has a path, its parameters before the first,
second, ... experiment.
-/

namespace QInfer.Spec

variable {K O E ω : Type*}

/-- Likelihood of a data set along a path: the parameters at the time of each experiment count. -/
def pathLike [Field K] (like : O → List K → E → K) : List (O × E) → (Nat → List K) → K
  | [], _ => 1
  | d :: ds, p => like d.1 (p 0) d.2 * pathLike like ds fun t => p (t + 1)

/-- The particles move along the given paths while the data come in: each call of `update_timestep`
takes the positions at one time to those at the next. -/
def Moves {n : Nat} (env : Env K O E ω) : List (O × E) → ω → (Fin n → Nat → List K) → Prop
  | [], _, _ => True
  | d :: ds, r, p =>
    (env.timestep r (List.ofFn fun i => p i 0) d.2).1 = List.ofFn (fun i => p i 1) ∧
    Moves env ds (env.timestep r (List.ofFn fun i => p i 0) d.2).2 fun i t => p i (t + 1)

end QInfer.Spec
