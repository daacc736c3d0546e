import Verif.Model.Walk

/-!
# Successive time steps of random walk models

`SMCUpdater.update` moves the particles once per accepted datum (`src/qinfer/smc.py` 446-449).  Weights and
resampling are left out here; see `Model/Smc.lean`.
-/

namespace QInfer

section
variable {K : Type} [Field K]

/-- The locations after the steps of successive data of one experiment each: smc.py 447-449 with
`GaussianRandomWalkModel.update_timestep`, derived_models.py 920-963, without a transformation.  Each datum gives
the value of `scale_mult_fcn` for its experiment and the variates drawn by its call. -/
def grwRun (g : GRw K) (nMps : Nat) : List (K × (Nat → K)) → (Nat → Nat → K) → Except PyErr (Nat → Nat → K)
  | [], mps => .ok mps
  | (s, z) :: rest, mps => do
    let r ← grwStep g nMps 1 (fun _ => s) z mps
    grwRun g nMps rest fun m p => r m p 0

/-- The same with a transformation, derived_models.py 946-963. -/
def grwRunTransformed (g : GRw K) (nMps : Nat) (tr inv : (Nat → Nat → K) → Nat → Nat → K) :
    List (K × (Nat → K)) → (Nat → Nat → K) → Except PyErr (Nat → Nat → K)
  | [], mps => .ok mps
  | (s, z) :: rest, mps => do
    let r ← grwStepTransformed g nMps 1 (fun _ => s) z tr inv mps
    grwRunTransformed g nMps tr inv rest fun m p => r m p 0

/-- The same with `RandomWalkModel.update_timestep`, derived_models.py 732-740: each datum gives the sample drawn
by its call. -/
def rwRun : List (Nat → Nat → K) → (Nat → Nat → K) → (Nat → Nat → K)
  | [], mps => mps
  | draw :: rest, mps => rwRun rest fun m p => rwStep 1 draw mps m p 0

end

/-- The variates of one call, of which the call uses the first `N`. (derived_models.py 920-937.) -/
def variates {T N : Nat} (v : Fin T × Fin N → ℝ) (t : Fin T) (q : Nat) : ℝ :=
  if h : q < N then v (t, ⟨q, h⟩) else 0

/-- The rows of the sample drawn by one call of `RandomWalkModel.update_timestep`, derived_models.py 735. -/
def sampleRows {T N d : Nat} (v : Fin T × Fin N → Fin d → ℝ) (t : Fin T) (q p : Nat) : ℝ :=
  if h : q < N ∧ p < d then v (t, ⟨q, h.1⟩) ⟨p, h.2⟩ else 0

end QInfer
