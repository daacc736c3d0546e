import Verif.Model.RoundSmc
import Verif.Model.Particle
import Verif.Model.Resample
import Verif.Model.Outcome

/-!
# Draws in rounded arithmetic

`np.cumsum` adds from left to right; `radd` is the rounded addition.  The functions below are those of the exact
model (`cumsum`, `sampleIdx`, `lwParents`, `simCell`) with rounded cumulative sums; comparisons and indexing are exact.
-/

namespace QInfer

/-- `np.cumsum` in rounded arithmetic. (distributions.py 329, resamplers.py 308, abstract_model.py 641.) -/
def cumRound (radd : ℝ → ℝ → ℝ) : List ℝ → List ℝ
  | [] => []
  | a :: l => l.scanl radd a

/-- `ParticleDistribution.sample`, distributions.py 329-333, the index for one variate. -/
noncomputable def sampleIdxRound (radd : ℝ → ℝ → ℝ) (w : List ℝ) (v : ℝ) : Nat :=
  min (searchsortedRight (cumRound radd w) v) (w.length - 1)

/-- `js` and `mus`, resamplers.py 308, 318-325: no bound on the index. -/
noncomputable def lwParentsRound {ρ : Type*} (radd : ℝ → ℝ → ℝ) (w : List ℝ) (l : List ρ) (centre : ρ → ρ) (us : List ℝ) :
    Except PyErr (List Nat × List ρ) :=
  let js := us.map (searchsortedRight (cumRound radd w))
  if js.all (fun j => decide (j < l.length)) then .ok (js, js.filterMap fun j => (l[j]?).map centre)
  else .error .indexError

/-- One cell of `simulate_experiment`, abstract_model.py 640-644. -/
noncomputable def simCellRound (radd : ℝ → ℝ → ℝ) (allOutcomes : List ℤ) (probs : List ℝ) (u : ℝ) : Except PyErr ℤ := do
  let idx ← pyIndex allOutcomes (argmaxGt (cumRound radd probs) u)
  pyIndex allOutcomes idx

end QInfer
