import Mathlib.Analysis.SpecialFunctions.Log.Basic
import Mathlib.Analysis.SpecialFunctions.Exp
import Mathlib.Algebra.BigOperators.Intervals

/-!
# Model of `to_simplex` and `from_simplex`, `src/qinfer/utils.py` 463-533

One vector along the last index, of length `n`, is a function `ℕ → ℝ` of which entries `0 .. n-1`
are read.
-/

namespace QInfer

/-- `scipy.special.expit`. (Called at utils.py 505.) -/
noncomputable def expit (x : ℝ) : ℝ := 1 / (1 + Real.exp (-x))

/-- `scipy.special.logit`; `none` stands for the infinite or NaN value outside `(0, 1)`.
(Called at utils.py 530.) -/
noncomputable def logit (p : ℝ) : Option ℝ :=
  if 0 < p ∧ p < 1 then some (Real.log (p / (1 - p))) else none

/-- `z = expit(y - np.log(n - np.arange(1, n+1)))`, utils.py 503.  The last entry is
`expit(y + inf) = 1`. -/
noncomputable def stickFrac (n : ℕ) (y : ℕ → ℝ) (k : ℕ) : ℝ :=
  if n = k + 1 then 1 else expit (y k - Real.log ((n : ℝ) - ((k : ℝ) + 1)))

/-- `to_simplex`, utils.py 501-509. -/
noncomputable def toSimplex (n : ℕ) (y : ℕ → ℝ) (k : ℕ) : ℝ :=
  if k = 0 then stickFrac n y 0
  else stickFrac n y k * ∏ i ∈ Finset.range k, (1 - stickFrac n y i)

/-- The breaking fractions of `from_simplex`, utils.py 525-526. -/
noncomputable def breakFrac (x : ℕ → ℝ) (k : ℕ) : ℝ :=
  if k = 0 then x 0 else x k / (1 - ∑ i ∈ Finset.range k, x i)

/-- `from_simplex`, utils.py 521-533. -/
noncomputable def fromSimplex (n : ℕ) (x : ℕ → ℝ) (k : ℕ) : Option ℝ :=
  if k + 1 = n then some 0
  else match logit (breakFrac x k), logit (1 / ((n : ℝ) - (k : ℝ))) with
    | some a, some b => some (a - b)
    | _, _ => none

end QInfer
