import Verif.Model.Walk

/-!
# Weighted distances when weights vanish

`outer_product`, `src/qinfer/utils.py` 205-214, and `weighted_pairwise_distances`, `src/qinfer/metrics.py` 108-125, for weights that are not negative.
-/

namespace QInfer

/-- `outer_product` of a vector, utils.py 210-211. -/
def outerProduct {n : Nat} (v : Fin n → ℝ) (i j : Fin n) : ℝ := v i * v j

open Classical in
/-- One entry of `weighted_pairwise_distances`, metrics.py 121-125, in floating point conventions: zero to a negative power is infinite, a number divided
by infinity is zero, zero divided by zero is NaN.  `base` are the distances of `pairwise_distances`, which are not negative. -/
noncomputable def weightedEntry {n : Nat} (base : Fin n → Fin n → ℝ) (w : Fin n → ℝ) (pow : ℝ) (i j : Fin n) : Flt :=
  let x := outerProduct w i j * (n : ℝ) ^ 2
  if x = 0 ∧ pow < 0 then .fin 0
  else if x ^ pow = 0 then (if base i j = 0 then .nan else .posInf)
  else .fin (base i j / x ^ pow)

end QInfer
