import Verif.Model.RoundSmc

/-!
# Estimates in rounded arithmetic

`n_ess`, `particle_mean` and `particle_covariance_mtx`, `src/qinfer/distributions.py` 299-307, 336-348 and 350-399, with
rounding and the order of additions as parameters, as in `Model/RoundSmc`.  One entry of the mean and of the
covariance matrix at a time.
-/

namespace QInfer

/-- `n_ess`, distributions.py 307: `1 / np.sum(w**2)`. -/
noncomputable def essRound {n : Nat} (rnd : ℝ → ℝ) (radd : ℝ → ℝ → ℝ) (t : SumTree (Fin n)) (w : Fin n → ℝ) : ℝ :=
  rnd (1 / t.sum radd fun i => rnd (w i ^ 2))

/-- One entry of `particle_mean`, distributions.py 348: `np.dot(weights, locations)`. -/
noncomputable def meanRound {n : Nat} (rnd : ℝ → ℝ) (radd : ℝ → ℝ → ℝ) (t : SumTree (Fin n)) (w x : Fin n → ℝ) : ℝ :=
  t.sum radd fun i => rnd (w i * x i)

/-- One entry of `particle_covariance_mtx`, distributions.py 364-390: `np.einsum('i,mi,ni', ws, xs, xs)` minus the
product of the means.  The sums may be taken in different orders. -/
noncomputable def covRound {n : Nat} (rnd : ℝ → ℝ) (radd : ℝ → ℝ → ℝ) (t tx ty : SumTree (Fin n)) (w x y : Fin n → ℝ) : ℝ :=
  radd (t.sum radd fun i => rnd (rnd (w i * x i) * y i))
    (-rnd (meanRound rnd radd tx w x * meanRound rnd radd ty w y))

end QInfer
