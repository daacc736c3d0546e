import Verif.Model.RoundEst

/-!
# New locations of the Liu-West resampler in rounded arithmetic

`LiuWestResampler.__call__`, `src/qinfer/resamplers.py` 256-392, one entry of one new location at a time, with rounding
and the orders of additions as parameters, as in `Model/RoundEst`.
-/

namespace QInfer

/-- One entry of `mus`, resamplers.py 325: `a * l[js,:] + (1 - a) * mean`. -/
noncomputable def lwCentreRound (rnd : ℝ → ℝ) (radd : ℝ → ℝ → ℝ) (a l mean : ℝ) : ℝ :=
  radd (rnd (a * l)) (rnd (radd 1 (-a) * mean))

/-- One entry of a new location, resamplers.py 300 and 332: `S` is the row of the square root of the covariance, `z` the
column of the kernel, `t` the order of the additions in `np.dot`. -/
noncomputable def lwMoveRound {d : Nat} (rnd : ℝ → ℝ) (radd : ℝ → ℝ → ℝ) (t : SumTree (Fin d)) (a h l mean : ℝ)
    (S z : Fin d → ℝ) : ℝ :=
  radd (lwCentreRound rnd radd a l mean) (t.sum radd fun i => rnd (rnd (h * S i) * z i))

end QInfer
