import Verif.Model.SimpleDists
import Verif.Model.TomoDist

/-!
# Models of the random states as functions of the normal variates

`src/qinfer/distributions.py` 1249-1301 and `src/qinfer/tomography/distributions.py` 78-86: the arrays handed to the
functions of `Model/SimpleDists.lean` and `Model/TomoDist.lean`, as functions of the numbers drawn by
`np.random.randn`.
-/

namespace QInfer

open Matrix

/-- `randn(n, k) + 1j * randn(n, k)`, distributions.py 1251 and 1292: the variates of the first call have the index
`false`, those of the second `true`. -/
noncomputable def randnComplex {n k : Nat} (v : Bool × Fin n × Fin k → ℝ) : Matrix (Fin n) (Fin k) ℂ :=
  of fun i j => (v (false, i, j) : ℂ) + Complex.I * (v (true, i, j) : ℂ)

open Classical in
/-- `HaarUniform._sample`, distributions.py 1249-1267, for the routine `qr` of LAPACK and the variates `v`.  A zero on the
diagonal of `r` is divided by its absolute value: the phases contain NaN, and so do all the products with it; `none`. -/
noncomputable def haarDraw
    (qr : Matrix (Fin 2) (Fin 2) ℂ → Matrix (Fin 2) (Fin 2) ℂ × Matrix (Fin 2) (Fin 2) ℂ)
    (v : Bool × Fin 2 × Fin 2 → ℝ) : Except PyErr (Option (List ℝ)) :=
  let f := qr (((Real.sqrt 2 : ℝ) : ℂ)⁻¹ • randnComplex v)
  if ∃ i, f.2 i i = 0 then .ok none else (haarSample f).map some

/-- `GinibreUniform._sample`, distributions.py 1290-1301, for the variates `v`; `none` for NaN. -/
noncomputable def ginibreDraw {k : Nat} (v : Bool × Fin 2 × Fin k → ℝ) : Option (List ℝ) :=
  ginibreBloch (randnComplex v)

/-- `rand_dm_ginibre_redit`, tomography/distributions.py 78-86, for the variates `v`: the array of `N * rank` numbers is
reshaped, so that they are indexed by row and column. -/
noncomputable def reditDraw {N r : Nat} (v : Fin N × Fin r → ℝ) : Option (Matrix (Fin N) (Fin N) ℂ) :=
  ginibreRedit (of fun i j => v (i, j))

end QInfer
