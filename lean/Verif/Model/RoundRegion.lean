import Verif.Model.RoundDraw

/-!
# Credible regions in rounded arithmetic

`est_credible_region` (`src/qinfer/distributions.py` 558-614) with rounded cumulative sums.
-/

namespace QInfer

/-- `id_cred` with rounded cumulative sums, distributions.py 595-603. -/
noncomputable def credMaskRound (radd : ℝ → ℝ → ℝ) (sorted : List ℝ) (level : ℝ) : Except PyErr (List Bool) :=
  let idCred := (cumRound radd sorted).map fun c => decide (c ≤ level)
  let k := idCred.count true
  if k < idCred.length then .ok (idCred.set k true) else .error .indexError

/-- `est_credible_region(level, return_outside=True)`, distributions.py 587-614; `idSort` is the reversed `argsort` of
the weights, which only compares and is exact. -/
noncomputable def credRegionRound {α : Type*} (radd : ℝ → ℝ → ℝ) (w : List ℝ) (mps : List α) (idSort : List Nat)
    (level : ℝ) : Except PyErr (List α × List α) :=
  match credMaskRound radd (idSort.filterMap fun i => w[i]?) level with
  | .error e => .error e
  | .ok m =>
    let sortedMps := idSort.filterMap fun i => mps[i]?
    .ok (select sortedMps m, select sortedMps (m.map not))

end QInfer
