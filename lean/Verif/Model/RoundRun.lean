import Verif.Model.RoundEst
import Verif.Model.RoundDraw

/-!
# Whole runs in rounded arithmetic

Updates with resampling by copies, `SMCUpdater.update` (`src/qinfer/smc.py` 388-457) with `LiuWestResampler(a=1)`
(`src/qinfer/resamplers.py` 256-392), put together from the rounded pieces of `Model/RoundSmc`, `Model/RoundEst` and
`Model/RoundDraw`.
-/

namespace QInfer

/-- What one call of `update` meets: the orders of the additions at smc.py 357, distributions.py 307 and
distributions.py 285, the computed likelihood as a function of the location, and the variates of
resamplers.py 319. -/
structure RoundStep (n : Nat) (S : Type) where
  order : SumTree (Fin n)
  orderEss : SumTree (Fin n)
  orderNew : SumTree (Fin n)
  like : S → ℝ
  variates : Fin n → ℝ

/-- `np.ones((n,)) / n`, normalised again by the constructor of `ParticleDistribution`. (resamplers.py 390-392,
distributions.py 284-285.) -/
noncomputable def freshRound {n : Nat} (rnd : ℝ → ℝ) (radd : ℝ → ℝ → ℝ) (t : SumTree (Fin n)) : Fin n → ℝ :=
  let q := rnd (1 / n)
  fun _ => rnd (q / t.sum radd fun _ => q)

/-- One `update` with a model that leaves locations alone, smc.py 388-457 and 263-277: new weights, effective sample
size, comparison with the threshold, and resampling with `a = 1`, where the new locations are the parents
(resamplers.py 325 and 332 with `h = 0`, exact also in floating point).  The checks of the weights
(smc.py 415-435) are added in `Model/RoundChecks`. -/
noncomputable def stepRound {n : Nat} {S : Type} (rnd : ℝ → ℝ) (radd : ℝ → ℝ → ℝ) (thr : ℝ) (d : RoundStep n S)
    (w : Fin n → ℝ) (x : Fin n → S) : Except PyErr ((Fin n → ℝ) × (Fin n → S)) :=
  let w := (hypRound rnd radd d.order w fun i => d.like (x i)).1
  if essRound rnd radd d.orderEss w < rnd (n * thr) then
    match lwParentsRound radd (List.ofFn w) (List.ofFn x) id (List.ofFn d.variates) with
    | .error e => .error e
    | .ok (_, mus) => .ok (freshRound rnd radd d.orderNew, fun i => mus.getD i (x i))
  else .ok (w, x)

/-- Several calls of `update`, smc.py 388-457. -/
noncomputable def runRound {n : Nat} {S : Type} (rnd : ℝ → ℝ) (radd : ℝ → ℝ → ℝ) (thr : ℝ) :
    List (RoundStep n S) → (Fin n → ℝ) → (Fin n → S) → Except PyErr ((Fin n → ℝ) × (Fin n → S))
  | [], w, x => .ok (w, x)
  | d :: ds, w, x =>
    match stepRound rnd radd thr d w x with
    | .error e => .error e
    | .ok (w, x) => runRound rnd radd thr ds w x

end QInfer
