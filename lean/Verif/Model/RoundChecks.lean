import Verif.Model.RoundRun

/-!
# The checks of `update` in rounded arithmetic

`SMCUpdater.update` (`src/qinfer/smc.py` 388-457) as in `Model/RoundRun`, with the checks for negative weights and for
a vanishing total (414-435) under the default policy `'error'`.
-/

namespace QInfer

/-- Comparison with the threshold and resampling by copies, smc.py 263-277 and 453-457, for new weights `w`. -/
noncomputable def maybeResampleRound {n : Nat} {S : Type} (rnd : ℝ → ℝ) (radd : ℝ → ℝ → ℝ) (thr : ℝ) (d : RoundStep n S)
    (w : Fin n → ℝ) (x : Fin n → S) : Except PyErr ((Fin n → ℝ) × (Fin n → S)) :=
  if essRound rnd radd d.orderEss w < rnd (n * thr) then
    match lwParentsRound radd (List.ofFn w) (List.ofFn x) id (List.ofFn d.variates) with
    | .error e => .error e
    | .ok (_, mus) => .ok (freshRound rnd radd d.orderNew, fun i => mus.getD i (x i))
  else .ok (w, x)

open Classical in
/-- `update`, smc.py 388-457: `zthr` is `zero_weight_thresh`, `t` the order of the additions at 423.  The number counts the
warnings of 416-418. -/
noncomputable def checkedStepRound {n : Nat} {S : Type} (rnd : ℝ → ℝ) (radd : ℝ → ℝ → ℝ) (thr zthr : ℝ)
    (d : RoundStep n S) (t : SumTree (Fin n)) (w : Fin n → ℝ) (x : Fin n → S) :
    Except PyErr (((Fin n → ℝ) × (Fin n → S)) × Nat) :=
  let v := (hypRound rnd radd d.order w fun i => d.like (x i)).1
  let warned := if ∀ i, 0 ≤ v i then 0 else 1
  let v := if ∀ i, 0 ≤ v i then v else fun i => min (max (v i) 0) 1
  if t.sum radd v ≤ zthr then .error .runtimeError
  else match maybeResampleRound rnd radd thr d v x with
    | .error e => .error e
    | .ok r => .ok (r, warned)

/-- Several calls of `update`, smc.py 388-457, with the total number of warnings. -/
noncomputable def checkedRunRound {n : Nat} {S : Type} (rnd : ℝ → ℝ) (radd : ℝ → ℝ → ℝ) (thr zthr : ℝ) :
    List (RoundStep n S × SumTree (Fin n)) → (Fin n → ℝ) → (Fin n → S) →
      Except PyErr (((Fin n → ℝ) × (Fin n → S)) × Nat)
  | [], w, x => .ok ((w, x), 0)
  | (d, t) :: ds, w, x =>
    match checkedStepRound rnd radd thr zthr d t w x with
    | .error e => .error e
    | .ok ((w, x), m) =>
      match checkedRunRound rnd radd thr zthr ds w x with
      | .error e => .error e
      | .ok (r, m') => .ok (r, m + m')

end QInfer
