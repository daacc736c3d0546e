import Verif.Model.RoundRun

/-!
# The total likelihood in rounded arithmetic

`normalization_record`, `resample_count` and `log_total_likelihood` (`src/qinfer/smc.py` 183-226) along a run of
`Model/RoundRun`.
-/

namespace QInfer

/-- `normalization_record` and `resample_count` after several calls of `update`, smc.py 444 and 505. -/
noncomputable def recordRound {n : Nat} {S : Type} (rnd : ℝ → ℝ) (radd : ℝ → ℝ → ℝ) (thr : ℝ) :
    List (RoundStep n S) → (Fin n → ℝ) → (Fin n → S) → Except PyErr (List ℝ × Nat)
  | [], _, _ => .ok ([], 0)
  | d :: ds, w, x =>
    let (w1, norm) := hypRound rnd radd d.order w fun i => d.like (x i)
    let one := if essRound rnd radd d.orderEss w1 < rnd (n * thr) then 1 else 0
    match stepRound rnd radd thr d w x with
    | .error e => .error e
    | .ok (w', x') =>
      match recordRound rnd radd thr ds w' x' with
      | .error e => .error e
      | .ok (l, m) => .ok (norm :: l, one + m)

/-- `log_total_likelihood`, smc.py 216-226: `rlog` is the computed logarithm, `t` the order of the additions. -/
noncomputable def logTotalRound (rlog : ℝ → ℝ) (radd : ℝ → ℝ → ℝ) (l : List ℝ) (t : SumTree (Fin l.length)) : ℝ :=
  t.sum radd fun i => rlog l[i]

end QInfer
