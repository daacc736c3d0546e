import Verif.Model.Smc
import Mathlib.Data.Real.Basic
import Mathlib.Data.Fintype.BigOperators

/-!
# The update of the weights in rounded arithmetic

`hypothetical_update` and the assignment of the weights in `update`, `src/qinfer/smc.py` 340-386 and 439, with
rounding as a parameter: `rnd` is applied to every product and quotient, `radd` to every addition.  NumPy adds
in an order of its own (pairwise summation); the order is a parameter too.
-/

namespace QInfer

/-- An order of additions: a binary tree over the positions. (smc.py 358, `np.sum`.) -/
inductive SumTree (ι : Type)
  | leaf (i : ι)
  | node (l r : SumTree ι)

/-- The positions added. (smc.py 358.) -/
def SumTree.leaves {ι : Type} : SumTree ι → List ι
  | .leaf i => [i]
  | .node l r => l.leaves ++ r.leaves

/-- The longest chain of additions. (smc.py 358.) -/
def SumTree.depth {ι : Type} : SumTree ι → Nat
  | .leaf _ => 0
  | .node l r => max l.depth r.depth + 1

/-- The sum computed in that order. (smc.py 358, `np.sum`.) -/
def SumTree.sum {ι : Type} (radd : ℝ → ℝ → ℝ) (f : ι → ℝ) : SumTree ι → ℝ
  | .leaf i => f i
  | .node l r => radd (l.sum radd f) (r.sum radd f)

/-- `hypothetical_update` for one outcome and experiment with likelihoods `L`, smc.py 340-386: products, sum,
guard against a vanishing sum (`np.spacing(1)` is `2⁻⁵²`), quotients.  Returns weights and normalization. -/
noncomputable def hypRound {n : Nat} (rnd : ℝ → ℝ) (radd : ℝ → ℝ → ℝ) (t : SumTree (Fin n)) (w L : Fin n → ℝ) :
    (Fin n → ℝ) × ℝ :=
  let hyp : Fin n → ℝ := fun i => rnd (w i * L i)
  let norm := t.sum radd hyp
  let fixed := if |norm| < 1 / 2 ^ 52 then 1 else norm
  (fun i => rnd (hyp i / fixed), norm)

/-- Weights after several updates without resampling, smc.py 388-455: one entry per datum, with the order of
additions and the likelihoods of the particles. -/
noncomputable def roundRun {n : Nat} (rnd : ℝ → ℝ) (radd : ℝ → ℝ → ℝ) :
    List (SumTree (Fin n) × (Fin n → ℝ)) → (Fin n → ℝ) → Fin n → ℝ
  | [], w => w
  | (t, L) :: rest, w => roundRun rnd radd rest (hypRound rnd radd t w L).1

end QInfer
