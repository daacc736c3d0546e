import Verif.Model.WeightedDist
import Mathlib.Analysis.SpecialFunctions.Pow.Real

/-!
# C59: weighted distances when weights vanish
-/

namespace QInfer

variable {n : Nat}

/-- **C59, weights that vanish.**  With a positive power, such as the default `0.5`, the weighted distance of two particles is the number of the
documentation exactly if both have weight.  If one has none, it is infinite, and NaN if they are at the same place: so it is for every particle
without weight and itself. -/
theorem C59_zero_weights (base : Fin n → Fin n → ℝ) (h0 : ∀ i, base i i = 0) (w : Fin n → ℝ) (hw : ∀ i, 0 ≤ w i)
    {pow : ℝ} (hp : 0 < pow) (i j : Fin n) :
    (0 < w i → 0 < w j → weightedEntry base w pow i j = .fin (base i j / (w i * w j * (n : ℝ) ^ 2) ^ pow)) ∧
    (w i = 0 ∨ w j = 0 → 0 < base i j → weightedEntry base w pow i j = .posInf) ∧
    (w i = 0 ∨ w j = 0 → base i j = 0 → weightedEntry base w pow i j = .nan) ∧
    ((∀ i j, ∃ x, weightedEntry base w pow i j = .fin x) ↔ ∀ i, 0 < w i) := by
  have hn : (0 : ℝ) < (n : ℝ) ^ 2 := by
    have : 0 < n := lt_of_le_of_lt (Nat.zero_le _) i.2
    positivity
  have hpos : ∀ i j, 0 < w i → 0 < w j → weightedEntry base w pow i j = .fin (base i j / (w i * w j * (n : ℝ) ^ 2) ^ pow) := by
    intro i j hi hj
    have hx : 0 < w i * w j * (n : ℝ) ^ 2 := mul_pos (mul_pos hi hj) hn
    unfold weightedEntry outerProduct
    dsimp only
    rw [if_neg fun h => hx.ne' h.1, if_neg (Real.rpow_pos_of_pos hx pow).ne']
  have hzero : ∀ i j, w i = 0 ∨ w j = 0 → weightedEntry base w pow i j = if base i j = 0 then .nan else .posInf := by
    intro i j hij
    have hx : w i * w j * (n : ℝ) ^ 2 = 0 := by rcases hij with h | h <;> simp [h]
    unfold weightedEntry outerProduct
    dsimp only
    rw [hx, if_neg fun h => (not_lt.2 hp.le) h.2, if_pos (Real.zero_rpow hp.ne')]
  refine ⟨hpos i j, fun h hd => ?_, fun h hd => ?_, fun h k => ?_, fun h k l => ⟨_, hpos k l (h k) (h l)⟩⟩
  · rw [hzero i j h, if_neg hd.ne']
  · rw [hzero i j h, if_pos hd]
  · by_contra hk
    have hk0 : w k = 0 := le_antisymm (not_lt.1 hk) (hw k)
    obtain ⟨x, hx⟩ := h k k
    rw [hzero k k (.inl hk0), if_pos (h0 k)] at hx
    exact Flt.noConfusion hx

/-- **C59, other powers.**  With the power zero the weights play no role, even if they vanish; with a negative power a particle without weight is at
distance zero of every other one. -/
theorem C59_other_powers (base : Fin n → Fin n → ℝ) (w : Fin n → ℝ) (i j : Fin n) :
    weightedEntry base w 0 i j = .fin (base i j) ∧
    ∀ pow < 0, w i = 0 ∨ w j = 0 → weightedEntry base w pow i j = .fin 0 := by
  constructor
  · unfold weightedEntry
    simp
  · intro pow hp hij
    have hx : w i * w j * (n : ℝ) ^ 2 = 0 := by rcases hij with h | h <;> simp [h]
    unfold weightedEntry outerProduct
    dsimp only
    rw [if_pos ⟨hx, hp⟩]

/-- Case for C59: three particles on the line at 0, 2 and 2, the last without weight. -/
example : let x : Fin 3 → ℝ := ![0, 2, 2]
    let w : Fin 3 → ℝ := ![1 / 3, 2 / 3, 0]
    weightedEntry (fun i j => |x i - x j|) w 1 0 1 = .fin 1 ∧ weightedEntry (fun i j => |x i - x j|) w 1 0 2 = .posInf ∧
    weightedEntry (fun i j => |x i - x j|) w 1 1 2 = .nan ∧ weightedEntry (fun i j => |x i - x j|) w 1 2 2 = .nan := by
  intro x w
  have h0 : ∀ i, |x i - x i| = 0 := fun i => by simp
  have hw : ∀ i, 0 ≤ w i := fun i => by fin_cases i <;> norm_num [w]
  have w2 : w 2 = 0 := rfl
  have e0 : w 0 = 1 / 3 := rfl
  have e1 : w 1 = 2 / 3 := rfl
  have x0 : x 0 = 0 := rfl
  have x1 : x 1 = 2 := rfl
  have x2 : x 2 = 2 := rfl
  have h := fun i j => C59_zero_weights (fun i j => |x i - x j|) h0 w hw one_pos i j
  refine ⟨?_, (h 0 2).2.1 (.inr w2) ?_, (h 1 2).2.2.1 (.inr w2) ?_, (h 2 2).2.2.1 (.inr w2) (h0 2)⟩
  · rw [(h 0 1).1 (by rw [e0]; norm_num) (by rw [e1]; norm_num), x0, x1, e0, e1]
    norm_num
  · rw [x0, x2]; norm_num
  · rw [x1, x2]; norm_num

end QInfer
