import Verif.Model.Cost
import Mathlib.Tactic

/-!
# C159: costs in experiment design
-/

namespace QInfer

/-- `e` is at least as good as `e'` by `f`. -/
def Spec.Prefers {E : Type*} (f : E → ℝ) (e e' : E) : Prop := f e ≤ f e'

/-- One number per experiment: per entry of a plain array, or per entry of the first field of a record array. -/
def Spec.PerExperiment (r : List ℝ) : EpArr ℝ → Prop
  | .plain xs => r.length = xs.length
  | .record [] => r = []
  | .record (f :: _) => r.length = f.2.length

/-- **C159, the default cost.**  The default `experiment_cost` is one for each experiment.  With it the objective of each experiment is its risk plus
`cost_scale_k`, or its risk itself if costs multiply; so experiments compare by their risks alone. -/
theorem C159_default (costMult : Bool) (k : ℝ) (risk : EpArr ℝ → Except PyErr (List ℝ)) (eps : EpArr ℝ) (r : List ℝ)
    (hr : risk eps = .ok r) (hper : Spec.PerExperiment r eps) :
    defaultCost eps.experiments = List.replicate r.length (1 : ℝ) ∧ ∃ f, designObjective costMult k risk (fun eps => .ok (defaultCost eps.experiments)) eps = .ok f ∧
      f = r.map (fun x => if costMult then x else x + k) ∧
      ∀ (i j : ℕ) (hi : i < f.length) (hj : j < f.length) (hi' : i < r.length) (hj' : j < r.length),
        f[i] ≤ f[j] ↔ r[i] ≤ r[j] := by
  have hlen : (defaultCost (K := ℝ) eps.experiments).length = r.length := by
    rcases eps with xs | (_ | ⟨f, fs⟩) <;> simp_all [Spec.PerExperiment, EpArr.experiments, defaultCost]
  have hf : List.zipWith (costObjective costMult k) r (defaultCost eps.experiments) =
      r.map (fun x => if costMult then x else x + k) := by
    apply List.ext_getElem
    · simp [hlen]
    · intro i h1 h2
      cases costMult <;> simp [defaultCost, costObjective]
  refine ⟨List.eq_replicate_iff.2 ⟨hlen, fun b hb => ?_⟩, r.map (fun x => if costMult then x else x + k), ?_, rfl, ?_⟩
  · simp only [defaultCost, List.mem_map] at hb
    exact hb.elim fun _ h => h.2.symm
  · simp only [designObjective, hr, bind, Except.bind, hf]
  · intro i j hi hj hi' hj'
    cases costMult <;> simp

/-- **C159, the linear cost.**  With `LinearCostModelMixin` the cost of an experiment is its field `t`: the objective is
`risk + k t`, or `risk t^k`.  Without that field it raises `ValueError`, and for experiments that are plain numbers, as
those of `SimplePrecessionModel`, `IndexError`. -/
theorem C159_linear (costMult : Bool) (k : ℝ) (risk : EpArr ℝ → Except PyErr (List ℝ)) (r : List ℝ) :
    (∀ before after ts, (∀ f ∈ before, f.1 ≠ "t") → risk (.record (before ++ ("t", ts) :: after)) = .ok r →
      designObjective costMult k risk linearCost (.record (before ++ ("t", ts) :: after)) =
        .ok (List.zipWith (fun x t => if costMult then x * t ^ k else x + k * t) r ts)) ∧
    (∀ fs, (∀ f ∈ fs, f.1 ≠ "t") → risk (.record fs) = .ok r →
      designObjective costMult k risk linearCost (.record fs) = .error .valueError) ∧
    (∀ xs, risk (.plain xs) = .ok r → designObjective costMult k risk linearCost (.plain xs) = .error .indexError) := by
  refine ⟨fun before after ts hb hr => ?_, fun fs hf hr => ?_, fun xs hr => ?_⟩
  · have hfind : (before ++ ("t", ts) :: after).find? (fun f => f.1 == "t") = some ("t", ts) := by
      rw [List.find?_append, List.find?_eq_none.2 (fun f hf => by simpa using hb f hf)]
      simp
    simp only [designObjective, hr, bind, Except.bind, linearCost, EpArr.field, hfind]
    rfl
  · have hfind : fs.find? (fun f => f.1 == "t") = none := List.find?_eq_none.2 fun f h => by simpa using hf f h
    simp only [designObjective, hr, bind, Except.bind, linearCost, EpArr.field, hfind]
  · simp only [designObjective, hr, bind, Except.bind, linearCost, EpArr.field]

/-- **C159, units of cost.**  Multiplied costs may be given in any unit: the comparison of experiments does not change.
Added costs in another unit are the same as another `cost_scale_k`; a cost common to all experiments does not matter. -/
theorem C159_units {E : Type*} (risk cost : E → ℝ) (hc : ∀ e, 0 ≤ cost e) (k : ℝ) (e e' : E) :
    (∀ s, 0 < s → (Spec.Prefers (fun e => costObjective true k (risk e) (s * cost e)) e e' ↔
      Spec.Prefers (fun e => costObjective true k (risk e) (cost e)) e e')) ∧
    (∀ s, costObjective false k (risk e) (s * cost e) = costObjective false (s * k) (risk e) (cost e)) ∧
    (∀ b, Spec.Prefers (fun e => costObjective false k (risk e) (b + cost e)) e e' ↔
      Spec.Prefers (fun e => costObjective false k (risk e) (cost e)) e e') := by
  refine ⟨fun s hs => ?_, fun s => ?_, fun b => ?_⟩
  · simp only [Spec.Prefers, costObjective, if_true]
    rw [Real.mul_rpow hs.le (hc e), Real.mul_rpow hs.le (hc e')]
    have hp : 0 < s ^ k := Real.rpow_pos_of_pos hs k
    rw [mul_left_comm, mul_left_comm (risk e')]
    exact mul_le_mul_iff_right₀ hp
  · simp only [costObjective, Bool.false_eq_true, if_false]; ring
  · simp only [Spec.Prefers, costObjective, Bool.false_eq_true, if_false]
    constructor <;> intro h <;> linarith

/-- With added costs the unit does matter: seconds and minutes may choose differently. -/
theorem C159_units_added : ∃ (risk cost : Bool → ℝ), (∀ e, 0 < risk e ∧ 0 < cost e) ∧
    Spec.Prefers (fun e => costObjective false 1 (risk e) (cost e)) true false ∧
    ¬ Spec.Prefers (fun e => costObjective false 1 (risk e) (60 * cost e)) true false := by
  refine ⟨fun e => if e then 1 else 3, fun e => if e then 2 else 1, fun e => by cases e <;> norm_num, ?_, ?_⟩
  · norm_num [Spec.Prefers, costObjective]
  · norm_num [Spec.Prefers, costObjective]

/-- **C159, dearer time.**  An experiment that is cheaper and preferred stays preferred if `cost_scale_k` grows; and if
`cost_scale_k` is large enough, the cheaper of two experiments is preferred, whatever the risks. -/
theorem C159_scale {E : Type*} (costMult : Bool) (risk cost : E → ℝ) (hr : ∀ e, 0 < risk e) (hc : ∀ e, 0 < cost e)
    (e e' : E) :
    (∀ k k', k ≤ k' → cost e ≤ cost e' → Spec.Prefers (fun e => costObjective costMult k (risk e) (cost e)) e e' →
      Spec.Prefers (fun e => costObjective costMult k' (risk e) (cost e)) e e') ∧
    (cost e < cost e' → ∃ k₀, ∀ k, k₀ < k →
      ¬ Spec.Prefers (fun e => costObjective costMult k (risk e) (cost e)) e' e) ∧
    (∀ e e', Spec.Prefers (fun e => costObjective costMult 0 (risk e) (cost e)) e e' ↔ risk e ≤ risk e') := by
  cases costMult with
  | false =>
    simp only [Spec.Prefers, costObjective, Bool.false_eq_true, if_false]
    refine ⟨fun k k' hk hcc h => ?_, fun hcc => ⟨(risk e - risk e') / (cost e' - cost e), fun k hk => ?_⟩, fun e e' => by simp⟩
    · nlinarith
    · rw [div_lt_iff₀ (by linarith)] at hk
      rw [not_le]; linarith
  | true =>
    simp only [Spec.Prefers, costObjective, if_true]
    have hpos : ∀ e (k : ℝ), 0 < cost e ^ k := fun e k => Real.rpow_pos_of_pos (hc e) k
    -- compare logarithms
    have hlog : ∀ e e' (k : ℝ), risk e * cost e ^ k ≤ risk e' * cost e' ^ k ↔
        Real.log (risk e) + k * Real.log (cost e) ≤ Real.log (risk e') + k * Real.log (cost e') := by
      intro e e' k
      rw [← Real.log_le_log_iff (mul_pos (hr e) (hpos e k)) (mul_pos (hr e') (hpos e' k)),
        Real.log_mul (hr e).ne' (hpos e k).ne', Real.log_mul (hr e').ne' (hpos e' k).ne', Real.log_rpow (hc e),
        Real.log_rpow (hc e')]
    simp only [hlog]
    refine ⟨fun k k' hk hcc h => ?_, fun hcc => ?_, fun e e' => ?_⟩
    · have := Real.log_le_log (hc e) hcc
      nlinarith
    · have hl := Real.log_lt_log (hc e) hcc
      refine ⟨(Real.log (risk e) - Real.log (risk e')) / (Real.log (cost e') - Real.log (cost e)), fun k hk => ?_⟩
      rw [div_lt_iff₀ (by linarith)] at hk
      rw [not_le]; linarith
    · rw [zero_mul, zero_mul, add_zero, add_zero, Real.log_le_log_iff (hr e) (hr e')]

/-- Case for C159: two experiments of times 1 and 4 and risks 3 and 2. -/
example : designObjective false (1 / 2) (fun _ => .ok [3, 2]) linearCost (.record [("w", [0, 0]), ("t", [1, 4])]) =
      .ok [3 + 1 / 2 * 1, 2 + 1 / 2 * 4] ∧
    designObjective true 2 (fun _ => .ok [3, 2]) linearCost (.record [("w", [0, 0]), ("t", [1, 4])]) =
      .ok [3 * (1 : ℝ) ^ (2 : ℝ), 2 * (4 : ℝ) ^ (2 : ℝ)] ∧
    ∃ f, designObjective false 5 (fun _ => .ok [3, 2]) (fun eps => .ok (defaultCost eps.experiments)) (.plain [1, 4]) =
      .ok f ∧ f = [8, 7] := by
  refine ⟨?_, ?_, ?_⟩
  · simpa using (C159_linear false (1 / 2) (fun _ => .ok [3, 2]) [3, 2]).1 [("w", [0, 0])] [] [1, 4] (by simp) rfl
  · simpa using (C159_linear true 2 (fun _ => .ok [3, 2]) [3, 2]).1 [("w", [0, 0])] [] [1, 4] (by simp) rfl
  · obtain ⟨-, f, h1, h2, -⟩ := C159_default false 5 (fun _ => .ok [3, 2]) (.plain [1, 4]) [3, 2] rfl rfl
    exact ⟨f, h1, by rw [h2]; norm_num⟩

/-- Case for the scale: at `k = 1` the longer experiment is preferred, at large `k` the shorter. -/
example : ∃ k₀ : ℝ, ∀ k, k₀ < k → ¬ Spec.Prefers (fun e : Bool => costObjective true k (if e then 100 else 1)
    (if e then 1 else 4)) false true :=
  (C159_scale true (fun e : Bool => if e then (100 : ℝ) else 1) (fun e => if e then (1 : ℝ) else 4)
    (fun e => by cases e <;> norm_num) (fun e => by cases e <;> norm_num) true false).2.1 (by norm_num)

end QInfer
