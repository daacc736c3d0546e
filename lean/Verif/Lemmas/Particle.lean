import Verif.Model.Particle
import Verif.Spec.Smc
import Verif.Lemmas.Smc
import Mathlib.Tactic.Ring
import Mathlib.Tactic.FieldSimp
import Mathlib.Tactic.Linarith
import Mathlib.Tactic.Positivity
import Mathlib.Algebra.Order.BigOperators.Group.List
import Mathlib.Algebra.Order.BigOperators.Group.Finset

/-! # Lemmas about the particle distribution model -/

set_option linter.unusedSectionVars false

namespace QInfer

open Finset

section lists
variable {K : Type*} [Field K] [LinearOrder K] [IsStrictOrderedRing K]

theorem list_sum_zero {w : List K} (h0 : ∀ x ∈ w, 0 ≤ x) (h : w.sum = 0) : ∀ x ∈ w, x = 0 := by
  induction w with
  | nil => simp
  | cons a w ih =>
    have hw : 0 ≤ w.sum := List.sum_nonneg fun x hx => h0 x (by simp [hx])
    have ha := h0 a (by simp)
    rw [List.sum_cons] at h
    intro x hx
    rcases List.mem_cons.1 hx with rfl | hx
    · linarith
    · exact ih (fun x hx => h0 x (by simp [hx])) (by linarith) x hx

theorem list_le_sum {w : List K} (h0 : ∀ x ∈ w, 0 ≤ x) : ∀ x ∈ w, x ≤ w.sum := by
  induction w with
  | nil => simp
  | cons a w ih =>
    have hw : 0 ≤ w.sum := List.sum_nonneg fun x hx => h0 x (by simp [hx])
    have ha := h0 a (by simp)
    intro x hx
    rw [List.sum_cons]
    rcases List.mem_cons.1 hx with rfl | hx
    · linarith
    · have := ih (fun x hx => h0 x (by simp [hx])) x hx
      linarith

theorem list_sum_sq_sub (c : K) (w : List K) :
    (w.map fun x => (x - c) ^ 2).sum =
      (w.map fun x => x ^ 2).sum - 2 * c * w.sum + w.length * c ^ 2 := by
  induction w with
  | nil => simp
  | cons a w ih =>
    simp only [List.map_cons, List.sum_cons, List.length_cons, Nat.cast_add, Nat.cast_one, ih]
    ring

theorem list_sum_sub_sq (w : List K) :
    (w.map fun x => x - x ^ 2).sum = w.sum - (w.map fun x => x ^ 2).sum := by
  induction w with
  | nil => simp
  | cons a w ih =>
    simp only [List.map_cons, List.sum_cons, ih]
    ring

theorem getD_lt {α : Type*} (w : List α) (c : α) {i : Nat} (h : i < w.length) :
    w.getD i c = w[i] := by
  simp [h]

theorem range_getD {α : Type*} (w : List α) (c : α) :
    (List.range w.length).map (fun i => w.getD i c) = w := by
  apply List.ext_getElem
  · simp
  · intro i h1 h2
    simp only [List.getElem_map, List.getElem_range]
    exact getD_lt w c h2

/-- `np.cumsum` with a starting value. -/
def cumsumFrom (a : K) : List K → List K
  | [] => []
  | x :: w => (a + x) :: cumsumFrom (a + x) w

theorem scanl_tail (a : K) (w : List K) : (w.scanl (· + ·) a).tail = cumsumFrom a w := by
  induction w generalizing a with
  | nil => rfl
  | cons x w ih =>
    rw [List.scanl_cons, List.tail_cons, cumsumFrom, ← ih]
    cases w <;> simp [List.scanl_cons]

theorem cumsum_eq (w : List K) : cumsum w = cumsumFrom 0 w := scanl_tail 0 w

theorem cumsumFrom_length (a : K) (w : List K) : (cumsumFrom a w).length = w.length := by
  induction w generalizing a with
  | nil => rfl
  | cons x w ih => simp [cumsumFrom, ih]

theorem cumsumFrom_ge (a : K) (w : List K) (h0 : ∀ x ∈ w, 0 ≤ x) :
    ∀ c ∈ cumsumFrom a w, a ≤ c := by
  induction w generalizing a with
  | nil => simp [cumsumFrom]
  | cons x w ih =>
    intro c hc
    have hx := h0 x (by simp)
    rcases List.mem_cons.1 hc with rfl | hc
    · linarith
    · have := ih (a + x) (fun x hx => h0 x (by simp [hx])) c hc
      linarith

theorem mask_shape (a : K) (w : List K) (level : K) (h0 : ∀ x ∈ w, 0 ≤ x) (ha : a ≤ level) :
    ∃ k ≤ w.length, (cumsumFrom a w).map (fun c => decide (c ≤ level)) =
        List.replicate k true ++ List.replicate (w.length - k) false ∧
      a + (w.take k).sum ≤ level ∧ (k < w.length → level < a + (w.take (k + 1)).sum) := by
  induction w generalizing a with
  | nil => exact ⟨0, le_rfl, rfl, by simpa using ha, by simp⟩
  | cons x w ih =>
    by_cases hx : a + x ≤ level
    · obtain ⟨k, h1, h2, h3, h4⟩ := ih (a + x) (fun x hx => h0 x (by simp [hx])) hx
      refine ⟨k + 1, by simpa using h1, ?_, ?_, ?_⟩
      · rw [cumsumFrom, List.map_cons, h2]
        simp [hx, List.replicate_succ]
      · rw [List.take_succ_cons, List.sum_cons]; linarith
      · intro hk
        have := h4 (by simpa using hk)
        rw [List.take_succ_cons, List.sum_cons]; linarith
    · refine ⟨0, by simp, ?_, by simpa using ha, fun _ => ?_⟩
      · have hlt : level < a + x := not_le.1 hx
        have hall : ∀ c ∈ cumsumFrom (a + x) w, decide (c ≤ level) = false := by
          intro c hc
          have := cumsumFrom_ge (a + x) w (fun x hx => h0 x (by simp [hx])) c hc
          simp; linarith
        rw [cumsumFrom, List.map_cons, List.map_congr_left hall]
        simp [hx, List.replicate_succ, cumsumFrom_length]
      · simp; linarith [not_le.1 hx]

theorem select_shape {α : Type*} (l : List α) (k : Nat) (hk : k ≤ l.length) :
    select l (List.replicate k true ++ List.replicate (l.length - k) false) = l.take k := by
  unfold select
  induction l generalizing k with
  | nil => simp
  | cons x l ih =>
    cases k with
    | zero =>
      have : ∀ (l : List α) m, ((l.zip (List.replicate m false)).filter fun p => p.2) = [] := by
        intro l m
        rw [List.filter_eq_nil_iff]
        intro p hp
        have := (List.of_mem_zip hp).2
        simp [List.eq_of_mem_replicate this]
      simp only [List.replicate_zero, List.nil_append, this]; simp
    | succ k =>
      have := ih k (by simpa using hk)
      simp only [List.replicate_succ, List.cons_append, List.length_cons, Nat.add_sub_add_right,
        List.zip_cons_cons, List.filter_cons, if_true, List.map_cons, List.take_succ_cons] at this ⊢
      rw [this]

theorem select_shape' {α : Type*} (l : List α) (k : Nat) (hk : k ≤ l.length) :
    select l (List.replicate k false ++ List.replicate (l.length - k) true) = l.drop k := by
  unfold select
  induction l generalizing k with
  | nil => simp
  | cons x l ih =>
    cases k with
    | zero =>
      have : ∀ (l : List α), (((l.zip (List.replicate l.length true)).filter fun p => p.2).map
          fun p => p.1) = l := by
        intro l
        induction l with
        | nil => rfl
        | cons y l ih => simp [List.replicate_succ, ih]
      simpa using this (x :: l)
    | succ k =>
      have := ih k (by simpa using hk)
      simp only [List.replicate_succ, List.cons_append, List.length_cons, Nat.add_sub_add_right,
        List.zip_cons_cons, List.filter_cons, List.drop_succ_cons] at this ⊢
      simpa using this

theorem takeWhile_shape (a : K) (w : List K) (u : K) (ha : a ≤ u) :
    let k := ((cumsumFrom a w).takeWhile (fun x => decide (x ≤ u))).length
    k ≤ w.length ∧ a + (w.take k).sum ≤ u ∧ (k < w.length → u < a + (w.take (k + 1)).sum) := by
  induction w generalizing a with
  | nil => simpa [cumsumFrom] using ha
  | cons x w ih =>
    by_cases hx : a + x ≤ u
    · obtain ⟨h1, h2, h3⟩ := ih (a + x) hx
      simp only [cumsumFrom, List.takeWhile_cons, hx, decide_true, if_true, List.length_cons,
        List.take_succ_cons, List.sum_cons, ← add_assoc]
      exact ⟨by omega, h2, fun h => h3 (by omega)⟩
    · simp [cumsumFrom, List.takeWhile_cons, hx, ha, not_le.1 hx]

theorem take_sum_mono (w : List K) (h0 : ∀ x ∈ w, 0 ≤ x) {i j : Nat} (hij : i ≤ j) :
    (w.take i).sum ≤ (w.take j).sum := by
  induction w generalizing i j with
  | nil => simp
  | cons x w ih =>
    cases i with
    | zero =>
      rw [List.take_zero, List.sum_nil]
      exact List.sum_nonneg fun y hy => h0 y (List.mem_of_mem_take hy)
    | succ i =>
      cases j with
      | zero => omega
      | succ j =>
        simp only [List.take_succ_cons, List.sum_cons]
        have := ih (fun x hx => h0 x (by simp [hx])) (Nat.le_of_succ_le_succ hij)
        linarith

end lists

end QInfer
