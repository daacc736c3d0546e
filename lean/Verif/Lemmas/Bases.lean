import Verif.Model.Bases
import Verif.Spec.Tomo
import Mathlib.Algebra.BigOperators.Intervals
import Mathlib.Algebra.BigOperators.Fin
import Mathlib.Algebra.BigOperators.Field
import Mathlib.Data.List.Induction
import Mathlib.Tactic.Linarith
import Mathlib.Tactic.FieldSimp
import Mathlib.Tactic.Ring
import Mathlib.Tactic.Positivity

/-!
# Lemmas on the Gell-Mann array
-/

set_option linter.unusedSectionVars false

namespace QInfer

open Finset

/-! ## Triangular indices -/

/-- Triangular numbers. -/
def tri (i : Nat) : Nat := (i - 1) * i / 2

theorem tri_succ (i : Nat) : tri (i + 1) = tri i + i := by
  unfold tri
  cases i with
  | zero => rfl
  | succ n =>
    simp only [Nat.add_sub_cancel]
    rw [show (n + 1) * (n + 1 + 1) = n * (n + 1) + (n + 1) * 2 by ring,
      Nat.add_mul_div_right _ _ (by norm_num)]

theorem tri_mono {i k : Nat} (h : i ≤ k) : tri i ≤ tri k := by
  induction k, h using Nat.le_induction with
  | base => exact le_refl _
  | succ k _ ih => rw [tri_succ]; omega

theorem tri_lt {i j k : Nat} (hj : j < i) (hi : i < k) : tri i + j < tri k := by
  have := tri_mono (show i + 1 ≤ k from hi)
  rw [tri_succ] at this
  omega

theorem tri_inj {i j i' j' : Nat} (hj : j < i) (hj' : j' < i') (h : tri i + j = tri i' + j') :
    i = i' ∧ j = j' := by
  rcases Nat.lt_trichotomy i i' with h' | h' | h'
  · have := tri_lt hj h'; omega
  · subst h'; omega
  · have := tri_lt hj' h'; omega

theorem tri_surj (d n : Nat) (h : n < tri d) : ∃ i j, j < i ∧ i < d ∧ n = tri i + j := by
  induction d with
  | zero => simp [tri] at h
  | succ d ih =>
    rw [tri_succ] at h
    by_cases hn : n < tri d
    · obtain ⟨i, j, h1, h2, h3⟩ := ih hn
      exact ⟨i, j, h1, by omega, h3⟩
    · exact ⟨d, n - tri d, by omega, by omega, by omega⟩

theorem sq_eq_tri (d : Nat) : d ^ 2 = d + 2 * tri d := by
  induction d with
  | zero => rfl
  | succ d ih =>
    rw [tri_succ, show (d + 1) ^ 2 = d ^ 2 + 2 * d + 1 by ring, ih]
    omega

theorem tri_comm (d : Nat) : d * (d - 1) / 2 = tri d := by
  unfold tri; rw [Nat.mul_comm]

/-! ## Writes -/

/-- One write to a cell. -/
structure CellWrite where
  a : Nat
  i : Nat
  j : Nat
  v : ℂ

theorem foldl_setCell_of_eq (ws : List CellWrite) (arr : Nat → Plane) (a i j : Nat) (v : ℂ)
    (hmem : ∃ w ∈ ws, w.a = a ∧ w.i = i ∧ w.j = j)
    (hall : ∀ w ∈ ws, w.a = a → w.i = i → w.j = j → w.v = v) :
    ws.foldl (fun arr w => setCell arr w.a w.i w.j w.v) arr a i j = v := by
  induction ws using List.reverseRecOn generalizing arr with
  | nil => simp at hmem
  | append_singleton ws w ih =>
    rw [List.foldl_append]
    simp only [List.foldl_cons, List.foldl_nil]
    unfold setCell
    by_cases hc : a = w.a ∧ i = w.i ∧ j = w.j
    · rw [if_pos hc]
      exact hall w (by simp) hc.1.symm hc.2.1.symm hc.2.2.symm
    · rw [if_neg hc]
      refine ih arr ?_ fun w' hw' => hall w' (by simp [hw'])
      obtain ⟨w', hw', h1, h2, h3⟩ := hmem
      rcases List.mem_append.1 hw' with h | h
      · exact ⟨w', h, h1, h2, h3⟩
      · rw [List.mem_singleton] at h
        subst h
        exact absurd ⟨h1.symm, h2.symm, h3.symm⟩ hc

theorem foldl_setCell_of_ne (ws : List CellWrite) (arr : Nat → Plane) (a i j : Nat)
    (hall : ∀ w ∈ ws, ¬ (w.a = a ∧ w.i = i ∧ w.j = j)) :
    ws.foldl (fun arr w => setCell arr w.a w.i w.j w.v) arr a i j = arr a i j := by
  induction ws generalizing arr with
  | nil => rfl
  | cons w ws ih =>
    rw [List.foldl_cons, ih _ fun w' hw' => hall w' (by simp [hw'])]
    unfold setCell
    rw [if_neg]
    rintro ⟨h1, h2, h3⟩
    exact hall w (by simp) ⟨h1.symm, h2.symm, h3.symm⟩

/-- The writes of one pass through the body of the second loop. -/
noncomputable def offWrites (dim i j : Nat) : List CellWrite :=
  [⟨tri i + j + dim, i, j, 1 / (Real.sqrt 2 : ℂ)⟩, ⟨tri i + j + dim, j, i, 1 / (Real.sqrt 2 : ℂ)⟩,
   ⟨tri i + j + dim + tri dim, i, j, Complex.I / (Real.sqrt 2 : ℂ)⟩,
   ⟨tri i + j + dim + tri dim, j, i, -Complex.I / (Real.sqrt 2 : ℂ)⟩]

theorem gellMannOffStep_eq (dim : Nat) (arr : Nat → Plane) (i j : Nat) :
    gellMannOffStep dim arr i j =
      (offWrites dim i j).foldl (fun arr w => setCell arr w.a w.i w.j w.v) arr := by
  unfold gellMannOffStep offWrites
  simp only [List.foldl_cons, List.foldl_nil, tri_comm]
  rfl

/-- All writes of the second loop. -/
noncomputable def allWrites (dim : Nat) : List CellWrite :=
  (List.range' 1 (dim - 1)).flatMap fun i => (List.range i).flatMap fun j => offWrites dim i j

theorem mem_allWrites {dim : Nat} {w : CellWrite} :
    w ∈ allWrites dim ↔ ∃ i j, j < i ∧ i < dim ∧ w ∈ offWrites dim i j := by
  unfold allWrites
  simp only [List.mem_flatMap, List.mem_range, List.mem_range']
  constructor
  · rintro ⟨i, ⟨k, hk, rfl⟩, j, hj, hw⟩
    exact ⟨_, j, hj, by omega, hw⟩
  · rintro ⟨i, j, hj, hi, hw⟩
    exact ⟨i, ⟨i - 1, by omega, by omega⟩, j, hj, hw⟩

/-- The array after the first loop. -/
noncomputable def gmDiagArray (dim : Nat) : Nat → Plane :=
  (List.range' 1 (dim - 1)).foldl (gellMannDiagStep dim)
    (setPlane (fun _ _ _ => 0) 0 fun i j => (if i = j then 1 else 0) / (Real.sqrt (dim : ℝ) : ℂ))

theorem gellMannArray_eq (dim : Nat) :
    gellMannArray dim =
      (allWrites dim).foldl (fun arr w => setCell arr w.a w.i w.j w.v) (gmDiagArray dim) := by
  unfold gellMannArray allWrites
  rw [List.foldl_flatMap]
  have h : (fun (arr : Nat → Plane) (i : Nat) =>
      (List.range i).foldl (fun arr j => gellMannOffStep dim arr i j) arr) =
      fun arr i => ((List.range i).flatMap fun j => offWrites dim i j).foldl
        (fun arr w => setCell arr w.a w.i w.j w.v) arr := by
    funext arr i
    rw [List.foldl_flatMap]
    simp only [gellMannOffStep_eq]
  simp only [h]
  rfl

theorem foldl_diag_untouched (dim : Nat) (l : List Nat) (arr : Nat → Plane) (a : Nat)
    (h : a ∉ l) : l.foldl (gellMannDiagStep dim) arr a = arr a := by
  induction l generalizing arr with
  | nil => rfl
  | cons b l ih =>
    rw [List.foldl_cons, ih _ fun h' => h (by simp [h'])]
    unfold gellMannDiagStep setPlane
    rw [if_neg]
    rintro rfl
    exact h (by simp)

theorem foldl_diag_touched (dim : Nat) (l : List Nat) (arr : Nat → Plane) (a : Nat)
    (h : a ∈ l) : l.foldl (gellMannDiagStep dim) arr a = gellMannDiagStep dim arr a a := by
  induction l using List.reverseRecOn generalizing arr with
  | nil => simp at h
  | append_singleton l b ih =>
    rw [List.foldl_append]
    simp only [List.foldl_cons, List.foldl_nil]
    by_cases hb : a = b
    · subst hb
      unfold gellMannDiagStep setPlane
      rw [if_pos rfl, if_pos rfl]
    · have : gellMannDiagStep dim (l.foldl (gellMannDiagStep dim) arr) b a
          = l.foldl (gellMannDiagStep dim) arr a := by
        rw [gellMannDiagStep]; unfold setPlane; rw [if_neg hb]
      rw [this]
      refine ih arr ?_
      rcases List.mem_append.1 h with h | h
      · exact h
      · rw [List.mem_singleton] at h; exact absurd h hb

/-! ## The four kinds of plane -/

/-- The diagonal of plane `b < d`. -/
noncomputable def gmDiag (d b i : Nat) : ℝ :=
  if b = 0 then 1 / Real.sqrt d
  else (if i < b then 1 else if i = b then -(b : ℝ) else 0) / Real.sqrt (b + b ^ 2)

/-- A plane with two nonzero cells. -/
def offPlane (i j : Nat) (α β : ℂ) : Plane :=
  fun r c => if r = i ∧ c = j then α else if r = j ∧ c = i then β else 0

theorem gm_shape (d : Nat) :
    ¬((List.range' 1 (d - 1)).any fun b => (gellMannDiag d b).length != d) = true := by
  rw [Bool.not_eq_true, List.any_eq_false]
  intro b hb
  rw [List.mem_range'] at hb
  obtain ⟨k, hk, rfl⟩ := hb
  simp only [gellMannDiag, List.length_append, List.length_replicate, List.length_singleton, bne_iff_ne, ne_eq, not_not]
  omega

theorem gmDiagArray_low (d b : Nat) (hb : b < d) (i j : Nat) (hi : i < d) :
    gmDiagArray d b i j = if i = j then (gmDiag d b i : ℂ) else 0 := by
  unfold gmDiagArray
  by_cases h0 : b = 0
  · subst h0
    rw [foldl_diag_untouched _ _ _ _ (by rw [List.mem_range']; rintro ⟨k, hk, h⟩; omega)]
    unfold setPlane gmDiag
    rw [if_pos rfl, if_pos rfl]
    by_cases hij : i = j <;> simp [hij]
  · rw [foldl_diag_touched _ _ _ _ (by
      rw [List.mem_range']; exact ⟨b - 1, by omega, by omega⟩)]
    unfold gellMannDiagStep setPlane
    rw [if_pos rfl]
    unfold npDiag gmDiag gellMannDiag
    rw [if_neg h0]
    by_cases hij : i = j
    · rw [if_pos hij, if_pos hij]
      push_cast
      congr 1
      rw [List.append_assoc, List.getD_eq_getElem?_getD]
      by_cases h1 : i < b
      · rw [List.getElem?_append_left (by simpa using h1)]
        simp [h1]
      · rw [List.getElem?_append_right (by simpa using h1)]
        by_cases h2 : i = b
        · subst h2; simp
        · rw [List.length_replicate, List.getElem?_append_right (by simp; omega)]
          simp only [h1, h2, List.getElem?_replicate, if_false]
          split <;> rfl
    · rw [if_neg hij, if_neg hij]; simp

theorem gmDiagArray_high (d b : Nat) (hb : d ≤ b) (hd : 0 < d) : gmDiagArray d b = fun _ _ => 0 := by
  unfold gmDiagArray
  rw [foldl_diag_untouched _ _ _ _ (by rw [List.mem_range']; rintro ⟨k, hk, h⟩; omega)]
  unfold setPlane
  rw [if_neg (by omega)]

theorem mem_offWrites {dim i j : Nat} {w : CellWrite} : w ∈ offWrites dim i j ↔
    w = ⟨tri i + j + dim, i, j, 1 / (Real.sqrt 2 : ℂ)⟩ ∨
    w = ⟨tri i + j + dim, j, i, 1 / (Real.sqrt 2 : ℂ)⟩ ∨
    w = ⟨tri i + j + dim + tri dim, i, j, Complex.I / (Real.sqrt 2 : ℂ)⟩ ∨
    w = ⟨tri i + j + dim + tri dim, j, i, -Complex.I / (Real.sqrt 2 : ℂ)⟩ := by
  simp [offWrites]

theorem gellMannArray_low (d b : Nat) (hb : b < d) (i j : Nat) (hi : i < d) :
    gellMannArray d b i j = if i = j then (gmDiag d b i : ℂ) else 0 := by
  rw [gellMannArray_eq, foldl_setCell_of_ne, gmDiagArray_low d b hb i j hi]
  rintro w hw ⟨h1, -, -⟩
  obtain ⟨p, q, hq, hp, hw⟩ := mem_allWrites.1 hw
  rcases mem_offWrites.1 hw with h | h | h | h <;> subst h <;> simp only at h1 <;> omega

theorem gellMannArray_sym (d p q : Nat) (hq : q < p) (hp : p < d) :
    gellMannArray d (tri p + q + d) =
      offPlane p q (1 / (Real.sqrt 2 : ℂ)) (1 / (Real.sqrt 2 : ℂ)) := by
  funext r c
  rw [gellMannArray_eq]
  have hlt := tri_lt hq hp
  have key : ∀ w ∈ allWrites d, w.a = tri p + q + d →
      w.v = 1 / (Real.sqrt 2 : ℂ) ∧ ((w.i = p ∧ w.j = q) ∨ (w.i = q ∧ w.j = p)) := by
    intro w hw h1
    obtain ⟨p', q', hq', hp', hw⟩ := mem_allWrites.1 hw
    have hlt' := tri_lt hq' hp'
    rcases mem_offWrites.1 hw with h | h | h | h <;> subst h <;> simp only at h1 ⊢
    · obtain ⟨rfl, rfl⟩ := tri_inj hq' hq (by omega); simp
    · obtain ⟨rfl, rfl⟩ := tri_inj hq' hq (by omega); simp
    · omega
    · omega
  have hmem : ∀ w ∈ offWrites d p q, w ∈ allWrites d := fun w hw =>
    mem_allWrites.2 ⟨p, q, hq, hp, hw⟩
  unfold offPlane
  by_cases h1 : r = p ∧ c = q
  · rw [if_pos h1]
    exact foldl_setCell_of_eq _ _ _ _ _ _
      ⟨_, hmem _ (mem_offWrites.2 (Or.inl rfl)), rfl, h1.1.symm, h1.2.symm⟩
      fun w hw ha _ _ => (key w hw ha).1
  · rw [if_neg h1]
    by_cases h2 : r = q ∧ c = p
    · rw [if_pos h2]
      exact foldl_setCell_of_eq _ _ _ _ _ _
        ⟨_, hmem _ (mem_offWrites.2 (Or.inr (Or.inl rfl))), rfl, h2.1.symm, h2.2.symm⟩
        fun w hw ha _ _ => (key w hw ha).1
    · rw [if_neg h2, foldl_setCell_of_ne, gmDiagArray_high _ _ (by omega) (by omega)]
      rintro w hw ⟨ha, hi, hj⟩
      rcases (key w hw ha).2 with h | h
      · exact h1 ⟨hi ▸ h.1, hj ▸ h.2⟩
      · exact h2 ⟨hi ▸ h.1, hj ▸ h.2⟩

theorem gellMannArray_asym (d p q : Nat) (hq : q < p) (hp : p < d) :
    gellMannArray d (tri p + q + d + tri d) =
      offPlane p q (Complex.I / (Real.sqrt 2 : ℂ)) (-Complex.I / (Real.sqrt 2 : ℂ)) := by
  funext r c
  rw [gellMannArray_eq]
  have hlt := tri_lt hq hp
  have key : ∀ w ∈ allWrites d, w.a = tri p + q + d + tri d →
      ((w.i = p ∧ w.j = q ∧ w.v = Complex.I / (Real.sqrt 2 : ℂ)) ∨
        (w.i = q ∧ w.j = p ∧ w.v = -Complex.I / (Real.sqrt 2 : ℂ))) := by
    intro w hw h1
    obtain ⟨p', q', hq', hp', hw⟩ := mem_allWrites.1 hw
    have hlt' := tri_lt hq' hp'
    rcases mem_offWrites.1 hw with h | h | h | h <;> subst h <;> simp only at h1 ⊢
    · omega
    · omega
    · obtain ⟨rfl, rfl⟩ := tri_inj hq' hq (by omega); simp
    · obtain ⟨rfl, rfl⟩ := tri_inj hq' hq (by omega); simp
  have hmem : ∀ w ∈ offWrites d p q, w ∈ allWrites d := fun w hw =>
    mem_allWrites.2 ⟨p, q, hq, hp, hw⟩
  unfold offPlane
  by_cases h1 : r = p ∧ c = q
  · rw [if_pos h1]
    refine foldl_setCell_of_eq _ _ _ _ _ _
      ⟨_, hmem _ (mem_offWrites.2 (Or.inr (Or.inr (Or.inl rfl)))), rfl, h1.1.symm, h1.2.symm⟩
      fun w hw ha hi hj => ?_
    rcases key w hw ha with h | h
    · exact h.2.2
    · exfalso; have := h.1; have := h.2.1; omega
  · rw [if_neg h1]
    by_cases h2 : r = q ∧ c = p
    · rw [if_pos h2]
      refine foldl_setCell_of_eq _ _ _ _ _ _
        ⟨_, hmem _ (mem_offWrites.2 (Or.inr (Or.inr (Or.inr rfl)))), rfl, h2.1.symm, h2.2.symm⟩
        fun w hw ha hi hj => ?_
      rcases key w hw ha with h | h
      · exfalso; have := h.1; have := h.2.1; omega
      · exact h.2.2
    · rw [if_neg h2, foldl_setCell_of_ne, gmDiagArray_high _ _ (by omega) (by omega)]
      rintro w hw ⟨ha, hi, hj⟩
      rcases key w hw ha with h | h
      · exact h1 ⟨hi ▸ h.1, hj ▸ h.2.1⟩
      · exact h2 ⟨hi ▸ h.1, hj ▸ h.2.1⟩

/-- Every index below `d²` is of one of the three kinds. -/
theorem gm_classify (d a : Nat) (ha : a < d ^ 2) :
    a < d ∨ (∃ p q, q < p ∧ p < d ∧ a = tri p + q + d) ∨
      (∃ p q, q < p ∧ p < d ∧ a = tri p + q + d + tri d) := by
  rw [sq_eq_tri] at ha
  by_cases h1 : a < d
  · exact Or.inl h1
  · by_cases h2 : a < d + tri d
    · obtain ⟨p, q, hq, hp, h⟩ := tri_surj d (a - d) (by omega)
      exact Or.inr (Or.inl ⟨p, q, hq, hp, by omega⟩)
    · obtain ⟨p, q, hq, hp, h⟩ := tri_surj d (a - d - tri d) (by omega)
      exact Or.inr (Or.inr ⟨p, q, hq, hp, by omega⟩)

/-! ## Inner products -/

/-- The trace inner product of two planes. -/
noncomputable def inner' (d : Nat) (f g : Plane) : ℂ :=
  ∑ i ∈ range d, ∑ j ∈ range d, (starRingEnd ℂ) (f i j) * g i j

theorem trace_eq_inner' (d : Nat) (f g : Plane) :
    Matrix.trace ((Spec.mat d f).conjTranspose * Spec.mat d g) = inner' d f g := by
  unfold inner' Matrix.trace
  simp only [Matrix.diag_apply, Matrix.mul_apply, Matrix.conjTranspose_apply, Spec.mat,
    Matrix.of_apply]
  rw [sum_comm, Finset.sum_range]
  refine sum_congr rfl fun i _ => ?_
  rw [Finset.sum_range]
  rfl

theorem inner'_diag (d : Nat) (f g : Nat → ℝ) (F G : Plane)
    (hF : ∀ i < d, ∀ j, F i j = if i = j then (f i : ℂ) else 0)
    (hG : ∀ i < d, ∀ j, G i j = if i = j then (g i : ℂ) else 0) :
    inner' d F G = ((∑ i ∈ range d, f i * g i : ℝ) : ℂ) := by
  unfold inner'
  push_cast
  refine sum_congr rfl fun i hi => ?_
  rw [mem_range] at hi
  rw [sum_eq_single i]
  · rw [hF i hi, hG i hi, if_pos rfl, if_pos rfl, Complex.conj_ofReal]
  · intro j _ hj
    rw [hG i hi, if_neg (Ne.symm hj), mul_zero]
  · intro h; exact absurd (mem_range.2 hi) h

theorem inner'_off (d p q : Nat) (hp : p < d) (hq : q < p) (α β : ℂ) (G : Plane) :
    inner' d (offPlane p q α β) G =
      (starRingEnd ℂ) α * G p q + (starRingEnd ℂ) β * G q p := by
  unfold inner'
  have : ∀ i j, (starRingEnd ℂ) (offPlane p q α β i j) * G i j =
      (if i = p then if j = q then (starRingEnd ℂ) α * G p q else 0 else 0) +
      (if i = q then if j = p then (starRingEnd ℂ) β * G q p else 0 else 0) := by
    intro i j
    unfold offPlane
    by_cases h1 : i = p
    · subst h1
      rw [if_pos rfl, if_neg (show ¬ i = q by omega)]
      by_cases h2 : j = q
      · subst h2; simp
      · rw [if_neg (by simp [h2]), if_neg (by omega), if_neg h2]; simp
    · rw [if_neg h1, if_neg (by simp [h1])]
      by_cases h2 : i = q
      · subst h2
        rw [if_pos rfl]
        by_cases h3 : j = p
        · subst h3; simp
        · rw [if_neg (by simp [h3]), if_neg h3]; simp
      · rw [if_neg (by simp [h2]), if_neg h2]; simp
  simp only [this, sum_add_distrib]
  congr 1
  · rw [sum_eq_single p, sum_eq_single q]
    · simp
    · intro j _ hj; simp [hj]
    · intro h; exact absurd (mem_range.2 (by omega)) h
    · intro i _ hi; simp [hi]
    · intro h; exact absurd (mem_range.2 hp) h
  · rw [sum_eq_single q, sum_eq_single p]
    · simp
    · intro j _ hj; simp [hj]
    · intro h; exact absurd (mem_range.2 hp) h
    · intro i _ hi; simp [hi]
    · intro h; exact absurd (mem_range.2 (by omega)) h

theorem inner'_conj (d : Nat) (f g : Plane) :
    inner' d g f = (starRingEnd ℂ) (inner' d f g) := by
  unfold inner'
  simp only [map_sum, map_mul, Complex.conj_conj]
  exact sum_congr rfl fun i _ => sum_congr rfl fun j _ => mul_comm _ _

theorem sum_gmDiag_zero (d b : Nat) (hb : b < d) :
    ∑ i ∈ range d, (if i < b then (1 : ℝ) else if i = b then -(b : ℝ) else 0) = 0 := by
  rw [← sum_range_add_sum_Ico _ (show b + 1 ≤ d from hb)]
  rw [sum_range_succ, sum_congr rfl (fun i hi => if_pos (mem_range.1 hi))]
  rw [sum_eq_zero (s := Ico (b + 1) d)]
  · simp
  · intro i hi
    rw [mem_Ico] at hi
    rw [if_neg (by omega), if_neg (by omega)]

theorem sum_gmDiag_prod (d b c : Nat) (hbc : b < c) (hc : c < d) :
    ∑ i ∈ range d, (if i < b then (1 : ℝ) else if i = b then -(b : ℝ) else 0) *
      (if i < c then (1 : ℝ) else if i = c then -(c : ℝ) else 0) = 0 := by
  refine Eq.trans (sum_congr rfl fun i _ => ?_) (sum_gmDiag_zero d b (by omega))
  by_cases h1 : i ≤ b
  · rw [if_pos (show i < c by omega), mul_one]
  · rw [if_neg (by omega), if_neg (by omega), zero_mul]

theorem sum_gmDiag_sq (d b : Nat) (hb : b < d) :
    ∑ i ∈ range d, (if i < b then (1 : ℝ) else if i = b then -(b : ℝ) else 0) *
      (if i < b then (1 : ℝ) else if i = b then -(b : ℝ) else 0) = b + b ^ 2 := by
  rw [← sum_range_add_sum_Ico _ (show b + 1 ≤ d from hb), sum_range_succ,
    sum_congr rfl (g := fun _ => (1 : ℝ)) (fun i hi => by simp [mem_range.1 hi]),
    sum_eq_zero (s := Ico (b + 1) d)]
  · simp; ring
  · intro i hi
    rw [mem_Ico] at hi
    rw [if_neg (by omega), if_neg (by omega), zero_mul]

theorem sum_gmDiag (d b c : Nat) (hb : b < d) (hc : c < d) :
    ∑ i ∈ range d, gmDiag d b i * gmDiag d c i = if b = c then 1 else 0 := by
  have hd : (0 : ℝ) < d := by exact_mod_cast (show 0 < d by omega)
  have aux : ∀ b c, b < c → c < d → ∑ i ∈ range d, gmDiag d b i * gmDiag d c i = 0 := by
    intro b c hbc hc
    unfold gmDiag
    by_cases h0 : b = 0
    · simp only [h0, if_true, if_neg (show ¬ c = 0 by omega)]
      rw [← mul_sum, ← sum_div, sum_gmDiag_zero d c hc]
      simp
    · simp only [h0, if_false, if_neg (show ¬ c = 0 by omega)]
      simp only [div_mul_div_comm]
      rw [← sum_div, sum_gmDiag_prod d b c hbc hc, zero_div]
  rcases Nat.lt_trichotomy b c with h | h | h
  · rw [if_neg (by omega), aux b c h hc]
  · subst h
    rw [if_pos rfl]
    unfold gmDiag
    by_cases h0 : b = 0
    · simp only [h0, if_true]
      rw [sum_const, card_range, nsmul_eq_mul, div_mul_div_comm, Real.mul_self_sqrt hd.le]
      field_simp
    · simp only [h0, if_false, div_mul_div_comm]
      have hb0 : (0 : ℝ) < b := by exact_mod_cast Nat.pos_of_ne_zero h0
      rw [← sum_div, sum_gmDiag_sq d b hb, Real.mul_self_sqrt (by positivity)]
      exact div_self (by positivity)
  · rw [if_neg (by omega)]
    simp_rw [mul_comm (gmDiag d b _)]
    exact aux c b h hb

theorem inv_sqrt_two_mul : (1 / (Real.sqrt 2 : ℂ)) * (1 / (Real.sqrt 2 : ℂ)) = 1 / 2 := by
  rw [div_mul_div_comm, ← Complex.ofReal_mul, Real.mul_self_sqrt (by norm_num)]
  norm_num

/-- The inner product of two off-diagonal planes whose entries are `u/√2` for a unit `u`. -/
theorem offPlane_apply_swap (p q p' q' : Nat) (hq : q < p) (hq' : q' < p') (α β : ℂ) :
    offPlane p' q' α β p q = (if p = p' ∧ q = q' then α else 0) ∧
    offPlane p' q' α β q p = (if p = p' ∧ q = q' then β else 0) := by
  unfold offPlane
  constructor
  · by_cases h : p = p' ∧ q = q'
    · rw [if_pos h, if_pos h]
    · rw [if_neg h, if_neg h, if_neg (by omega)]
  · rw [if_neg (by omega)]
    by_cases h : p = p' ∧ q = q'
    · rw [if_pos h, if_pos ⟨h.2, h.1⟩]
    · rw [if_neg h, if_neg (by tauto)]

theorem gm_inner (d a b : Nat) (ha : a < d ^ 2) (hb : b < d ^ 2) :
    inner' d (gellMannArray d a) (gellMannArray d b) = if a = b then 1 else 0 := by
  have h2 := inv_sqrt_two_mul
  have lowoff : ∀ a, a < d → ∀ p q, q < p → p < d → ∀ α β,
      inner' d (offPlane p q α β) (gellMannArray d a) = 0 := by
    intro a ha p q hq hp α β
    rw [inner'_off d p q hp hq, gellMannArray_low d a ha p q hp,
      gellMannArray_low d a ha q p (by omega), if_neg (by omega), if_neg (by omega)]
    simp
  have offoff : ∀ p q p' q', q < p → p < d → q' < p' → p' < d → ∀ α β α' β',
      inner' d (offPlane p q α β) (offPlane p' q' α' β') =
        if p = p' ∧ q = q' then (starRingEnd ℂ) α * α' + (starRingEnd ℂ) β * β' else 0 := by
    intro p q p' q' hq hp hq' hp' α β α' β'
    rw [inner'_off d p q hp hq, (offPlane_apply_swap p q p' q' hq hq' α' β').1,
      (offPlane_apply_swap p q p' q' hq hq' α' β').2]
    split <;> simp
  have hI : (starRingEnd ℂ) (1 / (Real.sqrt 2 : ℂ)) = 1 / (Real.sqrt 2 : ℂ) := by
    simp [Complex.conj_ofReal]
  have hII : (starRingEnd ℂ) (Complex.I / (Real.sqrt 2 : ℂ)) = -Complex.I / (Real.sqrt 2 : ℂ) := by
    simp [Complex.conj_ofReal]
  have hIII : (starRingEnd ℂ) (-Complex.I / (Real.sqrt 2 : ℂ)) = Complex.I / (Real.sqrt 2 : ℂ) := by
    simp [Complex.conj_ofReal]
  rcases gm_classify d a ha with h | ⟨p, q, hq, hp, rfl⟩ | ⟨p, q, hq, hp, rfl⟩ <;>
    rcases gm_classify d b hb with h' | ⟨p', q', hq', hp', rfl⟩ | ⟨p', q', hq', hp', rfl⟩
  · rw [inner'_diag d (gmDiag d a) (gmDiag d b) _ _
      (fun i hi j => gellMannArray_low d a h i j hi) (fun i hi j => gellMannArray_low d b h' i j hi),
      sum_gmDiag d a b h h']
    split <;> simp
  · rw [gellMannArray_sym d p' q' hq' hp', inner'_conj, lowoff a h p' q' hq' hp', map_zero,
      if_neg (by omega)]
  · rw [gellMannArray_asym d p' q' hq' hp', inner'_conj, lowoff a h p' q' hq' hp', map_zero,
      if_neg (by omega)]
  · rw [gellMannArray_sym d p q hq hp, lowoff b h' p q hq hp, if_neg (by omega)]
  · rw [gellMannArray_sym d p q hq hp, gellMannArray_sym d p' q' hq' hp',
      offoff p q p' q' hq hp hq' hp', hI, h2]
    by_cases h : p = p' ∧ q = q'
    · rw [if_pos h, if_pos (by rw [h.1, h.2])]; norm_num
    · rw [if_neg h, if_neg fun h' => h (tri_inj hq hq' (by omega))]
  · have := tri_lt hq hp
    rw [gellMannArray_sym d p q hq hp, gellMannArray_asym d p' q' hq' hp',
      offoff p q p' q' hq hp hq' hp', hI, if_neg (show ¬ (tri p + q + d = _) by omega)]
    split
    · ring
    · rfl
  · rw [gellMannArray_asym d p q hq hp, lowoff b h' p q hq hp, if_neg (by omega)]
  · have := tri_lt hq' hp'
    rw [gellMannArray_asym d p q hq hp, gellMannArray_sym d p' q' hq' hp',
      offoff p q p' q' hq hp hq' hp', hII, hIII, if_neg (show ¬ (tri p + q + d + tri d = _) by omega)]
    split
    · ring
    · rfl
  · rw [gellMannArray_asym d p q hq hp, gellMannArray_asym d p' q' hq' hp',
      offoff p q p' q' hq hp hq' hp', hII, hIII]
    by_cases h : p = p' ∧ q = q'
    · rw [if_pos h, if_pos (by rw [h.1, h.2])]
      have : -Complex.I / (Real.sqrt 2 : ℂ) * (Complex.I / (Real.sqrt 2 : ℂ)) +
          Complex.I / (Real.sqrt 2 : ℂ) * (-Complex.I / (Real.sqrt 2 : ℂ)) =
          -(2 * (Complex.I * Complex.I)) *
            ((1 / (Real.sqrt 2 : ℂ)) * (1 / (Real.sqrt 2 : ℂ))) := by ring
      rw [this, h2, Complex.I_mul_I]; norm_num
    · rw [if_neg h, if_neg fun h' => h (tri_inj hq hq' (by omega))]

theorem gm_herm (d a : Nat) (ha : a < d ^ 2) (i j : Nat) (hi : i < d) (hj : j < d) :
    (starRingEnd ℂ) (gellMannArray d a j i) = gellMannArray d a i j := by
  rcases gm_classify d a ha with h | ⟨p, q, hq, hp, rfl⟩ | ⟨p, q, hq, hp, rfl⟩
  · rw [gellMannArray_low d a h j i hj, gellMannArray_low d a h i j hi]
    by_cases hij : i = j
    · subst hij; rw [if_pos rfl, Complex.conj_ofReal]
    · rw [if_neg hij, if_neg (Ne.symm hij), map_zero]
  · rw [gellMannArray_sym d p q hq hp]
    unfold offPlane
    by_cases h1 : i = p ∧ j = q
    · rw [if_pos h1, if_neg (by omega), if_pos ⟨h1.2, h1.1⟩]; simp [Complex.conj_ofReal]
    · rw [if_neg h1]
      by_cases h2 : i = q ∧ j = p
      · rw [if_pos ⟨h2.2, h2.1⟩, if_pos h2]; simp [Complex.conj_ofReal]
      · rw [if_neg (by tauto), if_neg (by tauto), if_neg h2, map_zero]
  · rw [gellMannArray_asym d p q hq hp]
    unfold offPlane
    by_cases h1 : i = p ∧ j = q
    · rw [if_pos h1, if_neg (by omega), if_pos ⟨h1.2, h1.1⟩]; simp [Complex.conj_ofReal]
    · rw [if_neg h1]
      by_cases h2 : i = q ∧ j = p
      · rw [if_pos ⟨h2.2, h2.1⟩, if_pos h2]; simp [Complex.conj_ofReal]
      · rw [if_neg (by tauto), if_neg (by tauto), if_neg h2, map_zero]

theorem gm_isTomoBasis (d : Nat) (hd : 0 < d) :
    Spec.IsTomoBasis d ((List.range (d ^ 2)).map (gellMannArray d)) where
  len := by simp [pow_two]
  herm := by
    intro f hf
    obtain ⟨a, ha, rfl⟩ := List.mem_map.1 hf
    ext i j
    exact gm_herm d a (List.mem_range.1 ha) i j i.2 j.2
  ortho := by
    intro a b ha hb
    rw [trace_eq_inner']
    simp only [List.getElem_map, List.getElem_range]
    simp only [List.length_map, List.length_range] at ha hb
    exact gm_inner d a b ha hb
  first := by
    intro h
    ext i j
    simp only [List.getElem_map, List.getElem_range, Spec.mat, Matrix.of_apply, Matrix.smul_apply,
      smul_eq_mul]
    rw [gellMannArray_low d 0 hd i j i.2]
    by_cases hij : i = j
    · subst hij; simp [gmDiag]
    · have : (i : Nat) ≠ j := fun h => hij (Fin.ext h)
      rw [if_neg this, Matrix.one_apply_ne hij, mul_zero]

end QInfer
