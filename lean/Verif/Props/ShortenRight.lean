import Verif.Model.PerfTest
import Mathlib.Data.List.GetD

/-!
# C83: `shorten_right` and `promote_dims_left`
-/

set_option linter.unusedSectionVars false

namespace QInfer

variable {α : Type*}

/-- Length of axis `j` of `a` seen as an array with `D` axes: missing axes are on the left and have
length one. -/
def Spec.axisLen (D : Nat) (a : NdArr α) (j : Nat) : Nat :=
  if j < D - a.shape.length then 1 else a.shape.getD (j - (D - a.shape.length)) 0

/-- `m` is the smallest of the values of `f` on the list. -/
def Spec.Smallest {β : Type*} (l : List β) (f : β → Nat) (m : Nat) : Prop :=
  (∀ b ∈ l, m ≤ f b) ∧ ∃ b ∈ l, m = f b

theorem minOf_smallest {β : Type*} (l : List β) (f : β → Nat) (h : l ≠ []) :
    Spec.Smallest l f (minOf (l.map f)) := by
  induction l with
  | nil => exact absurd rfl h
  | cons a l ih =>
    rcases l with _ | ⟨b, l⟩
    · exact ⟨by simp [minOf], a, by simp, by simp [minOf]⟩
    · obtain ⟨h1, c, hc, h2⟩ := ih (by simp)
      simp only [List.map_cons, minOf] at h1 h2 ⊢
      constructor
      · intro x hx
        rcases List.mem_cons.1 hx with rfl | hx
        · exact min_le_left _ _
        · exact (min_le_right _ _).trans (h1 x hx)
      · rcases le_total (f a) (minOf (f b :: List.map f l)) with hle | hle
        · exact ⟨a, by simp, min_eq_left hle⟩
        · exact ⟨c, by simp [List.mem_cons.1 hc], by rw [min_eq_right hle, h2]⟩

theorem foldl_maxNat_spec (l : List Nat) (z : Nat) :
    z ≤ l.foldl max z ∧ (∀ x ∈ l, x ≤ l.foldl max z) ∧ (l.foldl max z = z ∨ l.foldl max z ∈ l) := by
  induction l generalizing z with
  | nil => simp
  | cons a l ih =>
    obtain ⟨h1, h2, h3⟩ := ih (max z a)
    simp only [List.foldl_cons]
    refine ⟨(le_max_left _ _).trans h1, fun x hx => ?_, ?_⟩
    · rcases List.mem_cons.1 hx with rfl | hx
      · exact (le_max_right _ _).trans h1
      · exact h2 x hx
    · rcases h3 with h3 | h3
      · rcases le_total z a with hz | hz
        · right; rw [h3, max_eq_right hz]; simp
        · left; rw [h3, max_eq_left hz]
      · right; exact List.mem_cons_of_mem _ h3

/-- C83: `promote_dims_left` gives at least the number of axes asked for, inserting axes of length one
on the left; the entries are unchanged. -/
theorem C83_promote (a : NdArr α) (D : Nat) :
    let b := a.promoteLeft D;
    b.shape.length = max D a.shape.length ∧
    (∀ j < D - a.shape.length, b.shape.getD j 0 = 1) ∧
    (∀ j, b.shape.getD (j + (D - a.shape.length)) 0 = a.shape.getD j 0) ∧
    ∀ idx : List Nat, b.get idx = a.get (idx.drop (D - a.shape.length)) := by
  simp only [NdArr.promoteLeft]
  split
  · rename_i h
    refine ⟨by simp; omega, fun j hj => ?_, fun j => ?_, fun _ => rfl⟩
    · rw [List.getD_append _ _ _ _ (by simpa using hj)]
      rw [List.getD_eq_getElem _ _ (by simpa using hj)]
      simp
    · rw [List.getD_append_right _ _ _ _ (by simp)]
      simp
  · rename_i h
    have h0 : D - a.shape.length = 0 := by omega
    refine ⟨by omega, fun j hj => by omega, fun j => by rw [h0, add_zero], fun idx => by rw [h0]; rfl⟩

theorem promote_axis (a : NdArr α) (D : Nat) (_h : a.shape.length ≤ D) (j : Nat) :
    (a.promoteLeft D).shape.getD j 0 = Spec.axisLen D a j := by
  obtain ⟨-, h1, h2, -⟩ := C83_promote a D
  rw [Spec.axisLen]
  split
  · exact h1 j ‹_›
  · have := h2 (j - (D - a.shape.length))
    rw [Nat.sub_add_cancel (by omega)] at this
    exact this

theorem getD_zipWith_nat (f : Nat → Nat → Nat) (l m : List Nat) (j : Nat) (h1 : j < l.length)
    (h2 : j < m.length) : (List.zipWith f l m).getD j 0 = f (l.getD j 0) (m.getD j 0) := by
  rw [List.getD_eq_getElem _ _ (by simp; omega), List.getD_eq_getElem _ _ h1,
    List.getD_eq_getElem _ _ h2, List.getElem_zipWith]

/-- The common number of axes. -/
def Spec.IsMaxDim (args : List (NdArr α)) (D : Nat) : Prop :=
  (∀ a ∈ args, a.shape.length ≤ D) ∧ ∃ a ∈ args, a.shape.length = D

theorem shortenRight_eq (args : List (NdArr α)) (h : args ≠ []) : ∃ D, Spec.IsMaxDim args D ∧
    ∃ ms : List Nat, ms.length = D ∧
      (∀ j < D, Spec.Smallest args (fun a => Spec.axisLen D a j) (ms.getD j 0)) ∧
      shortenRight args = .ok (args.map fun a => (a.promoteLeft D).sliceRight ms) := by
  obtain ⟨a0, ha0⟩ := List.exists_mem_of_ne_nil _ h
  obtain ⟨-, h2, h3⟩ := foldl_maxNat_spec (args.map fun a => a.shape.length) 0
  set D := (args.map fun a => a.shape.length).foldl max 0 with hD
  have hle : ∀ a ∈ args, a.shape.length ≤ D := fun a ha => h2 _ (List.mem_map_of_mem ha)
  refine ⟨D, ⟨hle, ?_⟩, (List.range D).map fun axis =>
    minOf ((args.map fun a => a.promoteLeft D).map fun a => a.shape.getD axis 0), by simp, ?_, ?_⟩
  · rcases h3 with h3 | h3
    · exact ⟨a0, ha0, by have := hle a0 ha0; omega⟩
    · obtain ⟨a, ha, he⟩ := List.mem_map.1 h3
      exact ⟨a, ha, he⟩
  · intro j hj
    rw [List.getD_eq_getElem _ _ (by simpa using hj)]
    simp only [List.getElem_map, List.getElem_range, List.map_map]
    have : (args.map ((fun a => a.shape.getD j 0) ∘ fun a => a.promoteLeft D)) =
        args.map fun a => Spec.axisLen D a j :=
      List.map_congr_left fun a ha => promote_axis a D (hle a ha) j
    rw [this]
    exact minOf_smallest args _ h
  · rw [shortenRight, if_neg h]
    simp only [List.map_map, ← hD]
    rfl

/-- C83: `shorten_right` keeps the order of its arguments and gives all of them the same number of
axes, the largest of the numbers of axes of its arguments.  On an axis on which no argument is
empty, all results have the smallest of the lengths of the arguments (aligned at the right, missing
axes counting as one).  The entries kept are the last ones: an entry of the result is the entry of
the argument at the same distance from the end of each axis. -/
theorem C83_shorten_right (args : List (NdArr α)) (h : args ≠ []) :
    ∃ (D : Nat) (res : List (NdArr α)), shortenRight args = .ok res ∧ Spec.IsMaxDim args D ∧ res.length = args.length ∧
      ∀ (i : Nat) (a r : NdArr α), args[i]? = some a → res[i]? = some r →
        r.shape.length = D ∧
        (∀ j < D, (∀ b ∈ args, 0 < Spec.axisLen D b j) →
          Spec.Smallest args (fun b => Spec.axisLen D b j) (r.shape.getD j 0)) ∧
        ∀ idx : List Nat, idx.length = D → (∀ j < D, idx.getD j 0 < r.shape.getD j 0) →
          ∃ idx' : List Nat, r.get idx = a.get idx' ∧ idx'.length = a.shape.length ∧
            ∀ j < a.shape.length, idx'.getD j 0 < a.shape.getD j 0 ∧
              a.shape.getD j 0 - idx'.getD j 0 =
                r.shape.getD (j + (D - a.shape.length)) 0 - idx.getD (j + (D - a.shape.length)) 0 := by
  obtain ⟨D, hD, ms, hml, hms, heq⟩ := shortenRight_eq args h
  refine ⟨D, _, heq, hD, by simp, fun i a r ha hr => ?_⟩
  rw [List.getElem?_map, ha] at hr
  simp only [Option.map_some, Option.some.injEq] at hr
  subst hr
  have hmem : a ∈ args := List.mem_of_getElem? ha
  have hle := hD.1 a hmem
  have hpl : (a.promoteLeft D).shape.length = D := by
    rw [(C83_promote a D).1]; omega
  have hsh : ∀ j < D, ((a.promoteLeft D).sliceRight ms).shape.getD j 0 =
      Spec.axisLen D a j - sliceStart (Spec.axisLen D a j) (ms.getD j 0) := by
    intro j hj
    rw [NdArr.sliceRight]
    simp only
    rw [getD_zipWith_nat _ _ _ _ (by omega) (by omega), promote_axis a D hle]
  refine ⟨by simp [NdArr.sliceRight, hpl, hml], fun j hj hpos => ?_, fun idx hidx hin => ?_⟩
  · have hsm := hms j hj
    obtain ⟨b, hb, hbe⟩ := hsm.2
    have : ms.getD j 0 ≠ 0 := by rw [hbe]; exact (hpos b hb).ne'
    have hl := hsm.1 a hmem
    rw [hsh j hj, sliceStart, if_neg this, Nat.sub_sub_self hl]
    exact hsm
  · refine ⟨(List.zipWith (fun i s => i + s) idx
      (List.zipWith sliceStart (a.promoteLeft D).shape ms)).drop (D - a.shape.length), ?_, ?_, ?_⟩
    · rw [NdArr.sliceRight]
      simp only
      exact (C83_promote a D).2.2.2 _
    · simp only [List.length_drop, List.length_zipWith, hidx, hpl, hml]
      omega
    · intro j hj
      have hj' : j + (D - a.shape.length) < D := by omega
      have hax : Spec.axisLen D a (j + (D - a.shape.length)) = a.shape.getD j 0 := by
        rw [Spec.axisLen, if_neg (by omega), Nat.add_sub_cancel]
      have hg : ((List.zipWith (fun i s => i + s) idx
          (List.zipWith sliceStart (a.promoteLeft D).shape ms)).drop (D - a.shape.length)).getD j 0 =
          idx.getD (j + (D - a.shape.length)) 0 +
            sliceStart (a.shape.getD j 0) (ms.getD (j + (D - a.shape.length)) 0) := by
        have h1 : ∀ (l : List Nat) (k : Nat), (l.drop k).getD j 0 = l.getD (j + k) 0 := by
          intro l k
          simp [List.getD, add_comm]
        rw [h1, getD_zipWith_nat _ _ _ _ (by omega) (by simp [hpl, hml]; omega),
          getD_zipWith_nat _ _ _ _ (by omega) (by omega), promote_axis a D hle, hax]
      have hin' := hin _ hj'
      have hsj := hsh _ hj'
      rw [hax] at hsj
      rw [hg, hsj]
      rw [hsj] at hin'
      omega

/-- C83, finding: on an axis on which some argument is empty nothing is cut off (the slice is `-0:`), so
the results differ in length there. -/
theorem C83_empty_axis (args : List (NdArr α)) (h : args ≠ []) :
    ∃ (D : Nat) (res : List (NdArr α)), shortenRight args = .ok res ∧ Spec.IsMaxDim args D ∧
      ∀ (i : Nat) (a r : NdArr α), args[i]? = some a → res[i]? = some r → ∀ j < D,
        (∃ b ∈ args, Spec.axisLen D b j = 0) → r.shape.getD j 0 = Spec.axisLen D a j := by
  obtain ⟨D, hD, ms, hml, hms, heq⟩ := shortenRight_eq args h
  refine ⟨D, _, heq, hD, fun i a r ha hr j hj ⟨b, hb, hb0⟩ => ?_⟩
  rw [List.getElem?_map, ha] at hr
  simp only [Option.map_some, Option.some.injEq] at hr
  subst hr
  have hle := hD.1 a (List.mem_of_getElem? ha)
  have hpl : (a.promoteLeft D).shape.length = D := by
    rw [(C83_promote a D).1]; omega
  have h0 : ms.getD j 0 = 0 := by
    have := (hms j hj).1 b hb
    simp only [hb0] at this
    omega
  rw [NdArr.sliceRight]
  simp only
  rw [getD_zipWith_nat _ _ _ _ (by omega) (by omega), promote_axis a D hle, h0, sliceStart,
    if_pos rfl, Nat.sub_zero]

/-- C83: without arguments `shorten_right` raises `ValueError`. -/
theorem C83_no_arguments : (shortenRight ([] : List (NdArr α))).toOption = none := rfl

/-- A vector of three entries beside a table with two rows and two columns. -/
example : ((shortenRight [(⟨[3], fun i => i.getD 0 0 + 10⟩ : NdArr Nat),
      ⟨[2, 2], fun i => i.getD 0 0 * 2 + i.getD 1 0⟩]).toOption.map fun rs =>
    rs.map fun r => (r.shape, r.get [0, 0], r.get [0, 1])) =
      some [([1, 2], 11, 12), ([1, 2], 2, 3)] := by decide +kernel

/-- An empty vector beside a vector of two entries: the lengths stay different. -/
example : ((shortenRight [(⟨[0], fun _ => 0⟩ : NdArr Nat), ⟨[2], fun i => i.getD 0 0⟩]).toOption.map
    fun rs => rs.map fun r => r.shape) = some [[0], [2]] := by decide +kernel

end QInfer
