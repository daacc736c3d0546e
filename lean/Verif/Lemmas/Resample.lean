import Verif.Model.Resample
import Verif.Lemmas.Particle

/-! # Lemmas about fancy assignment, masks and the rejection loops -/

set_option linter.unusedSectionVars false

namespace QInfer

variable {α β ρ Z ω : Type*}

theorem assignAt_length (a : List α) (idxs : List Nat) (vals : List α) :
    (assignAt a idxs vals).length = a.length := by
  unfold assignAt
  generalize idxs.zip vals = ps
  induction ps generalizing a with
  | nil => rfl
  | cons p ps ih => rw [List.foldl_cons, ih]; simp

theorem assignAt_cons (a : List α) (i : Nat) (idxs : List Nat) (v : α) (vals : List α) :
    assignAt a (i :: idxs) (v :: vals) = assignAt (a.set i v) idxs vals := rfl

theorem assignAt_nil (a : List α) (vals : List α) : assignAt a [] vals = a := rfl

theorem assignAt_nil' (a : List α) (idxs : List Nat) : assignAt a idxs [] = a := by
  cases idxs <;> rfl

theorem assignAt_not_mem (a : List α) (idxs : List Nat) (vals : List α) (i : Nat) (h : i ∉ idxs) :
    (assignAt a idxs vals)[i]? = a[i]? := by
  induction idxs generalizing a vals with
  | nil => rfl
  | cons j idxs ih =>
    cases vals with
    | nil => rfl
    | cons v vals =>
      rw [assignAt_cons, ih _ _ (fun hc => h (by simp [hc]))]
      rw [List.getElem?_set_ne]
      rintro rfl; exact h (by simp)

theorem assignAt_mem (a : List α) (idxs : List Nat) (vals : List α) (hnd : idxs.Nodup)
    (hin : ∀ i ∈ idxs, i < a.length) :
    ∀ p ∈ idxs.zip vals, (assignAt a idxs vals)[p.1]? = some p.2 := by
  induction idxs generalizing a vals with
  | nil => simp
  | cons j idxs ih =>
    cases vals with
    | nil => simp
    | cons v vals =>
      rw [List.nodup_cons] at hnd
      intro p hp
      rw [assignAt_cons]
      rw [List.zip_cons_cons, List.mem_cons] at hp
      rcases hp with rfl | hp
      · rw [assignAt_not_mem _ _ _ _ hnd.1]
        simp [hin j (by simp)]
      · exact ih (a.set j v) vals hnd.2 (fun i hi => by simpa using hin i (by simp [hi])) p hp

theorem select_cons (x : α) (l : List α) (b : Bool) (m : List Bool) :
    select (x :: l) (b :: m) = if b then x :: select l m else select l m := by
  unfold select
  cases b <;> simp

theorem select_nil (m : List Bool) : select ([] : List α) m = [] := by simp [select]

theorem select_nil' (l : List α) : select l [] = [] := by simp [select]

theorem select_sublist (l : List α) (m : List Bool) : (select l m).Sublist l := by
  induction l generalizing m with
  | nil => simp [select_nil]
  | cons x l ih =>
    cases m with
    | nil => simp [select_nil']
    | cons b m =>
      rw [select_cons]
      cases b
      · simpa using (ih m).cons x
      · simpa using ih m

theorem mem_select (l : List α) (m : List Bool) (x : α) :
    x ∈ select l m ↔ (x, true) ∈ l.zip m := by
  unfold select
  simp only [List.mem_map, List.mem_filter]
  constructor
  · rintro ⟨⟨y, b⟩, ⟨h1, h2⟩, rfl⟩
    simp at h2; subst h2; exact h1
  · intro h; exact ⟨(x, true), ⟨h, rfl⟩, rfl⟩

theorem select_length_le (l : List α) (m : List Bool) : (select l m).length ≤ l.length :=
  (select_sublist l m).length_le

/-- Two masks of equal shape select the same number of entries. -/
theorem select_length_eq (l : List α) (l' : List β) (m : List Bool) (h : l.length = l'.length) :
    (select l m).length = (select l' m).length := by
  induction l generalizing l' m with
  | nil => cases l' with
    | nil => simp [select_nil]
    | cons => simp at h
  | cons x l ih =>
    cases l' with
    | nil => simp at h
    | cons y l' =>
      cases m with
      | nil => simp [select_nil']
      | cons b m =>
        rw [select_cons, select_cons]
        have := ih l' m (by simpa using h)
        cases b <;> simp [this]

/-- What the rejection loops maintain: indices not pending hold an accepted row; pending ones hold a
rejected row, or nothing before the first round. -/
structure RejInv (n : Nat) (ok : ρ → Prop) (started : Prop) (locs : List (Option ρ))
    (idxs : List Nat) : Prop where
  len : locs.length = n
  sub : idxs.Sublist (List.range n)
  done : ∀ i < n, i ∉ idxs → ∃ x, locs[i]? = some (some x) ∧ ok x
  pending : started → ∀ i ∈ idxs, ∃ x, locs[i]? = some (some x) ∧ ¬ ok x

theorem RejInv.nodup {n : Nat} {ok : ρ → Prop} {st : Prop} {locs : List (Option ρ)}
    {idxs : List Nat} (h : RejInv n ok st locs idxs) : idxs.Nodup :=
  h.sub.nodup List.nodup_range

theorem RejInv.lt {n : Nat} {ok : ρ → Prop} {st : Prop} {locs : List (Option ρ)}
    {idxs : List Nat} (h : RejInv n ok st locs idxs) : ∀ i ∈ idxs, i < n :=
  fun i hi => by simpa using h.sub.subset hi

theorem mem_zip_map {f : α → β} {l : List α} {idxs : List Nat} {i : Nat} {y : β} :
    (i, y) ∈ idxs.zip (l.map f) ↔ ∃ x, (i, x) ∈ idxs.zip l ∧ f x = y := by
  rw [List.zip_map_right]
  simp [Prod.map]

theorem exists_zip {idxs : List Nat} {rows : List ρ} (h : rows.length = idxs.length) {i : Nat}
    (hi : i ∈ idxs) : ∃ x, (i, x) ∈ idxs.zip rows := by
  obtain ⟨k, hk, rfl⟩ := List.getElem_of_mem hi
  refine ⟨rows[k], ?_⟩
  have : (idxs.zip rows)[k]'(by simp; omega) = (idxs[k], rows[k]) := by simp
  rw [← this]; exact List.getElem_mem _

theorem zip_unique {idxs : List Nat} {rows : List ρ} (hnd : idxs.Nodup) {i : Nat} {x y : ρ}
    (hx : (i, x) ∈ idxs.zip rows) (hy : (i, y) ∈ idxs.zip rows) : x = y := by
  induction idxs generalizing rows with
  | nil => simp at hx
  | cons j idxs ih =>
    cases rows with
    | nil => simp at hx
    | cons r rows =>
      rw [List.nodup_cons] at hnd
      rw [List.zip_cons_cons, List.mem_cons] at hx hy
      rcases hx with hx | hx <;> rcases hy with hy | hy
      · simp only [Prod.mk.injEq] at hx hy; rw [hx.2, hy.2]
      · simp only [Prod.mk.injEq] at hx
        exact absurd (hx.1 ▸ (List.of_mem_zip hy).1) hnd.1
      · simp only [Prod.mk.injEq] at hy
        exact absurd (hy.1 ▸ (List.of_mem_zip hx).1) hnd.1
      · exact ih hnd.2 hx hy

/-- One round of rejection sampling keeps the invariant. -/
theorem RejInv.round {n : Nat} {valid : ρ → Bool} {st : Prop} {locs : List (Option ρ)}
    {idxs : List Nat} (h : RejInv n (fun x => valid x = true) st locs idxs) (rows : List ρ)
    (hrows : rows.length = idxs.length) :
    RejInv n (fun x => valid x = true) True (assignAt locs idxs (rows.map some))
      (select idxs ((rows.map valid).map not)) := by
  have hval : ∀ i x, (i, x) ∈ idxs.zip rows →
      (assignAt locs idxs (rows.map some))[i]? = some (some x) := by
    intro i x hix
    exact assignAt_mem locs idxs (rows.map some) h.nodup
      (fun i hi => by rw [h.len]; exact h.lt i hi) (i, some x) (mem_zip_map.2 ⟨x, hix, rfl⟩)
  refine ⟨by rw [assignAt_length, h.len], (select_sublist _ _).trans h.sub, ?_, ?_⟩
  · intro i hi hni
    by_cases hmem : i ∈ idxs
    · obtain ⟨x, hx⟩ := exists_zip hrows hmem
      refine ⟨x, hval i x hx, ?_⟩
      by_contra hv
      apply hni
      rw [mem_select, List.map_map, mem_zip_map]
      exact ⟨x, hx, by simpa using hv⟩
    · obtain ⟨x, hx, hv⟩ := h.done i hi hmem
      exact ⟨x, by rw [assignAt_not_mem _ _ _ _ hmem, hx], hv⟩
  · intro _ i hi
    rw [mem_select, List.map_map, mem_zip_map] at hi
    obtain ⟨x, hx, hv⟩ := hi
    exact ⟨x, hval i x hx, by simpa using hv⟩

theorem RejInv.init (n : Nat) (ok : ρ → Prop) :
    RejInv n ok False (List.replicate n none) (List.range n) :=
  ⟨by simp, List.Sublist.refl _, fun i hi hni => absurd (List.mem_range.2 hi) hni, fun h => h.elim⟩

end QInfer
