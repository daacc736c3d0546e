import Verif.Model.PerfTest
import Verif.Props.SmcHistory
import Verif.Props.SmcMore
import Verif.Props.Resample
import Verif.Props.SimpleDists
import Mathlib.Data.Rat.Floor

/-!
# C81 and C82: data tables and the simple estimation functions
-/

set_option linter.unusedSectionVars false

namespace QInfer

/-! ## C81: reading the columns of a data table -/

namespace Spec

/-- The column specification `c` means column `j`: for a plain array by position, negative positions
counting from the end, for a record array by name. -/
def Reads (l : Layout) (c : ColSpec) (j : Nat) : Prop :=
  match l with
  | .plain n => j < n ∧ (c.1 = j ∨ c.1 = (j : ℤ) - n)
  | .record names => names[j]? = some c.2 ∧ ∀ k < j, names[k]? ≠ some c.2

end Spec

open Spec

theorem colIdx_ok (l : Layout) (c : ColSpec) (j : Nat) : colIdx l c = .ok j ↔ Reads l c j := by
  cases l with
  | plain n =>
    simp only [colIdx, Reads]
    generalize hi : (if c.1 < 0 then c.1 + (n : ℤ) else c.1) = i
    have hi' : (c.1 < 0 ∧ i = c.1 + n) ∨ (0 ≤ c.1 ∧ i = c.1) := by
      split at hi <;> omega
    by_cases h : 0 ≤ i ∧ i < n
    · rw [if_pos h, Except.ok.injEq]
      constructor
      · rintro rfl; omega
      · rintro ⟨h1, h2⟩; omega
    · rw [if_neg h]
      constructor
      · intro h; cases h
      · rintro ⟨h1, h2⟩; omega
  | record names =>
    simp only [colIdx, Reads]
    rcases h : names.idxOf? c.2 with _ | i
    · rw [List.idxOf?_eq_none_iff] at h
      constructor
      · intro h; cases h
      · rintro ⟨h1, -⟩
        exact absurd (List.mem_of_getElem? h1) h
    · simp only [Except.ok.injEq]
      have hi := List.of_findIdx?_eq_some (p := (· == c.2)) (xs := names) h
      obtain ⟨hlt, he, hb⟩ := List.findIdx?_eq_some_iff_getElem.1 (show names.findIdx? (· == c.2) = some i from h)
      have he' : names[i]? = some c.2 := by
        rw [List.getElem?_eq_getElem hlt]; simpa using he
      have hb' : ∀ k < i, names[k]? ≠ some c.2 := by
        intro k hk hc
        have := hb k hk
        rw [List.getElem?_eq_getElem (by omega), Option.some.injEq] at hc
        simp [hc] at this
      constructor
      · rintro rfl; exact ⟨he', hb'⟩
      · rintro ⟨h1, h2⟩
        rcases lt_trichotomy i j with hij | hij | hij
        · exact absurd he' (h2 i hij)
        · exact hij
        · exact absurd h1 (hb' j hij)

theorem colIdx_err (l : Layout) (c : ColSpec) (h : ¬ ∃ j, Reads l c j) :
    colIdx l c = .error (match l with | .plain _ => .indexError | .record _ => .valueError) := by
  rcases hc : colIdx l c with err | j
  · cases l with
    | plain n =>
      simp only [colIdx] at hc
      generalize (if c.1 < 0 then c.1 + (n : ℤ) else c.1) = i at hc
      split at hc
      · cases hc
      · exact hc.symm
    | record names =>
      simp only [colIdx] at hc
      split at hc
      · cases hc
      · exact hc.symm
  · exact absurd ⟨j, (colIdx_ok l c j).1 hc⟩ h

section
variable {K : Type} [Ring K] [LinearOrder K] [FloorRing K]

/-- Writing one field of every record. -/
theorem setField_vec (key : String) (es : List (ExpVal K)) (vs : List K) (i : Nat)
    (e : ExpVal K) (v : K) (he : es[i]? = some e) (hv : vs[i]? = some v) :
    (List.zipWith (fun e v => e.setField key v) es vs)[i]? = some (e.setField key v) := by
  rw [List.getElem?_zipWith, he, hv]

theorem lookup_setField (key key' : String) (v : K) (fs : List (String × Option K)) :
    (fs.map fun p => if p.1 = key then (p.1, some v) else p).lookup key' =
      if key' = key then (fs.lookup key').map fun _ => some v else fs.lookup key' := by
  induction fs with
  | nil => simp
  | cons p fs ih =>
    obtain ⟨a, b⟩ := p
    rw [List.map_cons]
    by_cases h1 : a = key
    · rw [if_pos h1, List.lookup_cons, List.lookup_cons, ih]
      by_cases h2 : key' = a
      · subst h2; simp [h1]
      · have : (key' == a) = false := by simpa using h2
        simp [this]
    · rw [if_neg h1, List.lookup_cons, List.lookup_cons, ih]
      by_cases h2 : key' = a
      · subst h2; simp [h1]
      · have : (key' == a) = false := by simpa using h2
        simp [this]

theorem lookup_none_fields (fs : List (String × FieldTy)) (key : String) :
    (fs.map fun p => (p.1, (none : Option K))).lookup key =
      (fs.lookup key).map fun _ => none := by
  induction fs with
  | nil => rfl
  | cons p fs ih =>
    obtain ⟨a, b⟩ := p
    simp only [List.map_cons, List.lookup_cons, ih]
    split <;> rfl

/-- What the loop over the columns leaves in one record. -/
theorem fillFields_spec (l : Layout) (rs : List (List K)) (fs : List (String × FieldTy)) :
    ∀ (items : List (String × ColSpec)), (items.map Prod.fst).Nodup →
    ∀ (recs : List (List (String × Option K))) (out : Arr01 (ExpVal K)),
      recs.length = rs.length →
      fillFields ⟨l, .vec rs⟩ fs items (.vec (recs.map .record)) = .ok out →
      ∃ recs' : List (List (String × Option K)), out = .vec (recs'.map .record) ∧
        recs'.length = rs.length ∧
        ∀ (i : Nat) (r : List K) (f : List (String × Option K)), rs[i]? = some r →
          recs[i]? = some f → ∃ f', recs'[i]? = some f' ∧ f'.map Prod.fst = f.map Prod.fst ∧
          (∀ key ∉ items.map Prod.fst, f'.lookup key = f.lookup key) ∧
          ∀ (key : String) (c : ColSpec), (key, c) ∈ items →
            ∃ j t, Reads l c j ∧ fs.lookup key = some t ∧
              f'.lookup key = (f.lookup key).map fun _ => some (t.cast (r.getD j 0)) := by
  intro items
  induction items with
  | nil =>
    intro _ recs out hl h
    rw [fillFields, Except.ok.injEq] at h
    exact ⟨recs, h.symm, hl, fun i r f _ hf => ⟨f, hf, rfl, fun _ _ => rfl, by simp⟩⟩
  | cons it items ih =>
    obtain ⟨key, c⟩ := it
    intro hnd recs out hl h
    rw [fillFields] at h
    rcases hc : colIdx l c with err | j
    · rw [hc] at h; cases h
    rw [hc] at h
    simp only [bind, Except.bind] at h
    rcases ht : fs.lookup key with _ | t
    · rw [ht] at h; cases h
    rw [ht] at h
    simp only [column, Arr01.map, Arr01.setField] at h
    rw [List.map_cons, List.nodup_cons] at hnd
    have hz : List.zipWith (fun e v => ExpVal.setField key v e)
        (recs.map ExpVal.record) (List.map t.cast (List.map (fun r => r.getD j 0) rs)) =
        (List.zipWith (fun f r => f.map fun p : String × Option K =>
          if p.1 = key then (p.1, some (t.cast (r.getD j 0))) else p) recs rs).map ExpVal.record := by
      rw [List.map_map, List.zipWith_map, List.map_zipWith]
      rfl
    rw [hz] at h
    obtain ⟨recs', h1, h2, h3⟩ := ih hnd.2 _ out (by simp [hl]) h
    refine ⟨recs', h1, h2, fun i r f hr hf => ?_⟩
    obtain ⟨f', a1, a2, a3, a4⟩ := h3 i r _ hr (by rw [List.getElem?_zipWith, hf, hr])
    refine ⟨f', a1, ?_, ?_, ?_⟩
    · rw [a2, List.map_map]
      apply List.map_congr_left
      intro p _
      simp only [Function.comp]
      split <;> rfl
    · intro key' hk
      rw [List.map_cons, List.mem_cons, not_or] at hk
      rw [a3 key' hk.2, lookup_setField, if_neg hk.1]
    · intro key' c' hm
      rw [List.mem_cons] at hm
      rcases hm with hm | hm
      · obtain ⟨rfl, rfl⟩ := Prod.mk.inj hm
        refine ⟨j, t, (colIdx_ok _ _ _).1 hc, ht, ?_⟩
        rw [a3 key' hnd.1, lookup_setField, if_pos rfl]
      · obtain ⟨j', t', b1, b2, b3⟩ := a4 key' c' hm
        refine ⟨j', t', b1, b2, ?_⟩
        have hne : key' ≠ key := by
          rintro rfl
          exact hnd.1 (List.mem_map.2 ⟨_, hm, rfl⟩)
        rw [b3, lookup_setField, if_neg hne]

/-- Which loops over the columns succeed. -/
theorem fillFields_isOk (d : DataArr K) (fs : List (String × FieldTy))
    (items : List (String × ColSpec)) (es : Arr01 (ExpVal K)) :
    (∃ out, fillFields d fs items es = .ok out) ↔
      ∀ p ∈ items, (∃ j, Reads d.layout p.2 j) ∧ p.1 ∈ fs.map Prod.fst := by
  have hlk : ∀ key, key ∈ fs.map Prod.fst ↔ ∃ t, fs.lookup key = some t := by
    intro key
    induction fs with
    | nil => simp
    | cons p fs ih =>
      obtain ⟨a, b⟩ := p
      rw [List.map_cons, List.mem_cons, ih, List.lookup_cons]
      by_cases h : key = a
      · simp [h]
      · have : (key == a) = false := by simpa using h
        simp [h, this]
  induction items generalizing es with
  | nil => simp [fillFields]
  | cons it items ih =>
    obtain ⟨key, c⟩ := it
    rw [fillFields, List.forall_mem_cons]
    rcases hc : colIdx d.layout c with err | j
    · constructor
      · rintro ⟨out, h⟩; cases h
      · rintro ⟨⟨⟨j, hj⟩, -⟩, -⟩
        rw [(colIdx_ok _ _ _).2 hj] at hc; cases hc
    · simp only [bind, Except.bind]
      rcases ht : fs.lookup key with _ | t
      · constructor
        · rintro ⟨out, h⟩; cases h
        · rintro ⟨⟨-, h⟩, -⟩
          obtain ⟨t, h⟩ := (hlk key).1 h
          rw [ht] at h; cases h
      · dsimp only
        constructor
        · intro h
          exact ⟨⟨⟨j, (colIdx_ok _ _ _).1 hc⟩, (hlk key).2 ⟨t, ht⟩⟩, (ih _).1 h⟩
        · exact fun h => (ih _).2 h.2

/-- C81: for experiments with named fields, row by row, the outcome is the truncated entry of the
outcome column, each field that is listed holds the entry of its own column (truncated for an integer
field), and each field that is not listed is left uninitialised; nothing else changes. -/
theorem C81_row_by_row (l : Layout) (rs : List (List K)) (fs : List (String × FieldTy))
    (hfs : (fs.map Prod.fst).Nodup) (col : ColSpec) (items : List (String × ColSpec))
    (hit : (items.map Prod.fst).Nodup) (os : Arr01 ℤ) (es : Arr01 (ExpVal K))
    (h : dataToParams ⟨l, .vec rs⟩ (.fields fs) col (.dict items) = .ok (os, es)) :
    ∃ (o : List ℤ) (recs : List (List (String × Option K))), os = .vec o ∧
      es = .vec (recs.map .record) ∧ o.length = rs.length ∧ recs.length = rs.length ∧
      ∀ (i : Nat) (r : List K), rs[i]? = some r →
        (∃ j, Reads l col j ∧ o[i]? = some (trunc (r.getD j 0))) ∧
        ∃ f, recs[i]? = some f ∧ f.map Prod.fst = fs.map Prod.fst ∧
          ∀ key t, (key, t) ∈ fs →
            (key ∉ items.map Prod.fst → f.lookup key = some none) ∧
            ∀ c, (key, c) ∈ items →
              ∃ j, Reads l c j ∧ f.lookup key = some (some (t.cast (r.getD j 0))) := by
  have hlk : ∀ (fs : List (String × FieldTy)), (fs.map Prod.fst).Nodup → ∀ key t, (key, t) ∈ fs →
      fs.lookup key = some t := by
    intro fs
    induction fs with
    | nil => simp
    | cons p fs ih =>
      obtain ⟨a, b⟩ := p
      intro hnd key t hm
      rw [List.map_cons, List.nodup_cons] at hnd
      rw [List.mem_cons] at hm
      rw [List.lookup_cons]
      rcases hm with hm | hm
      · obtain ⟨rfl, rfl⟩ := Prod.mk.inj hm; simp
      · have hne : (key == a) = false := by
          simp only [beq_eq_false_iff_ne]
          rintro rfl
          exact hnd.1 (List.mem_map.2 ⟨_, hm, rfl⟩)
        rw [hne]
        exact ih hnd.2 key t hm
  rw [dataToParams] at h
  dsimp only at h
  rcases hc : colIdx l col with err | jo
  · rw [hc] at h; cases h
  rw [hc] at h
  simp only [bind, Except.bind, column, Arr01.map] at h
  rcases hff : fillFields ⟨l, .vec rs⟩ fs items (.vec (List.map
    (fun _ => ExpVal.record (fs.map fun p => (p.1, none)))
      (List.map trunc (List.map (fun r => r.getD jo 0) rs)))) with err | out
  · rw [hff] at h; cases h
  rw [hff] at h
  simp only [pure, Except.pure, Except.ok.injEq, Prod.mk.injEq] at h
  obtain ⟨rfl, rfl⟩ := h
  have hz : (List.map (fun _ => (ExpVal.record (fs.map fun p => (p.1, none)) : ExpVal K))
      (List.map trunc (List.map (fun r => r.getD jo 0) rs))) =
      (rs.map fun _ => fs.map fun p => (p.1, (none : Option K))).map ExpVal.record := by
    simp [List.map_map, Function.comp_def]
  rw [hz] at hff
  obtain ⟨recs', h1, h2, h3⟩ := fillFields_spec l rs fs items hit _ _ (by simp) hff
  refine ⟨_, recs', rfl, h1, by simp, h2, fun i r hr => ⟨⟨jo, (colIdx_ok _ _ _).1 hc, ?_⟩, ?_⟩⟩
  · simp [hr]
  · obtain ⟨f, a1, a2, a3, a4⟩ := h3 i r (fs.map fun p => (p.1, none)) hr
      (by rw [List.getElem?_map, hr]; rfl)
    refine ⟨f, a1, by rw [a2, List.map_map]; rfl, fun key t hkt => ⟨fun hk => ?_, fun c hkc => ?_⟩⟩
    · rw [a3 key hk, lookup_none_fields, hlk fs hfs key t hkt]; rfl
    · obtain ⟨j, t', b1, b2, b3⟩ := a4 key c hkc
      rw [hlk fs hfs key t hkt, Option.some.injEq] at b2
      subst b2
      refine ⟨j, b1, ?_⟩
      rw [b3, lookup_none_fields, hlk fs hfs key t hkt]; rfl

/-- C81: the conversion succeeds exactly if every column exists and every key is a field. -/
theorem C81_succeeds_iff (d : DataArr K) (fs : List (String × FieldTy)) (col : ColSpec)
    (items : List (String × ColSpec)) :
    (∃ r, dataToParams d (.fields fs) col (.dict items) = .ok r) ↔
      (∃ j, Reads d.layout col j) ∧
      ∀ p ∈ items, (∃ j, Reads d.layout p.2 j) ∧ p.1 ∈ fs.map Prod.fst := by
  rw [dataToParams]
  dsimp only
  rcases hc : colIdx d.layout col with err | jo
  · constructor
    · rintro ⟨out, h⟩; cases h
    · rintro ⟨⟨j, hj⟩, -⟩
      rw [(colIdx_ok _ _ _).2 hj] at hc; cases hc
  · simp only [bind, Except.bind]
    rw [← fillFields_isOk d fs items
      (((column d jo).map trunc).map fun _ => .record (fs.map fun p => (p.1, none)))]
    generalize fillFields d fs items
      (((column d jo).map trunc).map fun _ => .record (fs.map fun p => (p.1, none))) = ff
    rcases ff with err | out
    · constructor
      · rintro ⟨_, h⟩; cases h
      · rintro ⟨-, _, h⟩; cases h
    · exact ⟨fun _ => ⟨⟨jo, (colIdx_ok _ _ _).1 hc⟩, out, rfl⟩, fun _ => ⟨_, rfl⟩⟩

/-- C81: whole numbers are read exactly; other numbers are cut off toward zero. -/
theorem C81_truncation [IsStrictOrderedRing K] (x : K) :
    (∀ z : ℤ, x = z → trunc x = z) ∧
    (0 ≤ x → (trunc x : K) ≤ x ∧ x < trunc x + 1) ∧
    (x ≤ 0 → x ≤ trunc x ∧ (trunc x : K) - 1 < x) := by
  refine ⟨?_, ?_, ?_⟩
  · rintro z rfl
    rw [trunc]
    split <;> simp
  · intro h
    rw [trunc, if_pos h]
    exact ⟨Int.floor_le x, Int.lt_floor_add_one x⟩
  · intro h
    rw [trunc]
    split
    · rename_i h'
      have : x = 0 := le_antisymm h h'
      subst this
      simp
    · exact ⟨Int.le_ceil x, by
        have := Int.ceil_lt_add_one x
        exact sub_lt_iff_lt_add.2 this⟩

/-- C81: a floating-point field holds the number of the table, an integer field the whole number next
to it on the side of zero, a boolean field whether it differs from zero. -/
theorem C81_field_values [IsStrictOrderedRing K] (x : K) :
    FieldTy.cast .flt x = x ∧ (FieldTy.cast .bool x = 0 ∨ FieldTy.cast .bool x = 1) ∧
    (FieldTy.cast .bool x = 0 ↔ x = 0) ∧
    ∃ z : ℤ, FieldTy.cast .int x = (z : K) ∧
      (0 ≤ x → 0 ≤ (z : K) ∧ (z : K) ≤ x ∧ x < z + 1) ∧
      (x ≤ 0 → (z : K) ≤ 0 ∧ x ≤ z ∧ (z : K) - 1 < x) := by
  refine ⟨rfl, ?_, ?_, trunc x, rfl, fun h => ⟨?_, (C81_truncation x).2.1 h⟩,
    fun h => ⟨?_, (C81_truncation x).2.2 h⟩⟩
  · rw [FieldTy.cast]
    split <;> simp
  · rw [FieldTy.cast]
    split <;> simp_all
  · rw [trunc, if_pos h]
    exact_mod_cast Int.floor_nonneg.2 h
  · rcases h.lt_or_eq with h | rfl
    · rw [trunc, if_neg (not_le.2 h)]
      exact_mod_cast Int.ceil_le.2 (by exact_mod_cast h.le)
    · simp [trunc]

/-- C81: a plain table and a record table with the same rows give the same result if every column
specification that is used names the column it counts. -/
theorem C81_layouts_agree (names : List String) (hn : names.Nodup) (rows : Arr01 (List K))
    (dt : ExpDtype) (col : ColSpec) (cols : ColsArg)
    (ok : ColSpec → Prop) (hok : ∀ c, ok c → ∃ j : Nat, c.1 = j ∧ names[j]? = some c.2)
    (hcol : ok col) (hcols : ∀ c, cols = .one c → ok c)
    (hitems : ∀ items, cols = .dict items → ∀ p ∈ items, ok p.2) :
    dataToParams ⟨.plain names.length, rows⟩ dt col cols =
      dataToParams ⟨.record names, rows⟩ dt col cols := by
  have key : ∀ c, ok c → colIdx (.plain names.length) c = colIdx (.record names) c := by
    intro c hc
    obtain ⟨j, h1, h2⟩ := hok c hc
    have hlt : j < names.length := (List.getElem?_eq_some_iff.1 h2).1
    rw [(colIdx_ok (.plain names.length) c j).2 ⟨hlt, Or.inl h1⟩, Eq.comm, colIdx_ok]
    refine ⟨h2, fun k hk hc => ?_⟩
    have h3 := (List.getElem?_eq_some_iff.1 h2).2
    obtain ⟨hk', h4⟩ := List.getElem?_eq_some_iff.1 hc
    have := (List.Nodup.getElem_inj_iff hn (hi := hk') (hj := hlt)).1 (h4.trans h3.symm)
    omega
  have hfill : ∀ (fs : List (String × FieldTy)) (items : List (String × ColSpec)),
      (∀ p ∈ items, ok p.2) → ∀ es : Arr01 (ExpVal K),
      fillFields ⟨.plain names.length, rows⟩ fs items es =
        fillFields ⟨.record names, rows⟩ fs items es := by
    intro fs items
    induction items with
    | nil => intro _ es; rfl
    | cons it items ih =>
      obtain ⟨k, c⟩ := it
      intro h es
      rw [List.forall_mem_cons] at h
      rw [fillFields, fillFields]
      simp only [key c h.1, column]
      rcases colIdx (.record names) c with err | j
      · rfl
      · simp only [bind, Except.bind]
        rcases fs.lookup k with _ | t
        · rfl
        · exact ih h.2 _
  rw [dataToParams, dataToParams]
  simp only [key col hcol, column]
  rcases colIdx (.record names) col with err | jo
  · rfl
  simp only [bind, Except.bind]
  cases dt with
  | typeObj t =>
    cases cols with
    | none => rfl
    | one c => simp only [key c (hcols c rfl)]
    | dict items => rfl
  | str t =>
    cases cols with
    | none => rfl
    | one c => rfl
    | dict items =>
      cases items with
      | nil => rfl
      | cons p items => simp only [key p.2 (hitems _ rfl p (by simp))]
  | fields fs =>
    cases cols with
    | none => rfl
    | one c => rfl
    | dict items => simp only [hfill fs items (hitems _ rfl)]

/-- C81, finding: a scalar experiment type given as a string, as the models of the package give it
(`'float'`), is not recognised as scalar, and the call fails: `AttributeError`.  The same type given as
a type object works.  Without column specifications the call always fails. -/
theorem C81_string_dtype (d : DataArr K) (t : FieldTy) (col c : ColSpec)
    (h : ∃ j, Reads d.layout col j) (hc : ∃ j, Reads d.layout c j) (fs : List (String × FieldTy)) :
    dataToParams d (.str t) col (.one c) = .error .attributeError ∧
    (∃ r, dataToParams d (.typeObj t) col (.one c) = .ok r) ∧
    dataToParams d (.str t) col .none = .error .attributeError ∧
    dataToParams d (.typeObj t) col .none = .error .typeError ∧
    dataToParams d (.fields fs) col .none = .error .attributeError := by
  obtain ⟨j, hj⟩ := h
  obtain ⟨k, hk⟩ := hc
  rw [← colIdx_ok] at hj hk
  refine ⟨?_, ⟨((column d j).map trunc, (column d k).map fun x => .num (some (t.cast x))), ?_⟩,
    ?_, ?_, ?_⟩
  all_goals
    rw [dataToParams]
    simp only [hj, hk, bind, Except.bind, pure, Except.pure]

/-- C81: a scalar experiment type given as a type object: each experiment is the entry of its
column. -/
theorem C81_scalar_type (l : Layout) (rs : List (List K)) (t : FieldTy) (col c : ColSpec)
    (os : Arr01 ℤ) (es : Arr01 (ExpVal K))
    (h : dataToParams ⟨l, .vec rs⟩ (.typeObj t) col (.one c) = .ok (os, es)) :
    ∃ jo j, Reads l col jo ∧ Reads l c j ∧
      os = .vec (rs.map fun r => trunc (r.getD jo 0)) ∧
      es = .vec (rs.map fun r => .num (some (t.cast (r.getD j 0)))) := by
  rw [dataToParams] at h
  dsimp only at h
  rcases hc : colIdx l col with err | jo
  · rw [hc] at h; cases h
  rcases hc' : colIdx l c with err | j
  · rw [hc, hc'] at h; cases h
  rw [hc, hc'] at h
  simp only [bind, Except.bind, pure, Except.pure, Except.ok.injEq, Prod.mk.injEq, column, Arr01.map,
    List.map_map] at h
  exact ⟨jo, j, (colIdx_ok _ _ _).1 hc, (colIdx_ok _ _ _).1 hc', h.1.symm, h.2.symm⟩

end

/-- Case for C81: two rows, the outcome in the last column, an integer field. -/
example : (dataToParams (K := ℚ) ⟨.plain 3, .vec [[1/2, 7, 3], [3/4, 9, -5/2]]⟩
      (.fields [("t", .flt), ("n_meas", .int), ("extra", .flt)]) (-1, "counts")
      (.dict [("n_meas", (1, "n_shots")), ("t", (0, "t"))])).toOption =
    some (.vec [3, -2], .vec [.record [("t", some (1/2)), ("n_meas", some 7), ("extra", none)],
      .record [("t", some (3/4)), ("n_meas", some 9), ("extra", none)]]) ∧
    (dataToParams (K := ℚ) ⟨.record ["t", "n_shots", "counts"], .vec [[1/2, 7, 3], [3/4, 9, -5/2]]⟩
      (.fields [("t", .flt), ("n_meas", .int), ("extra", .flt)]) (-1, "counts")
      (.dict [("n_meas", (1, "n_shots")), ("t", (0, "t"))])).toOption =
    some (.vec [3, -2], .vec [.record [("t", some (1/2)), ("n_meas", some 7), ("extra", none)],
      .record [("t", some (3/4)), ("n_meas", some 9), ("extra", none)]]) := by
  refine ⟨?_, ?_⟩ <;> decide +kernel

/-! ## C82: the simple estimation functions -/

section
variable {K : Type*} {O E ω : Type*} [Field K] [LinearOrder K] [IsStrictOrderedRing K]

namespace Spec

/-- Posterior expectation of `f` over equally likely particles `xs`, given data `ds`. -/
def postMean (like : O → List K → E → K) (xs : List (List K)) (ds : List (O × E))
    (f : List K → K) : K :=
  (xs.map fun x => dataLike like ds x * f x).sum / (xs.map fun x => dataLike like ds x).sum

end Spec

/-- The estimate of parameter `j`. -/
def EstRet.meanAt : EstRet K O ω → Nat → K
  | .scalar m _ _, _ => m
  | .vector m _ _, j => m.getD j 0

/-- The estimated covariance of parameters `a` and `b`. -/
def EstRet.covAt : EstRet K O ω → Nat → Nat → K
  | .scalar _ v _, _, _ => v
  | .vector _ c _, a, b => (c.getD a []).getD b 0

def EstRet.extra : EstRet K O ω → Option (Smc K O ω)
  | .scalar _ _ u => u
  | .vector _ _ u => u

def EstRet.isScalar : EstRet K O ω → Bool
  | .scalar _ _ _ => true
  | .vector _ _ _ => false

theorem update_false_count (cfg : SmcConfig K) (env : Env K O E ω) (s : Smc K O ω) (o : O) (e : E) :
    (update cfg env s o e false).1.resampleCount = s.resampleCount := by
  have hfin : ∀ (t : Smc K O ω) w n,
      (finishUpdate cfg env t w n e false).1.resampleCount = t.resampleCount := by
    intro t w n
    unfold finishUpdate
    split
    · rfl
    · simp only [Bool.false_eq_true, if_false]
      split <;> rfl
  have happ : ∀ (t : Smc K O ω) w n,
      (applyUpdate cfg env t w n e false).1.resampleCount = t.resampleCount := by
    intro t w n
    unfold applyUpdate
    split
    · split
      · exact hfin ..
      · split
        · rfl
        · split
          · exact hfin ..
          · split
            · rfl
            · split
              · have hr := (reset_fields cfg env (t.warn .zeroWeightsReset) none none true).2.2.2.1
                split
                · rename_i heq; rw [heq] at hr; exact hr
                · rename_i heq; rw [heq] at hr; exact (hfin ..).trans hr
              · rfl
    · exact hfin ..
  unfold update
  dsimp only
  split
  · rfl
  · split
    · exact happ ..
    · exact happ ..

/-- Feeding data with checks: the count of resamplings only grows, and as long as it does not, the
weights are the posterior and the particles stay. -/
theorem feed_checked (cfg : SmcConfig K) (env : Env K O E ω) (hg : GoodEnv env) (hst : Static env)
    (hp : cfg.policy = "error") (ht : eps ≤ cfg.zeroThresh) (ht1 : cfg.zeroThresh < 1)
    (ds : List (O × E)) (s : Smc K O ω) (hs : WInv s) (hok : (feed cfg env true ds s).2 = .ok ()) :
    WInv (feed cfg env true ds s).1 ∧
    s.resampleCount ≤ (feed cfg env true ds s).1.resampleCount ∧
    ((feed cfg env true ds s).1.resampleCount = s.resampleCount →
      (feed cfg env true ds s).1.weights = dataPosterior env.likelihood s.weights s.locs ds ∧
      (feed cfg env true ds s).1.locs = s.locs) := by
  induction ds generalizing s with
  | nil => exact ⟨hs, le_rfl, fun _ => ⟨(dataPosterior_nil _ _ _ hs.2 hs.1.2).symm, rfl⟩⟩
  | cons d ds ih =>
    have hw := update_winv cfg env hg (Or.inl hp) ht s hs d.1 d.2 true
    rcases heq : update cfg env s d.1 d.2 true with ⟨t, err | ⟨⟨⟩⟩⟩
    · simp [feed, heq] at hok
    have hfeed : feed cfg env true (d :: ds) s = feed cfg env true ds t := by simp [feed, heq]
    rw [heq] at hw
    rw [hfeed] at hok ⊢
    obtain ⟨i1, i2, i3⟩ := ih t hw hok
    have hsplit := update_split cfg env s d.1 d.2
    have hf : (update cfg env s d.1 d.2 false).2 = .ok () := by
      rcases hsplit with ⟨-, h⟩ | ⟨h, h'⟩
      · exact h
      · rw [← h, heq]
    have hm : t = (maybeResample cfg env (update cfg env s d.1 d.2 false).1).1 := by
      rcases hsplit with ⟨h, -⟩ | ⟨-, h'⟩
      · rw [← h, heq]
      · rcases h' with h' | h'
        · rw [hp] at h'; exact absurd h' (by decide)
        · exact absurd hf h'
    have hcnt := maybeResample_count cfg env (update cfg env s d.1 d.2 false).1
    dsimp only at hcnt
    rw [← hm, update_false_count] at hcnt
    have hle : s.resampleCount ≤ t.resampleCount := by
      rcases hcnt with ⟨-, h, -⟩ | ⟨-, h, -⟩ <;> omega
    refine ⟨i1, hle.trans i2, fun heqc => ?_⟩
    have hev := datum_error_ok cfg env hg hp ht s hs.2 hs.1.1 d.1 d.2 hf
    obtain ⟨-, h2, h3, -⟩ := datum_normal cfg env s d.1 d.2 hs.2 hs.1.1
      (fun x => hg.like_nonneg d.1 x d.2) ht1 hev
    rw [hst] at h3
    rcases hcnt with ⟨-, h, -⟩ | ⟨-, -, -, hw', hl', -⟩
    · omega
    obtain ⟨j1, j2⟩ := i3 (by omega)
    have hne := (lt_of_lt_of_le eps_pos hev).ne'
    refine ⟨?_, by rw [j2, hl', h3]⟩
    rw [j1, hw', hl', h2, h3, dataPosterior_cons _ _ _ _ _ hne]

/-- What `do_update` does, in terms of `update`. -/
theorem doUpdate_eq (cfg : SmcConfig K) (env : Env K O E ω) (hp : cfg.policy ≠ "skip")
    (d n : Nat) (seed : ω) (os : List O) (es : List E) (hl : es.length = os.length) (ra : Bool) :
    doUpdate cfg env d n seed (.vec os) (.vec es) ra =
      match feed cfg env true (os.zip es) (construct cfg env n false seed).1 with
      | (_, .error err) => .error err
      | (s, .ok ()) =>
        .ok (if d = 1 then .scalar ((smcMean d s.weights s.locs).getD 0 0)
            (((smcCov d s.weights s.locs).getD 0 []).getD 0 0) (if ra then some s else none)
          else .vector (smcMean d s.weights s.locs) (smcCov d s.weights s.locs)
            (if ra then some s else none)) := by
  have hc : construct cfg env n false seed = ((construct cfg env n false seed).1, .ok ()) := rfl
  rw [doUpdate, hc]
  dsimp only [batchUpdate01]
  rw [C10_interval_one cfg env hp _ os es hl]
  rfl

theorem zipWith_sum_map (w : List K) (locs : List (List K)) (f : List K → K) :
    (List.zipWith (fun a x => a * f x) w locs).sum = ((w.zip locs).map fun p => p.1 * f p.2).sum := by
  rw [List.zip, List.map_zipWith]

theorem smcMean_getD (d : Nat) (w : List K) (locs : List (List K)) (j : Nat) (hj : j < d) :
    (smcMean d w locs).getD j 0 = ((w.zip locs).map fun p => p.1 * p.2.getD j 0).sum := by
  rw [smcMean, List.getD_eq_getElem?_getD, List.getElem?_map, List.getElem?_range hj]
  exact zipWith_sum_map w locs fun x => x.getD j 0

theorem smcCov_getD (d : Nat) (w : List K) (locs : List (List K)) (a b : Nat) (ha : a < d)
    (hb : b < d) : ((smcCov d w locs).getD a []).getD b 0 =
      ((w.zip locs).map fun p => p.1 * (p.2.getD a 0 * p.2.getD b 0)).sum -
        ((w.zip locs).map fun p => p.1 * p.2.getD a 0).sum *
        ((w.zip locs).map fun p => p.1 * p.2.getD b 0).sum := by
  have e : ∀ {β : Type _} (g : Nat → β) (k : Nat) (z : β), k < d →
      ((List.range d).map g).getD k z = g k := by
    intro β g k z hk
    rw [List.getD_eq_getElem?_getD, List.getElem?_map, List.getElem?_range hk]; rfl
  rw [smcCov, e _ a _ ha, e _ b _ hb]
  rw [smcMean_getD d w locs a ha, smcMean_getD d w locs b hb,
    ← zipWith_sum_map w locs fun x => x.getD a 0 * x.getD b 0]
  simp only [mul_assoc]

theorem sum_map_mul_right' (l : List (List K)) (f : List K → K) (c : K) :
    (l.map fun x => f x * c).sum = (l.map f).sum * c := by
  induction l with
  | nil => simp
  | cons a l ih => simp [ih, add_mul]

/-- Expectations under the posterior weights of equally weighted particles. -/
theorem posterior_expect (like : O → List K → E → K) (xs : List (List K)) (n : Nat)
    (hn : xs.length = n) (h0 : 0 < n) (ds : List (O × E)) (f : List K → K) :
    (((dataPosterior like (List.replicate n (1 / (n : K))) xs ds).zip xs).map
      fun p => p.1 * f p.2).sum = Spec.postMean like xs ds f := by
  have hn0 : (n : K) ≠ 0 := by exact_mod_cast h0.ne'
  have hz : ∀ g : K × List K → K, ((List.replicate n (1 / (n : K))).zip xs).map g =
      xs.map fun x => g (1 / (n : K), x) := by
    intro g
    subst hn
    clear hn0 h0
    generalize (1 / ((xs.length : Nat) : K)) = c
    induction xs with
    | nil => rfl
    | cons a xs ih => simp [List.replicate_succ, ih]
  have hev : dataEvidence like (List.replicate n (1 / (n : K))) xs ds =
      (xs.map fun x => dataLike like ds x).sum * (1 / (n : K)) := by
    rw [dataEvidence, hz, ← sum_map_mul_right' xs (dataLike like ds)]
    simp only [mul_comm]
  have hp : dataPosterior like (List.replicate n (1 / (n : K))) xs ds =
      xs.map fun x => dataLike like ds x / (xs.map fun x => dataLike like ds x).sum := by
    rw [dataPosterior, hz, hev]
    apply List.map_congr_left
    intro x _
    rw [mul_comm, mul_div_mul_right _ _ (by simpa using hn0)]
  rw [hp]
  have hz2 : ∀ (l : List (List K)) (c : K),
      (((l.map fun x => dataLike like ds x / c).zip l).map fun p => p.1 * f p.2) =
        (l.map fun x => dataLike like ds x * f x * c⁻¹) := by
    intro l c
    induction l with
    | nil => rfl
    | cons a l ih =>
      rw [List.map_cons, List.zip_cons_cons, List.map_cons, ih, List.map_cons]
      congr 1
      ring
  rw [hz2, sum_map_mul_right' xs (fun x => dataLike like ds x * f x), Spec.postMean,
    div_eq_mul_inv]

/-- C82: `do_update` returns a number and a variance for a model with one parameter, else a vector and
a matrix; the updater comes along exactly if asked for.  The data are taken in one by one, with a check
for resampling after each.  If no resampling took place, the estimates are the posterior mean and
covariance over the particles drawn from the prior. -/
theorem C82_estimates_are_posterior (cfg : SmcConfig K) (env : Env K O E ω) (hg : GoodEnv env)
    (hst : Static env) (hp : cfg.policy = "error") (ht : eps ≤ cfg.zeroThresh)
    (ht1 : cfg.zeroThresh < 1) (d n : Nat) (h0 : 0 < n) (seed : ω) (os : List O) (es : List E)
    (hl : es.length = os.length) (ra : Bool) (r : EstRet K O ω)
    (h : doUpdate cfg env d n seed (.vec os) (.vec es) ra = .ok r) :
    ∃ s, feed cfg env true (os.zip es) (construct cfg env n false seed).1 = (s, .ok ()) ∧
      (r.isScalar = true ↔ d = 1) ∧ r.extra = (if ra then some s else none) ∧
      (s.resampleCount = 0 →
        let xs := (construct cfg env n false seed).1.locs;
        let mean := Spec.postMean env.likelihood xs (os.zip es);
        (∀ j < d, r.meanAt j = mean fun x => x.getD j 0) ∧
        ∀ a < d, ∀ b < d, r.covAt a b = mean (fun x => x.getD a 0 * x.getD b 0) -
          mean (fun x => x.getD a 0) * mean fun x => x.getD b 0) := by
  rw [doUpdate_eq cfg env (by rw [hp]; decide) d n seed os es hl ra] at h
  have hs0 := construct_winv cfg env hg n h0 false seed
  rcases hf : feed cfg env true (os.zip es) (construct cfg env n false seed).1 with ⟨s, err | ⟨⟨⟩⟩⟩
  · rw [hf] at h; cases h
  rw [hf] at h
  simp only [Except.ok.injEq] at h
  obtain ⟨-, h2, h3⟩ := feed_checked cfg env hg hst hp ht ht1 (os.zip es) _ hs0 (by rw [hf])
  rw [hf] at h2 h3
  refine ⟨s, rfl, ?_, ?_, fun hc => ?_⟩
  · subst h; split <;> simp_all [EstRet.isScalar]
  · subst h; split <;> simp [EstRet.extra]
  · have hc0 : (construct cfg env n false seed).1.resampleCount = 0 := rfl
    obtain ⟨hw, hlo⟩ := h3 (by rw [hc0, hc])
    have hw0 : (construct cfg env n false seed).1.weights = List.replicate n (1 / (n : K)) := rfl
    have hxl : (construct cfg env n false seed).1.locs.length = n := by
      rw [hs0.2, hw0, List.length_replicate]
    rw [hw0] at hw
    have hexp : ∀ f : List K → K, ((s.weights.zip s.locs).map fun p => p.1 * f p.2).sum =
        Spec.postMean env.likelihood (construct cfg env n false seed).1.locs (os.zip es) f := by
      intro f
      rw [show s.weights = _ from hw, show s.locs = _ from hlo]
      exact posterior_expect env.likelihood _ n hxl h0 (os.zip es) f
    dsimp only
    refine ⟨fun j hj => ?_, fun a ha b hb => ?_⟩
    · rw [← hexp, ← smcMean_getD d _ _ j hj]
      subst h
      split
      · rename_i hd; subst hd
        have : j = 0 := by omega
        subst this; rfl
      · rfl
    · rw [← hexp, ← hexp, ← hexp, ← smcCov_getD d _ _ a b ha hb]
      subst h
      split
      · rename_i hd; subst hd
        have : a = 0 := by omega
        have : b = 0 := by omega
        subst_vars; rfl
      · rfl

theorem weighted_bounds (w : List K) (locs : List (List K)) (hl : locs.length = w.length)
    (hw : ∀ x ∈ w, 0 ≤ x) (f : List K → K) (lo hi : K) (hb : ∀ x ∈ locs, lo ≤ f x ∧ f x ≤ hi) :
    lo * w.sum ≤ ((w.zip locs).map fun p => p.1 * f p.2).sum ∧
      ((w.zip locs).map fun p => p.1 * f p.2).sum ≤ hi * w.sum := by
  induction w generalizing locs with
  | nil => simp
  | cons a w ih => cases locs with
    | nil => simp at hl
    | cons b l =>
      rw [List.forall_mem_cons] at hw hb
      obtain ⟨h1, h2⟩ := ih l (by simpa using hl) hw.2 hb.2
      simp only [List.zip_cons_cons, List.map_cons, List.sum_cons]
      constructor
      · nlinarith [mul_le_mul_of_nonneg_left hb.1.1 hw.1]
      · nlinarith [mul_le_mul_of_nonneg_left hb.1.2 hw.1]

theorem weighted_var_nonneg (w : List K) (locs : List (List K)) (hl : locs.length = w.length)
    (hw : ∀ x ∈ w, 0 ≤ x) (f : List K → K) (m : K) :
    0 ≤ ((w.zip locs).map fun p => p.1 * (f p.2 * f p.2)).sum -
      2 * m * ((w.zip locs).map fun p => p.1 * f p.2).sum + m ^ 2 * w.sum := by
  induction w generalizing locs with
  | nil => simp
  | cons a w ih => cases locs with
    | nil => simp at hl
    | cons b l =>
      rw [List.forall_mem_cons] at hw
      have h1 := ih l (by simpa using hl) hw.2
      simp only [List.zip_cons_cons, List.map_cons, List.sum_cons]
      nlinarith [mul_nonneg hw.1 (sq_nonneg (f b - m))]

/-- C82: with or without resampling, an estimate lies between the smallest and the largest value that
the parameter takes among the final particles, and an estimated variance is not negative. -/
theorem C82_estimate_within_cloud (cfg : SmcConfig K) (env : Env K O E ω) (hg : GoodEnv env)
    (hst : Static env) (hp : cfg.policy = "error") (ht : eps ≤ cfg.zeroThresh)
    (ht1 : cfg.zeroThresh < 1) (d n : Nat) (h0 : 0 < n) (seed : ω) (os : List O) (es : List E)
    (hl : es.length = os.length) (r : EstRet K O ω)
    (h : doUpdate cfg env d n seed (.vec os) (.vec es) true = .ok r) (j : Nat) (hj : j < d) :
    ∃ s, r.extra = some s ∧ 0 ≤ r.covAt j j ∧ ∀ lo hi : K,
      (∀ x ∈ s.locs, lo ≤ x.getD j 0 ∧ x.getD j 0 ≤ hi) → lo ≤ r.meanAt j ∧ r.meanAt j ≤ hi := by
  rw [doUpdate_eq cfg env (by rw [hp]; decide) d n seed os es hl true] at h
  have hs0 := construct_winv cfg env hg n h0 false seed
  rcases hf : feed cfg env true (os.zip es) (construct cfg env n false seed).1 with ⟨s, err | ⟨⟨⟩⟩⟩
  · rw [hf] at h; cases h
  rw [hf] at h
  simp only [Except.ok.injEq] at h
  obtain ⟨h1, -, -⟩ := feed_checked cfg env hg hst hp ht ht1 (os.zip es) _ hs0 (by rw [hf])
  rw [hf] at h1
  have hm : r.meanAt j = ((s.weights.zip s.locs).map fun p => p.1 * p.2.getD j 0).sum := by
    rw [← smcMean_getD d _ _ j hj]
    subst h
    split
    · rename_i hd; subst hd
      have : j = 0 := by omega
      subst this; rfl
    · rfl
  have hv : r.covAt j j = ((s.weights.zip s.locs).map fun p => p.1 * (p.2.getD j 0 * p.2.getD j 0)).sum -
      r.meanAt j * r.meanAt j := by
    rw [hm, ← smcCov_getD d _ _ j j hj hj]
    subst h
    split
    · rename_i hd; subst hd
      have : j = 0 := by omega
      subst this; rfl
    · rfl
  refine ⟨s, by subst h; split <;> simp [EstRet.extra], ?_, fun lo hi hb => ?_⟩
  · rw [hv]
    have := weighted_var_nonneg s.weights s.locs h1.2 h1.1.1 (fun x => x.getD j 0) (r.meanAt j)
    rw [h1.1.2, ← hm] at this
    linarith [this, sq (r.meanAt j)]
  · obtain ⟨a, b⟩ := weighted_bounds s.weights s.locs h1.2 h1.1.1 (fun x => x.getD j 0) lo hi hb
    rw [h1.1.2, mul_one, ← hm] at a b
    exact ⟨a, b⟩

/-- C82: outcomes and experiments of different number are a `ValueError`, arrays without an axis an
`IndexError`. -/
theorem C82_shape_errors (cfg : SmcConfig K) (env : Env K O E ω) (d n : Nat) (seed : ω) (ra : Bool)
    (os : List O) (es : List E) (hl : es.length ≠ os.length) (o : O) (e : E) :
    doUpdate cfg env d n seed (.vec os) (.vec es) ra = .error .valueError ∧
    doUpdate cfg env d n seed (.cell o) (.cell e) ra = .error .indexError := by
  have hc : construct cfg env n false seed = ((construct cfg env n false seed).1, .ok ()) := rfl
  constructor
  · rw [doUpdate, hc]
    dsimp only [batchUpdate01]
    rw [C10_length_mismatch cfg env _ os es 1 hl]
  · rw [doUpdate, hc]
    rfl

/-- The resampler is not consulted where no resampling happens. -/
theorem feed_resampler_irrelevant (cfg : SmcConfig K) (env : Env K O E ω)
    (rs : ω → List K → List (List K) → Except PyErr (List K × List (List K)) × ω)
    (hp : cfg.policy ≠ "skip") (ds : List (O × E)) (s t : Smc K O ω)
    (h : feed cfg env true ds s = (t, .ok ())) (hc : t.resampleCount = s.resampleCount) :
    feed cfg { env with resampler := rs } true ds s = (t, .ok ()) := by
  have hmono : ∀ (ds : List (O × E)) (s t : Smc K O ω), feed cfg env true ds s = (t, .ok ()) →
      s.resampleCount ≤ t.resampleCount := by
    intro ds
    induction ds with
    | nil => intro s t h; cases h; exact le_rfl
    | cons d ds ih =>
      intro s t h
      rw [feed] at h
      rcases heq : update cfg env s d.1 d.2 true with ⟨u, err | ⟨⟨⟩⟩⟩
      · rw [heq] at h; cases h
      rw [heq] at h
      refine le_trans ?_ (ih u t h)
      have hm := maybeResample_count cfg env (update cfg env s d.1 d.2 false).1
      dsimp only at hm
      rw [update_false_count] at hm
      rcases update_split cfg env s d.1 d.2 with ⟨h1, -⟩ | ⟨h1, -⟩
      · rw [← h1, heq] at hm
        rcases hm with ⟨-, h, -⟩ | ⟨-, h, -⟩ <;> simp only at h <;> omega
      · have := update_false_count cfg env s d.1 d.2
        rw [← h1, heq] at this
        exact this.ge
  have hfalse : ∀ (s : Smc K O ω) o e,
      update cfg { env with resampler := rs } s o e false = update cfg env s o e false := by
    intro s o e
    rfl
  induction ds generalizing s with
  | nil => exact h
  | cons d ds ih =>
    rw [feed] at h ⊢
    rcases heq : update cfg env s d.1 d.2 true with ⟨u, err | ⟨⟨⟩⟩⟩
    · rw [heq] at h; cases h
    rw [heq] at h
    have hu := hmono ds u t h
    have hm := maybeResample_count cfg env (update cfg env s d.1 d.2 false).1
    dsimp only at hm
    rw [update_false_count] at hm
    have hkey : s.resampleCount = u.resampleCount ∧
        update cfg { env with resampler := rs } s d.1 d.2 true = (u, .ok ()) := by
      rcases update_split cfg env s d.1 d.2 with ⟨h1, h2⟩ | ⟨h1, h2⟩
      · rw [h1] at heq
        rcases update_split cfg { env with resampler := rs } s d.1 d.2 with ⟨h3, -⟩ | ⟨-, h4⟩
        · rw [heq] at hm
          rcases hm with ⟨-, hm, -⟩ | ⟨hlt, hm, -⟩
          · simp only at hm; omega
          · refine ⟨hm.symm, ?_⟩
            rw [h3, hfalse, ← heq]
            unfold maybeResample
            dsimp only
            generalize hz : (if nEss (update cfg env s d.1 d.2 false).1.weights ≤
              ((10 : K) : WithTop K) then (update cfg env s d.1 d.2 false).1.warn .smallEss
              else (update cfg env s d.1 d.2 false).1) = z
            have hn : z.nParticles = (update cfg env s d.1 d.2 false).1.locs.length := by
              subst hz; rw [Smc.nParticles]; split <;> rfl
            rw [hn, if_neg hlt, if_neg hlt]
        · rcases h4 with h4 | h4
          · exact absurd h4 hp
          · rw [hfalse] at h4; exact absurd h2 h4
      · rcases h2 with h2 | h2
        · exact absurd h2 hp
        · rw [← h1, heq] at h2; exact absurd rfl h2
    rw [hkey.2]
    exact ih u h (by omega)

end

end QInfer
