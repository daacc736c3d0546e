import Verif.Props.SimpleEst

/-!
# C81: a table that is one row

`np.loadtxt` gives an array without an axis for a file with one line (simple_est.py 108-118), so `data_to_params` meets such tables.
-/

namespace QInfer

section
variable {K : Type} [Ring K] [LinearOrder K] [FloorRing K]

theorem fillFields_row (l : Layout) (r : List K) (fs : List (String × FieldTy)) :
    ∀ (items : List (String × ColSpec)) (e : ExpVal K),
      (∃ err, fillFields ⟨l, .cell r⟩ fs items (.cell e) = .error err ∧ fillFields ⟨l, .vec [r]⟩ fs items (.vec [e]) = .error err) ∨
      ∃ e', fillFields ⟨l, .cell r⟩ fs items (.cell e) = .ok (.cell e') ∧ fillFields ⟨l, .vec [r]⟩ fs items (.vec [e]) = .ok (.vec [e'])
  | [], e => .inr ⟨e, rfl, rfl⟩
  | (key, c) :: rest, e => by
    simp only [fillFields]
    rcases hc : colIdx l c with err | j
    · exact .inl ⟨err, rfl, rfl⟩
    simp only [bind, Except.bind]
    rcases hl : fs.lookup key with _ | t
    · exact .inl ⟨_, rfl, rfl⟩
    · exact fillFields_row l r fs rest (e.setField key (t.cast (r.getD j 0)))

/-- **C81, one row.**  A row alone is read as the table with this row only: the same error, or the one outcome and the one experiment of that table,
without the axis. -/
theorem C81_one_row (l : Layout) (r : List K) (dt : ExpDtype) (col : ColSpec) (cols : ColsArg) :
    (∀ err, dataToParams ⟨l, .cell r⟩ dt col cols = .error err ↔ dataToParams ⟨l, .vec [r]⟩ dt col cols = .error err) ∧
    (∀ os es, dataToParams ⟨l, .cell r⟩ dt col cols = .ok (os, es) ↔
      ∃ o e, os = .cell o ∧ es = .cell e ∧ dataToParams ⟨l, .vec [r]⟩ dt col cols = .ok (.vec [o], .vec [e])) := by
  have key : (∃ err, dataToParams ⟨l, .cell r⟩ dt col cols = .error err ∧ dataToParams ⟨l, .vec [r]⟩ dt col cols = .error err) ∨
      ∃ o e, dataToParams ⟨l, .cell r⟩ dt col cols = .ok (.cell o, .cell e) ∧
        dataToParams ⟨l, .vec [r]⟩ dt col cols = .ok (.vec [o], .vec [e]) := by
    simp only [dataToParams]
    rcases hc : colIdx l col with err | jo
    · exact .inl ⟨err, rfl, rfl⟩
    simp only [bind, Except.bind, pure, Except.pure]
    rcases dt with t | t | fs
    · rcases cols with _ | c | items
      · exact .inl ⟨_, rfl, rfl⟩
      · rcases hj : colIdx l c with err | j
        · exact .inl ⟨err, by simp [hj], by simp [hj]⟩
        · exact .inr ⟨_, _, by simp only [hj]; rfl, by simp only [hj]; rfl⟩
      · exact .inl ⟨_, rfl, rfl⟩
    · rcases cols with _ | c | items
      · exact .inl ⟨_, rfl, rfl⟩
      · exact .inl ⟨_, rfl, rfl⟩
      · rcases items with _ | ⟨⟨k, c⟩, rest⟩
        · exact .inr ⟨_, _, rfl, rfl⟩
        · rcases hj : colIdx l c with err | j
          · exact .inl ⟨err, by simp [hj], by simp [hj]⟩
          · exact .inl ⟨_, by simp only [hj]; rfl, by simp only [hj]⟩
    · rcases cols with _ | c | items
      · exact .inl ⟨_, rfl, rfl⟩
      · exact .inl ⟨_, rfl, rfl⟩
      · rcases fillFields_row l r fs items (.record (fs.map fun p => (p.1, none))) with ⟨err, h1, h2⟩ | ⟨e', h1, h2⟩
        · refine .inl ⟨err, ?_, ?_⟩
          · simp only [column, Arr01.map]
            rw [h1]
          · simp only [column, Arr01.map, List.map_cons, List.map_nil]
            rw [h2]
        · refine .inr ⟨trunc (r.getD jo 0), e', ?_, ?_⟩
          · simp only [column, Arr01.map]
            rw [h1]
          · simp only [column, Arr01.map, List.map_cons, List.map_nil]
            rw [h2]
  rcases key with ⟨err, h1, h2⟩ | ⟨o, e, h1, h2⟩
  · rw [h1, h2]
    exact ⟨fun _ => Iff.rfl, fun os es => ⟨fun h => by simp at h, fun ⟨_, _, _, _, h⟩ => by simp at h⟩⟩
  · rw [h1, h2]
    refine ⟨fun err => by simp, fun os es => ⟨fun h => ?_, fun ⟨o', e', ho, he, h⟩ => ?_⟩⟩
    · simp only [Except.ok.injEq, Prod.mk.injEq] at h
      exact ⟨o, e, h.1.symm, h.2.symm, rfl⟩
    · simp only [Except.ok.injEq, Prod.mk.injEq, Arr01.vec.injEq, List.cons.injEq, and_true] at h
      rw [ho, he, h.1, h.2]

end

/-- Case for C81: one row with two fields, and the error for a column that is not there. -/
example : (dataToParams (K := ℚ) ⟨.plain 3, .cell [1/2, 7, 3]⟩ (.fields [("t", .flt), ("n_meas", .int)]) (-1, "counts")
      (.dict [("n_meas", (1, "n_shots")), ("t", (0, "t"))])).toOption =
    some (.cell 3, .cell (.record [("t", some (1/2)), ("n_meas", some 7)])) ∧
    (dataToParams (K := ℚ) ⟨.plain 3, .cell [1/2, 7, 3]⟩ (.fields [("t", .flt)]) (-1, "counts") (.dict [("t", (3, "t"))])).toOption = none := by
  refine ⟨?_, ?_⟩ <;> decide +kernel

end QInfer
