import Verif.Model.Derived
import Mathlib.Data.List.Basic

/-! # C90: settings and defaults of models -/

namespace QInfer

variable {K : Type*}

/-- What an assignment says about each setting. -/
def SetOp.identical? : SetOp K → Option Bool
  | .identical v => some v
  | _ => none

def SetOp.threshold? : SetOp K → Option K
  | .threshold v => some v
  | _ => none

/-- The last value assigned, or the initial one. -/
def Spec.lastOr {α β : Type*} (get : α → Option β) (init : β) (ops : List α) : β :=
  ((ops.filterMap get).getLast?).getD init

theorem lastOr_cons {α β : Type*} (get : α → Option β) (init : β) (op : α) (ops : List α) :
    Spec.lastOr get init (op :: ops) = Spec.lastOr get ((get op).getD init) ops := by
  unfold Spec.lastOr
  cases h : get op with
  | none => rw [List.filterMap_cons_none h]; rfl
  | some v =>
    rw [List.filterMap_cons_some h, List.getLast?_cons]
    rfl

/-- **C90, the cutoff cannot be set (finding).**  Assigning to `n_outcomes_cutoff` fails with
`RecursionError`, whatever depth the interpreter allows. -/
theorem C90_cutoff_recursion (depth : Nat) (s : Settings K) (v : Option Nat) :
    setSetting depth s (.cutoff v) = .error .recursionError := by
  induction depth with
  | zero => rfl
  | succ n ih => exact ih

/-- **C90, settings (partial).**  After any sequence of assignments, `allow_identical_outcomes` and
`outcome_warning_threshold` read back the value last assigned to them, independent of assignments
to other settings.  What is missing is the same for `n_outcomes_cutoff`, which keeps the value
given to the constructor. -/
theorem C90_settings_partial (depth : Nat) (s : Settings K) (ops : List (SetOp K)) :
    (setAll (depth + 1) s ops).identical = Spec.lastOr SetOp.identical? s.identical ops ∧
    (setAll (depth + 1) s ops).threshold = Spec.lastOr SetOp.threshold? s.threshold ops ∧
    (setAll (depth + 1) s ops).cutoff = s.cutoff := by
  induction ops generalizing s with
  | nil => exact ⟨rfl, rfl, rfl⟩
  | cons op ops ih =>
    have h : setAll (depth + 1) s (op :: ops) =
        setAll (depth + 1) ((setSetting (depth + 1) s op).toOption.getD s) ops := rfl
    rw [h, lastOr_cons, lastOr_cons]
    have := ih ((setSetting (depth + 1) s op).toOption.getD s)
    cases op with
    | identical v => exact this
    | threshold v => exact this
    | cutoff v =>
      rw [C90_cutoff_recursion] at this ⊢
      exact this

/-- **C90, default time step.**  By default, `update_timestep` returns an array with axes for models,
parameters and experiments in which every experiment leaves every model as it is, for any number
of each. -/
theorem C90_timestep {α : Type*} (nM d nE : Nat) (x : List Nat → α) :
    ∃ out, defaultTimestep ⟨[nM, d], x⟩ nE = .ok out ∧ out.shape = [nM, d, nE] ∧
      ∀ m i e, out.get [m, i, e] = x [m, i] := by
  refine ⟨_, rfl, rfl, fun m i e => rfl⟩

/-- **C90, types of outcomes.**  For a model whose number of outcomes varies,
`are_expparam_dtypes_consistent` returns `True` exactly if any two experiments have outcomes of the
same type; in particular for no experiment and for one. -/
theorem C90_dtypes {D : Type*} [DecidableEq D] (dtypes : List D) :
    dtypesConsistent false dtypes = true ↔ ∀ a ∈ dtypes, ∀ b ∈ dtypes, a = b := by
  cases dtypes with
  | nil => simp [dtypesConsistent]
  | cons first rest =>
    simp only [dtypesConsistent, Bool.false_eq_true, if_false, List.all_eq_true, decide_eq_true_eq,
      List.mem_cons]
    constructor
    · rintro h a (rfl | ha) b (rfl | hb)
      · rfl
      · exact (h b hb).symm
      · exact h a ha
      · rw [h a ha, h b hb]
    · intro h a ha
      exact h a (Or.inr ha) first (Or.inl rfl)

/-- Case for C90: the threshold is set twice, the cutoff once. -/
example : setAll 1000 (⟨false, 99, none⟩ : Settings Nat)
      [.threshold 50, .cutoff (some 3), .identical true, .threshold 70] = ⟨true, 70, none⟩ := by
  decide +kernel

/-- Case for C90: three experiments, the last with outcomes of another type. -/
example : dtypesConsistent false ["i8", "i8", "f8"] = false := by decide

end QInfer
