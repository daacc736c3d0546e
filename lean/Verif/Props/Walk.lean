import Verif.Model.Walk
import Mathlib.Tactic.Linarith
import Mathlib.Tactic.Ring
import Mathlib.Tactic.FieldSimp
import Mathlib.Algebra.BigOperators.Group.List.Lemmas
import Mathlib.Algebra.BigOperators.Ring.Finset
import Mathlib.Algebra.Order.Ring.Rat
import Mathlib.Algebra.Field.Rat

/-! # C45, C46: poisoned likelihoods and random walks -/

set_option linter.unusedSectionVars false

namespace QInfer

/-! ## C45 -/

/-- `r` is the point of `[0,1]` closest to `x`. -/
def Closest01 (x r : ℝ) : Prop := 0 ≤ r ∧ r ≤ 1 ∧ ∀ y, 0 ≤ y → y ≤ 1 → |x - r| ≤ |x - y|

theorem clip_closest (x : ℝ) : Closest01 x (clip 0 1 x) := by
  unfold clip
  refine ⟨le_min (le_max_right _ _) zero_le_one, min_le_right _ _, ?_⟩
  intro y h0 h1
  rcases le_total x 0 with h | h
  · rw [max_eq_right h, min_eq_left zero_le_one, abs_of_nonpos (by linarith),
      abs_of_nonpos (by linarith)]
    linarith
  · rw [max_eq_left h]
    rcases le_total x 1 with h' | h'
    · rw [min_eq_left h', sub_self, abs_zero]; exact abs_nonneg _
    · rw [min_eq_right h', abs_of_nonneg (by linarith), abs_of_nonneg (by linarith)]
      linarith

/-- **C45, tolerance mode.**  Whatever the noise, the tolerance and even the underlying value, the
result is the point of `[0,1]` closest to the perturbed value. -/
theorem C45_ale (tol z l : ℝ) :
    ∃ r, poisonEntry (.ale tol) z l = .ok (.fin r) ∧ Closest01 (l + z * tol) r :=
  ⟨_, rfl, clip_closest _⟩

/-- **C45, sampling mode.**  For a likelihood in `[0,1]`, a number of samples and a hedge that are not
negative, the result is the point of `[0,1]` closest to the value perturbed by the noise times the
standard error. -/
theorem C45_mle (n hedge z l : ℝ) (hn : 0 ≤ n) (hh : 0 ≤ hedge) (h0 : 0 ≤ l) (h1 : l ≤ 1) :
    ∃ r, poisonEntry (.mle (some n) hedge) z l = .ok (.fin r) ∧
      Closest01 (l + z * Real.sqrt (l * (1 - l) / (n + 2 * hedge + 1))) r := by
  have hden : 0 < n + 2 * hedge + 1 := by linarith
  have hnum : ¬ l * (1 - l) / (n + 2 * hedge + 1) < 0 :=
    not_lt.2 (div_nonneg (mul_nonneg h0 (by linarith)) hden.le)
  refine ⟨clip 0 1 (l + z * Real.sqrt (l * (1 - l) / (n + 2 * hedge + 1))), ?_, clip_closest _⟩
  simp [poisonEntry, binomErrFlt, hden.ne', hnum, fltMul, fltAddClip]

/-- **C45, range.**  In every mode and for every underlying value and noise, a result that is not NaN
lies in `[0,1]`. -/
theorem C45_range (mode : PoisonMode) (z l : ℝ) (r : Flt) (h : poisonEntry mode z l = .ok r) :
    r = .nan ∨ ∃ x, r = .fin x ∧ 0 ≤ x ∧ x ≤ 1 := by
  have key : ∀ e : Flt, fltAddClip l e = .nan ∨ ∃ x, fltAddClip l e = .fin x ∧ 0 ≤ x ∧ x ≤ 1 := by
    intro e
    cases e with
    | nan => exact Or.inl rfl
    | posInf => exact Or.inr ⟨1, rfl, zero_le_one, le_rfl⟩
    | negInf => exact Or.inr ⟨0, rfl, le_rfl, zero_le_one⟩
    | fin e => exact Or.inr ⟨_, rfl, (clip_closest _).1, (clip_closest _).2.1⟩
  cases mode with
  | ale tol => cases h; exact key _
  | mle n hedge =>
    cases n with
    | none => cases h
    | some n => cases h; exact key _

/-- **C45, no noise.**  A probability is returned unchanged if the draw is zero, the tolerance is zero,
or (in sampling mode) the probability is certain. -/
theorem C45_no_noise (l : ℝ) (h0 : 0 ≤ l) (h1 : l ≤ 1) :
    (∀ z tol, z = 0 ∨ tol = 0 → poisonEntry (.ale tol) z l = .ok (.fin l)) ∧
    (∀ z n hedge, 0 ≤ n → 0 ≤ hedge → z = 0 ∨ l = 0 ∨ l = 1 →
      poisonEntry (.mle (some n) hedge) z l = .ok (.fin l)) := by
  have hc : clip 0 1 l = l := by rw [clip, max_eq_left h0, min_eq_left h1]
  constructor
  · intro z tol h
    have : z * tol = 0 := mul_eq_zero.2 h
    simp [poisonEntry, fltAddClip, this, hc]
  · intro z n hedge hn hh h
    have hden : 0 < n + 2 * hedge + 1 := by linarith
    have hnum : ¬ l * (1 - l) / (n + 2 * hedge + 1) < 0 :=
      not_lt.2 (div_nonneg (mul_nonneg h0 (by linarith)) hden.le)
    have : z * Real.sqrt (l * (1 - l) / (n + 2 * hedge + 1)) = 0 := by
      rcases h with rfl | rfl | rfl <;> simp
    simp only [poisonEntry, binomErrFlt, hden.ne', hnum, fltMul, fltAddClip, if_false, this,
      add_zero, hc]

/-- **C45, degenerate numbers of samples.**  If `n_samples + 2 hedge` is `-1`, a probability strictly between
0 and 1 is moved to 1 by positive noise and to 0 by negative noise, and is NaN without noise; if it is
smaller than `-1` all of these are NaN. -/
theorem C45_degenerate (n hedge z l : ℝ) (h0 : 0 < l) (h1 : l < 1) :
    (n + 2 * hedge = -1 →
      (0 < z → poisonEntry (.mle (some n) hedge) z l = .ok (.fin 1)) ∧
      (z < 0 → poisonEntry (.mle (some n) hedge) z l = .ok (.fin 0)) ∧
      (z = 0 → poisonEntry (.mle (some n) hedge) z l = .ok .nan)) ∧
    (n + 2 * hedge < -1 → poisonEntry (.mle (some n) hedge) z l = .ok .nan) := by
  have hnum : 0 < l * (1 - l) := mul_pos h0 (by linarith)
  constructor
  · intro hd
    have hden : n + 2 * hedge + 1 = 0 := by linarith
    refine ⟨fun hz => ?_, fun hz => ?_, fun hz => ?_⟩
    · simp [poisonEntry, binomErrFlt, hden, hnum, fltMul, fltAddClip, hz.ne', hz]
    · simp [poisonEntry, binomErrFlt, hden, hnum, fltMul, fltAddClip, hz.ne, not_lt.2 hz.le]
    · simp [poisonEntry, binomErrFlt, hden, hnum, fltMul, fltAddClip, hz]
  · intro hd
    have hden : n + 2 * hedge + 1 < 0 := by linarith
    have hq : l * (1 - l) / (n + 2 * hedge + 1) < 0 := div_neg_of_pos_of_neg hnum hden
    simp [poisonEntry, binomErrFlt, hden.ne, hq, fltMul, fltAddClip]

/-- **C45, construction.**  The check of the constructor never fires.  Given both `tol` and
`n_samples`, `n_samples` is ignored; given neither, the model is built and every likelihood call
raises `TypeError`. -/
theorem C45_constructor (tol n hedge : Option ℝ) :
    (∃ mode, poisonInit tol n hedge = .ok mode) ∧
    (∀ t, tol = some t → poisonInit tol n hedge = .ok (.ale t)) ∧
    (∀ k, tol = none → n = some k → poisonInit tol n hedge = .ok (.mle (some k) (hedge.getD 0))) ∧
    (tol = none → n = none → ∃ mode, poisonInit tol n hedge = .ok mode ∧
      ∀ z l, poisonEntry mode z l = .error .typeError) := by
  cases tol <;> cases n <;> simp [poisonInit, poisonEntry]

/-- Case for C45: noise pushing the value out of the interval on either side. -/
example : poisonEntry (.ale (1/2)) 3 (1/4) = .ok (.fin 1) ∧
    poisonEntry (.ale (1/2)) (-3) (1/4) = .ok (.fin 0) ∧
    poisonEntry (.ale (1/2)) 1 (1/4) = .ok (.fin (3/4)) := by
  refine ⟨?_, ?_, ?_⟩ <;> norm_num [poisonEntry, fltAddClip, clip]

/-! ## C46 -/

section
variable {K : Type} [Field K]

/-- **C46, `RandomWalkModel`.**  Every parameter of every particle in every experiment gets the step
from a row of the draw; different particles and experiments use different rows, all among the
`n_models * n_exps` rows drawn. -/
theorem C46_random_walk (nMps nEps : Nat) (draw mps : Nat → Nat → K) :
    ∃ row : Nat → Nat → Nat,
      (∀ m e, m < nMps → e < nEps → row m e < nMps * nEps) ∧
      (∀ m e m' e', e < nEps → e' < nEps → row m e = row m' e' → m = m' ∧ e = e') ∧
      ∀ m p e, rwStep nEps draw mps m p e = mps m p + draw (row m e) p := by
  refine ⟨fun m e => m * nEps + e, ?_, ?_, fun _ _ _ => rfl⟩
  · intro m e hm he
    calc m * nEps + e < m * nEps + nEps := by omega
      _ = (m + 1) * nEps := by ring
      _ ≤ nMps * nEps := Nat.mul_le_mul_right _ hm
  · intro m e m' e' he he' h
    have hq : ∀ a b, b < nEps → (a * nEps + b) / nEps = a ∧ (a * nEps + b) % nEps = b := by
      intro a b hb
      constructor
      · rw [Nat.add_comm, Nat.add_mul_div_right _ _ (by omega), Nat.div_eq_of_lt hb, Nat.zero_add]
      · rw [Nat.add_comm, Nat.add_mul_mod_self_right, Nat.mod_eq_of_lt hb]
    simp only at h
    have h1 := hq m e he
    have h2 := hq m' e' he'
    rw [h] at h1
    exact ⟨h1.1.symm.trans h2.1, h1.2.symm.trans h2.2⟩

/-- **C46, dimensions.**  `RandomWalkModel` raises `TypeError` exactly if the step distribution has
another number of variables than the model. -/
theorem C46_random_walk_init (d n : Nat) : rwInit d n = .error .typeError ↔ d ≠ n := by
  unfold rwInit
  split <;> simp_all

/-! ### index resolution -/

theorem axisIndices_nonneg (len len' : Nat) (hle : len ≤ len') (is : List Int) (l : List Nat)
    (h0 : ∀ i ∈ is, 0 ≤ i) (h : axisIndices len is = .ok l) : axisIndices len' is = .ok l := by
  induction is generalizing l with
  | nil => exact h
  | cons i is ih =>
    have hi := h0 i (by simp)
    rw [axisIndices] at h ⊢
    unfold axisIndex at h ⊢
    rw [if_pos hi] at h ⊢
    by_cases hlt : i < len
    · rw [if_pos hlt] at h
      rw [if_pos (by omega)]
      cases hr : axisIndices len is with
      | error e => rw [hr] at h; cases h
      | ok js =>
        rw [hr] at h
        rw [ih js (fun i hi => h0 i (by simp [hi])) hr]
        exact h
    · rw [if_neg hlt] at h; cases h

theorem foldl_max_ge (l : List Nat) (a : Nat) : a ≤ l.foldl max a ∧ ∀ x ∈ l, x ≤ l.foldl max a := by
  induction l generalizing a with
  | nil => simp
  | cons y l ih =>
    obtain ⟨h1, h2⟩ := ih (max a y)
    refine ⟨le_trans (le_max_left _ _) h1, ?_⟩
    intro x hx
    rcases List.mem_cons.1 hx with rfl | hx
    · exact le_trans (le_max_right _ _) h1
    · exact h2 x hx

theorem foldl_max_le (l : List Nat) (a b : Nat) (ha : a ≤ b) (h : ∀ x ∈ l, x ≤ b) :
    l.foldl max a ≤ b := by
  induction l generalizing a with
  | nil => exact ha
  | cons y l ih =>
    exact ih (max a y) (max_le ha (h y (by simp))) fun x hx => h x (by simp [hx])

theorem mem_range_drop (lo hi x : Nat) : x ∈ (List.range hi).drop lo ↔ lo ≤ x ∧ x < hi := by
  rw [List.mem_drop_iff_getElem]
  constructor
  · rintro ⟨i, h, rfl⟩
    simp at h ⊢; omega
  · rintro ⟨h1, h2⟩
    exact ⟨x - lo, by simp; omega, by simp; omega⟩

theorem extra_ge (n : Nat) (cov : RwCov K) (h : cov.extra n ≠ 0) : n ≤ cov.extra n := by
  cases cov with
  | fixedDiag => simp [RwCov.extra] at h
  | fixedDense => simp [RwCov.extra] at h
  | learnedDiag => exact le_rfl
  | learnedDense =>
    simp only [RwCov.extra]
    rw [Nat.le_div_iff_mul_le (by omega)]
    rcases n with _ | n
    · simp
    · nlinarith

/-- What an accepted model guarantees about its index set. -/
theorem grwInit_ok (nUnd : Nat) (idxs : RwIdxs) (cov : RwCov K) (g : GRw K)
    (h : grwInit nUnd idxs cov = .ok g) :
    g.nUnd = nUnd ∧ g.idxs = idxs ∧ g.cov = cov ∧
    ∃ w again, idxs.resolve nUnd nUnd = .ok w ∧ w ≠ [] ∧ w.length = g.nRw ∧
      idxs.resolve nUnd g.nParams = .ok again ∧ again ≠ [] ∧
      again.foldl max 0 ≤ w.foldl max 0 := by
  unfold grwInit at h
  cases hw : idxs.resolve nUnd nUnd with
  | error e => rw [hw] at h; cases h
  | ok w =>
    rw [hw] at h
    change (if w = [] then Except.error PyErr.indexError else _) = _ at h
    by_cases hne : w = []
    · rw [if_pos hne] at h; cases h
    · rw [if_neg hne] at h
      cases ha : idxs.resolve nUnd (GRw.nParams ⟨nUnd, idxs, w.length, cov⟩) with
      | error e => rw [ha] at h; cases h
      | ok again =>
        rw [ha] at h
        change (if again = [] then Except.error PyErr.valueError else
          if again.foldl max 0 > w.foldl max 0 then Except.error PyErr.indexError else
          Except.ok _) = _ at h
        split at h
        · cases h
        · rename_i h1
          split at h
          · cases h
          · rename_i h2
            cases h
            exact ⟨rfl, rfl, rfl, w, again, rfl, hne, rfl, ha, h1, by omega⟩

/-- Index sets that do not count from the end in a list, nor start a slice before the first element. -/
def RwIdxs.Plain (nUnd : Nat) : RwIdxs → Prop
  | .all => True
  | .list is => ∀ i ∈ is, 0 ≤ i
  | .slice a _ => ∀ i, a = some i → -(nUnd : Int) ≤ i

/-- Accepted plain index sets select the same parameters of the extended model as of the underlying
one. -/
theorem resolve_stable (nUnd : Nat) (idxs : RwIdxs) (cov : RwCov K) (g : GRw K)
    (h : grwInit nUnd idxs cov = .ok g) (hneg : cov.extra g.nRw ≠ 0 → idxs.Plain nUnd) :
    ∃ w, idxs.resolve nUnd nUnd = .ok w ∧ w ≠ [] ∧ w.length = g.nRw ∧ g.walked = .ok w := by
  obtain ⟨e1, e2, e3, w, again, hw, hne, hlen, ha, hane, hmax⟩ := grwInit_ok nUnd idxs cov g h
  refine ⟨w, hw, hne, hlen, ?_⟩
  suffices hs : idxs.resolve nUnd g.nParams = .ok w by
    rw [GRw.walked, e1, e2, hs]
    show (if w.length = g.nRw then _ else _) = _
    rw [if_pos hlen]
  have hnp : g.nParams = nUnd + cov.extra g.nRw := by rw [GRw.nParams, e1, e3]
  by_cases hx : cov.extra g.nRw = 0
  · rw [hnp, hx]; exact hw
  have hge : g.nRw ≤ cov.extra g.nRw := extra_ge _ _ hx
  have hplain := hneg hx
  cases idxs with
  | all =>
    simp only [RwIdxs.resolve] at hw ⊢
    rw [← hw, hnp]; congr 2; omega
  | list is => exact axisIndices_nonneg nUnd _ (by omega) is w hplain hw
  | slice a b =>
    simp only [RwIdxs.resolve] at hw ha ⊢
    generalize hlo : sliceLo nUnd a = lo at hw
    generalize hhi : sliceHi nUnd b = hi at hw
    generalize hlo' : sliceLo g.nParams a = lo' at ha ⊢
    generalize hhi' : sliceHi g.nParams b = hi' at ha ⊢
    cases hw
    cases ha
    -- both lists are non-empty intervals
    have h1 : lo < hi := by
      by_contra hc
      exact hne (List.drop_eq_nil_of_le (by simp; omega))
    have h2 : lo' < hi' := by
      by_contra hc
      exact hane (List.drop_eq_nil_of_le (by simp; omega))
    have hm1 : ((List.range hi).drop lo).foldl max 0 ≤ hi - 1 :=
      foldl_max_le _ _ _ (Nat.zero_le _) fun x hx => by
        rw [mem_range_drop] at hx; omega
    have hm2 : hi' - 1 ≤ ((List.range hi').drop lo').foldl max 0 :=
      (foldl_max_ge _ 0).2 _ (by rw [mem_range_drop]; omega)
    have hlen' : hi - lo = g.nRw := by rw [← hlen]; simp
    have hhile : hi' ≤ hi := by omega
    rw [hnp] at hhi' hlo'
    have hbound : hi ≤ nUnd := by
      cases b with
      | none => simp [sliceHi] at hhi; omega
      | some i => simp only [sliceHi, sliceBound] at hhi; split at hhi <;> omega
    have hhieq : hi' = hi := by
      cases b with
      | none => simp only [sliceHi] at hhi hhi'; omega
      | some i =>
        simp only [sliceHi, sliceBound] at hhi hhi'
        split at hhi <;> rename_i hs
        · rw [if_pos hs] at hhi'; omega
        · rw [if_neg hs] at hhi'; omega
    have hloeq : lo' = lo := by
      cases a with
      | none => simp only [sliceLo] at hlo hlo'; omega
      | some i =>
        have hi0 := hplain i rfl
        simp only [sliceLo, sliceBound] at hlo hlo'
        split at hlo <;> rename_i hs
        · rw [if_pos hs] at hlo'; omega
        · rw [if_neg hs] at hlo'
          -- a negative start moves past the end of the slice
          omega
    rw [hhieq, hloeq]

theorem lastPos_some (p : Nat) (l : List Nat) (j : Nat) (h : lastPos p l = some j) :
    l[j]? = some p := by
  induction l generalizing j with
  | nil => simp [lastPos] at h
  | cons q qs ih =>
    rw [lastPos] at h
    cases hq : lastPos p qs with
    | some k =>
      rw [hq] at h
      simp only [Option.some.injEq] at h
      subst h
      simpa using ih k hq
    | none =>
      rw [hq] at h
      by_cases hqp : q = p
      · simp only [hqp, if_true, Option.some.injEq] at h
        subst h; simp [hqp]
      · simp [hqp] at h

theorem lastPos_none (p : Nat) (l : List Nat) : lastPos p l = none ↔ p ∉ l := by
  induction l with
  | nil => simp [lastPos]
  | cons q qs ih =>
    rw [lastPos]
    cases hq : lastPos p qs with
    | some k =>
      have : p ∈ qs := by
        by_contra hc
        rw [ih.2 hc] at hq; cases hq
      simp [this]
    | none =>
      have := ih.1 hq
      by_cases hqp : q = p
      · simp [hqp]
      · simp [hqp, this, Ne.symm hqp]

/-! ### the step -/

/-- The factor of the covariance by which a particle is dispersed: a diagonal or (lower triangular)
dense matrix, fixed or read off the particle's own appended parameters. -/
def stepFactor (g : GRw K) (mp : Nat → K) (j k : Nat) : K :=
  match g.cov with
  | .fixedDiag scale => if j = k then scale j else 0
  | .learnedDiag => if j = k then mp (g.nUnd + j) else 0
  | .fixedDense chol => chol j k
  | .learnedDense => if k ≤ j then mp (g.nUnd + (j * (j + 1) / 2 + k)) else 0

theorem sum_range_single (n j : Nat) (hj : j < n) (a : K) (f : Nat → K) :
    ((List.range n).map fun k => (if j = k then a else 0) * f k).sum = a * f j := by
  induction n with
  | zero => omega
  | succ n ih =>
    rw [List.range_succ, List.map_append, List.sum_append]
    by_cases h : j = n
    · subst h
      have : ((List.range j).map fun k => (if j = k then a else 0) * f k).sum = 0 := by
        apply List.sum_eq_zero
        intro x hx
        obtain ⟨k, hk, rfl⟩ := List.mem_map.1 hx
        have := List.mem_range.mp hk
        rw [if_neg (by omega), zero_mul]
      rw [this]; simp
    · rw [ih (by omega)]; simp [h]

theorem mix_radix (b x y x' y' : Nat) (hy : y < b) (hy' : y' < b) (h : x * b + y = x' * b + y') :
    x = x' ∧ y = y' := by
  have hq : ∀ a c, c < b → (a * b + c) / b = a ∧ (a * b + c) % b = c := by
    intro a c hc
    constructor
    · rw [Nat.add_comm, Nat.add_mul_div_right _ _ (by omega), Nat.div_eq_of_lt hc, Nat.zero_add]
    · rw [Nat.add_comm, Nat.add_mul_mod_self_right, Nat.mod_eq_of_lt hc]
  have h1 := hq x y hy
  have h2 := hq x' y' hy'
  rw [h] at h1
  exact ⟨h1.1.symm.trans h2.1, h1.2.symm.trans h2.2⟩

/-- The steps are the factor applied to draws that no other particle, experiment or direction uses. -/
theorem grwSteps_spec (g : GRw K) (nMps nEps : Nat) :
    ∃ ι : Nat → Nat → Nat → Nat,
      (∀ m k e m' k' e', m < nMps → m' < nMps → k < g.nRw → k' < g.nRw → e < nEps → e' < nEps →
        ι m k e = ι m' k' e' → m = m' ∧ k = k' ∧ e = e') ∧
      (∀ m k e, m < nMps → k < g.nRw → e < nEps → ι m k e < nMps * g.nRw * nEps) ∧
      ∀ mps z m j e, j < g.nRw →
        grwSteps g nMps nEps mps z m j e =
          ((List.range g.nRw).map fun k => stepFactor g (mps m) j k * z (ι m k e)).sum := by
  obtain ⟨nUnd, idxs, nRw, cov⟩ := g
  have hlt : ∀ a b x y : Nat, x < a → y < b → x * b + y < a * b := by
    intro a b x y hx hy
    calc x * b + y < x * b + b := by omega
      _ = (x + 1) * b := by ring
      _ ≤ a * b := Nat.mul_le_mul_right _ hx
  have hd : ∀ m k e, m < nMps → k < nRw → e < nEps → (e * nMps + m) * nRw + k < nMps * nRw * nEps := by
    intro m k e hm hk he
    have := hlt (nEps * nMps) nRw _ k (hlt nEps nMps e m he hm) hk
    calc _ < _ := this
      _ = _ := by ring
  cases cov with
  | fixedDiag scale =>
    refine ⟨fun m k e => (e * nMps + m) * nRw + k, ?_, hd, ?_⟩
    · intro m k e m' k' e' hm hm' hk hk' he he' h
      obtain ⟨h1, h2⟩ := mix_radix nRw _ _ _ _ hk hk' h
      obtain ⟨h3, h4⟩ := mix_radix nMps _ _ _ _ hm hm' h1
      exact ⟨h4, h2, h3⟩
    · intro mps z m j e hj
      simp only [grwSteps, stepFactor]
      rw [sum_range_single nRw j hj]
  | learnedDiag =>
    refine ⟨fun m k e => (e * nMps + m) * nRw + k, ?_, hd, ?_⟩
    · intro m k e m' k' e' hm hm' hk hk' he he' h
      obtain ⟨h1, h2⟩ := mix_radix nRw _ _ _ _ hk hk' h
      obtain ⟨h3, h4⟩ := mix_radix nMps _ _ _ _ hm hm' h1
      exact ⟨h4, h2, h3⟩
    · intro mps z m j e hj
      simp only [grwSteps, stepFactor]
      rw [sum_range_single nRw j hj]
  | fixedDense chol =>
    refine ⟨fun m k e => k * (nMps * nEps) + (m * nEps + e), ?_, fun m k e hm hk he =>
      (hlt nRw _ k _ hk (hlt nMps nEps m e hm he)).trans_eq (by ring), fun _ _ _ _ _ _ => rfl⟩
    intro m k e m' k' e' hm hm' hk hk' he he' h
    have hb : ∀ m e, m < nMps → e < nEps → m * nEps + e < nMps * nEps := by
      intro m e hm he
      calc m * nEps + e < m * nEps + nEps := by omega
        _ = (m + 1) * nEps := by ring
        _ ≤ nMps * nEps := Nat.mul_le_mul_right _ hm
    obtain ⟨h1, h2⟩ := mix_radix _ _ _ _ _ (hb m e hm he) (hb m' e' hm' he') h
    obtain ⟨h3, h4⟩ := mix_radix nEps _ _ _ _ he he' h2
    exact ⟨h3, h1, h4⟩
  | learnedDense =>
    refine ⟨fun m k e => (m * nRw + k) * nEps + e, ?_, fun m k e hm hk he =>
      hlt _ nEps _ e (hlt nMps nRw m k hm hk) he, fun _ _ _ _ _ _ => rfl⟩
    intro m k e m' k' e' hm hm' hk hk' he he' h
    obtain ⟨h1, h2⟩ := mix_radix nEps _ _ _ _ he he' h
    obtain ⟨h3, h4⟩ := mix_radix nRw _ _ _ _ hk hk' h1
    exact ⟨h3, h4, h2⟩

/-- **C46, `GaussianRandomWalkModel`, for plain index sets or a fixed covariance.**  For every accepted model the walk parameters `w` are those selected from
the underlying model.  `update_timestep` succeeds; every other parameter, in particular the appended
ones, is unchanged in every experiment's copy; the `j`-th walk parameter gets the experiment's scale
times the `j`-th entry of the factor applied to standard normal draws, no draw being used twice and all of
them lying among the drawn ones.  Not
covered, because false: with a learned covariance, lists with negative indices and slices that start
before the first parameter, see `C46_negative_indices_walk_elsewhere` and
`C46_long_negative_slice_fails`. -/
theorem C46_gaussian_walk_partial (nUnd : Nat) (idxs : RwIdxs) (cov : RwCov K) (g : GRw K)
    (h : grwInit nUnd idxs cov = .ok g)
    (hneg : cov.extra g.nRw ≠ 0 → idxs.Plain nUnd) (nMps nEps : Nat) :
    ∃ (w : List Nat) (ι : Nat → Nat → Nat → Nat),
      idxs.resolve nUnd nUnd = .ok w ∧ w.length = g.nRw ∧
      (∀ m k e m' k' e', m < nMps → m' < nMps → k < g.nRw → k' < g.nRw → e < nEps → e' < nEps →
        ι m k e = ι m' k' e' → m = m' ∧ k = k' ∧ e = e') ∧
      (∀ m k e, m < nMps → k < g.nRw → e < nEps → ι m k e < nMps * g.nRw * nEps) ∧
      ∀ (scale z : Nat → K) (mps : Nat → Nat → K), ∃ r, grwStep g nMps nEps scale z mps = .ok r ∧
        (∀ m p e, p ∉ w → r m p e = mps m p) ∧
        (w.Nodup → ∀ m j e (hj : j < w.length), r m w[j] e = mps m w[j] + scale e *
          ((List.range g.nRw).map fun k => stepFactor g (mps m) j k * z (ι m k e)).sum) := by
  obtain ⟨w, hw, hne, hlen, hw'⟩ := resolve_stable nUnd idxs cov g h hneg
  obtain ⟨e1, e2, -⟩ := grwInit_ok nUnd idxs cov g h
  obtain ⟨ι, hι, hb, hs⟩ := grwSteps_spec g nMps nEps
  refine ⟨w, ι, hw, hlen, hι, hb, ?_⟩
  intro scale z mps
  refine ⟨fun m p e => scatterAdd w (mps m)
    (fun j => scale e * grwSteps g nMps nEps mps z m j e) p, ?_, ?_, ?_⟩
  · rw [grwStep, hw']; rfl
  · intro m p e hp
    simp only [scatterAdd, (lastPos_none p w).2 hp]
  · intro hnd m j e hj
    have hlast : lastPos w[j] w = some j := by
      cases hl : lastPos w[j] w with
      | none => exact absurd (List.getElem_mem hj) ((lastPos_none _ _).1 hl)
      | some k =>
        have hk := lastPos_some _ _ _ hl
        obtain ⟨hk', hk''⟩ := List.getElem?_eq_some_iff.1 hk
        rw [(List.Nodup.getElem_inj_iff hnd).1 hk'']
    simp only [scatterAdd, hlast]
    rw [hs mps z m j e (by omega)]

/-- **C46, the claim fails for negative indices.**  With three parameters, walk indices `[2, -3]` and a
learned diagonal covariance, the model is accepted and its walk parameters are 2 and 0.  The step
leaves parameter 0 alone for all draws, and parameter 2 moves with the deviation that belongs to
parameter 0. -/
theorem C46_negative_indices_walk_elsewhere :
    ∃ g : GRw ℚ, grwInit 3 (.list [2, -3]) .learnedDiag = .ok g ∧ g.nRw = 2 ∧ g.nParams = 5 ∧
      (RwIdxs.list [2, -3]).resolve 3 3 = .ok [2, 0] ∧
      ∀ (nMps nEps : Nat) (scale z : Nat → ℚ) (mps : Nat → Nat → ℚ), ∃ r,
        grwStep g nMps nEps scale z mps = .ok r ∧
        (∀ m e, r m 0 e = mps m 0) ∧
        ∀ m e, r m 2 e = mps m 2 + scale e * (mps m 4 * z ((e * nMps + m) * 2 + 1)) := by
  refine ⟨⟨3, .list [2, -3], 2, .learnedDiag⟩, rfl, rfl, rfl, rfl, ?_⟩
  intro nMps nEps scale z mps
  exact ⟨_, rfl, fun m e => rfl, fun m e => rfl⟩

/-- **C46, slices starting too early.**  With three parameters, the slice `-4:3` and a learned diagonal
covariance, the model is accepted, and every `update_timestep` raises `ValueError`. -/
theorem C46_long_negative_slice_fails :
    ∃ g : GRw ℚ, grwInit 3 (.slice (some (-4)) (some 3)) .learnedDiag = .ok g ∧
      ∀ (nMps nEps : Nat) (scale z : Nat → ℚ) (mps : Nat → Nat → ℚ),
        grwStep g nMps nEps scale z mps = .error .valueError :=
  ⟨⟨3, .slice (some (-4)) (some 3), 3, .learnedDiag⟩, rfl, fun _ _ _ _ _ => rfl⟩

/-- **C46, what a slice selects.**  The slice `a:b` of an axis with `len` entries selects, in order,
exactly the entries from `a` up to and without `b`; negative bounds count from the end, and a missing
bound leaves that side open. -/
theorem C46_slice_selects (nUnd len : Nat) (a b : Option Int) :
    ∃ w, (RwIdxs.slice a b).resolve nUnd len = .ok w ∧ w.Pairwise (· < ·) ∧
      ∀ i : Nat, i ∈ w ↔ i < len ∧
        (∀ x, a = some x → (if x < 0 then x + len else x) ≤ i) ∧
        ∀ y, b = some y → (i : Int) < if y < 0 then y + len else y := by
  refine ⟨_, rfl, List.pairwise_lt_range.sublist (List.drop_sublist _ _), fun i => ?_⟩
  have hm : ∀ lo hi : Nat, i ∈ (List.range hi).drop lo ↔ lo ≤ i ∧ i < hi := by
    intro lo hi
    rw [List.mem_iff_getElem]
    constructor
    · rintro ⟨k, hk, rfl⟩
      simp at hk ⊢; omega
    · rintro ⟨h1, h2⟩
      exact ⟨i - lo, by simp; omega, by simp; omega⟩
  rw [hm]
  have hlo : sliceLo len a ≤ i ↔ (i < len → ∀ x, a = some x → (if x < 0 then x + len else x) ≤ i) ∧
      (len ≤ i → sliceLo len a ≤ i) := by
    cases a with
    | none => simp [sliceLo]
    | some x =>
      simp only [sliceLo, sliceBound, Option.some.injEq, forall_eq']
      split_ifs <;> omega
  have hhi : i < sliceHi len b ↔ i < len ∧
      ∀ y, b = some y → (i : Int) < if y < 0 then y + len else y := by
    cases b with
    | none => simp [sliceHi]
    | some y =>
      simp only [sliceHi, sliceBound, Option.some.injEq, forall_eq']
      split_ifs <;> omega
  rw [hlo, hhi]
  constructor
  · rintro ⟨⟨h1, -⟩, h2, h3⟩; exact ⟨h2, h1 h2, h3⟩
  · rintro ⟨h1, h2, h3⟩; exact ⟨⟨fun _ => h2, fun h => absurd h1 (by omega)⟩, h1, h3⟩

/-- Case: the whole axis, and the last two of five. -/
example : (RwIdxs.slice none none).resolve 5 5 = .ok [0, 1, 2, 3, 4] ∧
    (RwIdxs.slice (some (-2)) none).resolve 5 5 = .ok [3, 4] ∧
    (RwIdxs.slice none (some (-2))).resolve 5 5 = .ok [0, 1, 2] := by decide +kernel

/-- **C46, whole-axis slices.**  With a learned covariance a slice without end (such as `np.s_[:]`) is
rejected with `IndexError`, although it selects existing parameters. -/
theorem C46_open_slice_rejected (nUnd lo : Nat) (hlo : lo < nUnd) (cov : RwCov K)
    (hc : cov.extra (nUnd - lo) ≠ 0) :
    grwInit nUnd (.slice (some lo) none) cov = .error .indexError := by
  have hr : ∀ len, lo < len → (RwIdxs.slice (some lo) none).resolve nUnd len =
      .ok ((List.range len).drop lo) := by
    intro len hl
    simp only [RwIdxs.resolve, sliceLo, sliceHi, sliceBound]
    rw [if_pos (by omega)]
    congr 2
    simp; omega
  have hne : ∀ len, lo < len → (List.range len).drop lo ≠ [] := by
    intro len hl hc
    have := congrArg List.length hc
    simp at this; omega
  have hlen : ((List.range nUnd).drop lo).length = nUnd - lo := by simp
  unfold grwInit
  rw [hr nUnd hlo]
  change (if (List.range nUnd).drop lo = [] then Except.error PyErr.indexError else _) = _
  rw [if_neg (hne nUnd hlo)]
  rw [hlen, hr (GRw.nParams ⟨nUnd, _, nUnd - lo, cov⟩) (by simp only [GRw.nParams]; omega)]
  change (if _ = [] then Except.error PyErr.valueError else _) = _
  rw [if_neg (hne _ (by simp only [GRw.nParams]; omega)), if_pos]
  have h1 : ((List.range nUnd).drop lo).foldl max 0 ≤ nUnd - 1 :=
    foldl_max_le _ _ _ (Nat.zero_le _) fun x hx => by rw [mem_range_drop] at hx; omega
  have h2 := (foldl_max_ge ((List.range (GRw.nParams
    ⟨nUnd, .slice (some lo) none, nUnd - lo, cov⟩)).drop lo) 0).2 nUnd (by
      rw [mem_range_drop]; simp only [GRw.nParams]; omega)
  omega

/-- **C46, shape of a fixed covariance.**  A diagonal of the wrong length raises `AttributeError`
(while formatting the message of the intended `ValueError`); the other wrong shapes raise
`ValueError`; a vector of the right length or a square matrix of the right width is accepted. -/
theorem C46_fixed_covariance_shape (nRw : Nat) (dims : List Nat) :
    (grwFixedCheck true nRw dims = .ok () ↔ dims = [nRw]) ∧
    (grwFixedCheck true nRw dims = .error .attributeError ↔ ∃ n, dims = [n] ∧ n ≠ nRw) ∧
    (grwFixedCheck true nRw dims = .error .valueError ↔ dims.length ≠ 1) ∧
    (grwFixedCheck false nRw dims = .ok () ↔ dims = [nRw, nRw]) ∧
    (grwFixedCheck false nRw dims ≠ .ok () → grwFixedCheck false nRw dims = .error .valueError) := by
  have hsq : ∀ a b : Nat, a * a = b * b → a = b := fun a b h => Nat.mul_self_inj.1 h
  refine ⟨?_, ?_, ?_, ?_, ?_⟩
  · rcases dims with _ | ⟨a, _ | ⟨b, l⟩⟩ <;> simp [grwFixedCheck]
  · rcases dims with _ | ⟨a, _ | ⟨b, l⟩⟩ <;> simp [grwFixedCheck]
  · rcases dims with _ | ⟨a, _ | ⟨b, l⟩⟩ <;> simp [grwFixedCheck]
    split <;> simp
  · rcases dims with _ | ⟨a, _ | ⟨b, _ | ⟨c, l⟩⟩⟩ <;> simp [grwFixedCheck]
    constructor
    · rintro ⟨h1, rfl⟩
      have := hsq a nRw (by rw [h1]; ring)
      exact ⟨this, this⟩
    · rintro ⟨rfl, rfl⟩
      exact ⟨by ring, rfl⟩
  · intro h
    unfold grwFixedCheck at h ⊢
    simp only [Bool.false_eq_true, if_false] at h ⊢
    split
    · rfl
    · rename_i h1
      split
      · rfl
      · rename_i h2
        rw [if_neg h1, if_neg h2] at h
        exact absurd rfl h

/-- **C46, covariance of one unit step.**  `est_update_covariance` is the particle average of factor
times transposed factor: the covariance of the step for uncorrelated unit-variance draws. -/
theorem C46_update_covariance (nUnd nRw : Nat) (idxs : RwIdxs) [LinearOrder K] [IsStrictOrderedRing K]
    (cov : RwCov K) (nMps : Nat) (hn : 0 < nMps) (mps : Nat → Nat → K) (i j : Nat) (hi : i < nRw)
    (hj : j < nRw) :
    let g : GRw K := ⟨nUnd, idxs, nRw, cov⟩
    grwCov g nMps mps i j =
      ((List.range nMps).map fun m => ((List.range nRw).map fun k =>
        stepFactor g (mps m) i k * stepFactor g (mps m) j k).sum).sum / (nMps : K) := by
  intro g
  have hn' : (nMps : K) ≠ 0 := by positivity
  cases cov with
  | fixedDiag scale =>
    have : ∀ m, ((List.range nRw).map fun k =>
        stepFactor g (mps m) i k * stepFactor g (mps m) j k).sum = if i = j then scale i ^ 2 else 0 := by
      intro m
      simp only [g, stepFactor]
      rw [sum_range_single nRw i hi]
      by_cases h : i = j
      · subst h; simp; ring
      · simp [h, Ne.symm h]
    simp only [this, List.map_const', List.sum_replicate, List.length_range, nsmul_eq_mul]
    simp only [grwCov, g]
    field_simp
  | fixedDense chol =>
    simp only [grwCov, g, stepFactor, List.map_const', List.sum_replicate, List.length_range,
      nsmul_eq_mul]
    field_simp
  | learnedDiag =>
    have : ∀ m, ((List.range nRw).map fun k =>
        stepFactor g (mps m) i k * stepFactor g (mps m) j k).sum =
        if i = j then mps m (nUnd + i) ^ 2 else 0 := by
      intro m
      simp only [g, stepFactor]
      rw [sum_range_single nRw i hi]
      by_cases h : i = j
      · subst h; simp; ring
      · simp [h, Ne.symm h]
    simp only [this, grwCov, g]
    by_cases h : i = j
    · simp [h]
    · simp [h]
  | learnedDense => rfl

/-- **C46, transformed walks.**  For a transformation acting on each parameter vector separately: the
new underlying parameters are the inverse transform of the transformed parameters plus the steps at
the walk parameters; the appended parameters are unchanged. -/
theorem C46_transformed_walk_partial (nUnd : Nat) (idxs : RwIdxs) (cov : RwCov K) (g : GRw K)
    (h : grwInit nUnd idxs cov = .ok g)
    (hneg : cov.extra g.nRw ≠ 0 → idxs.Plain nUnd)
    (nMps nEps : Nat) (t u : (Nat → K) → Nat → K) (scale z : Nat → K) (mps : Nat → Nat → K) :
    ∃ (w : List Nat) (r : Nat → Nat → Nat → K), idxs.resolve nUnd nUnd = .ok w ∧
      grwStepTransformed g nMps nEps scale z (fun a q => t (a q)) (fun a q => u (a q)) mps = .ok r ∧
      (∀ p ∈ w, p < nUnd) ∧
      ∀ m e, m < nMps →
        (∀ p, nUnd ≤ p → r m p e = mps m p) ∧
        ∃ moved : Nat → K,
          (∀ p < nUnd, p ∉ w → moved p = t (fun p => if p < nUnd then mps m p else 0) p) ∧
          (w.Nodup → ∀ j (hj : j < w.length), moved w[j] =
            t (fun p => if p < nUnd then mps m p else 0) w[j] +
              scale e * grwSteps g nMps nEps mps z m j e) ∧
          ∀ p < nUnd, r m p e = u (fun p => if p < nUnd then moved p else 0) p := by
  obtain ⟨w, hw, hne, hlen, hw'⟩ := resolve_stable nUnd idxs cov g h hneg
  obtain ⟨e1, e2, -⟩ := grwInit_ok nUnd idxs cov g h
  have hlt : ∀ p ∈ w, p < nUnd := by
    cases idxs with
    | all => cases hw; intro p hp; rw [List.mem_range] at hp; omega
    | slice a b =>
      cases hw
      intro p hp
      rw [mem_range_drop] at hp
      cases b with
      | none => exact hp.2
      | some i =>
        have := hp.2
        simp only [sliceHi, sliceBound] at this
        split at this <;> omega
    | list is =>
      clear hw' hlen hneg h e2
      simp only [RwIdxs.resolve] at hw
      induction is generalizing w with
      | nil => cases hw; simp
      | cons i is ih =>
        rw [axisIndices] at hw
        cases hi : axisIndex nUnd i with
        | error e => rw [hi] at hw; cases hw
        | ok a =>
          rw [hi] at hw
          cases hr : axisIndices nUnd is with
          | error e => rw [hr] at hw; cases hw
          | ok js =>
            rw [hr] at hw
            cases hw
            intro p hp
            rcases List.mem_cons.1 hp with rfl | hp
            · unfold axisIndex at hi
              split at hi
              · split at hi
                · cases hi; omega
                · cases hi
              · split at hi
                · cases hi; omega
                · cases hi
            · rcases js with _ | ⟨x, js⟩
              · simp at hp
              · exact ih (x :: js) (by simp) hr p hp
  refine ⟨w, _, hw, by rw [grwStepTransformed, hw', e1]; rfl, hlt, ?_⟩
  intro m e hm
  have hdiv : (e * nMps + m) / nMps = e := by
    rw [Nat.add_comm, Nat.add_mul_div_right _ _ (by omega), Nat.div_eq_of_lt hm, Nat.zero_add]
  have hmod : (e * nMps + m) % nMps = m := by
    rw [Nat.add_comm, Nat.add_mul_mod_self_right, Nat.mod_eq_of_lt hm]
  constructor
  · intro p hp
    have hpw : p ∉ w := fun hc => by have := hlt p hc; omega
    simp only [onUnderlying, if_neg (not_lt.2 hp), scatterAdd, (lastPos_none p w).2 hpw, hmod]
  · refine ⟨fun p => scatterAdd w (fun p => if p < nUnd then
      t (fun p => if p < nUnd then mps m p else 0) p else mps m p)
      (fun j => scale e * grwSteps g nMps nEps mps z m j e) p, ?_, ?_, ?_⟩
    · intro p hp hpw
      simp only [scatterAdd, (lastPos_none p w).2 hpw, if_pos hp]
    · intro hnd j hj
      have hlast : lastPos w[j] w = some j := by
        cases hl : lastPos w[j] w with
        | none => exact absurd (List.getElem_mem hj) ((lastPos_none _ _).1 hl)
        | some k =>
          have hk := lastPos_some _ _ _ hl
          obtain ⟨hk', hk''⟩ := List.getElem?_eq_some_iff.1 hk
          rw [(List.Nodup.getElem_inj_iff hnd).1 hk'']
      simp only [scatterAdd, hlast, if_pos (hlt _ (List.getElem_mem hj))]
    · intro p hp
      have hrow : onUnderlying nUnd (fun a q => t (a q)) (fun q p => mps (q % nMps) p)
          (e * nMps + m) = fun p => if p < nUnd then
            t (fun p => if p < nUnd then mps m p else 0) p else mps m p := by
        funext p
        simp only [onUnderlying, hmod]
      rw [onUnderlying, if_pos hp]
      simp only [hdiv, hmod, hrow]

/-- **C46, validity.**  With a learned diagonal covariance a parameter vector is valid if the
underlying part is and no deviation is negative; otherwise only the underlying part counts. -/
theorem C46_validity [LinearOrder K] (g : GRw K) (und : (Nat → K) → Bool) (mp : Nat → K) :
    grwValid g und mp = true ↔ und mp = true ∧
      (g.cov = .learnedDiag → ∀ j < g.nRw, 0 ≤ mp (g.nUnd + j)) := by
  obtain ⟨nUnd, idxs, nRw, cov⟩ := g
  cases cov <;> simp [grwValid]

/-- Case for C46: two of three parameters walk, learned deviations, two particles, two experiments. -/
example : ∃ g : GRw ℚ, grwInit 3 (.list [2, 0]) .learnedDiag = .ok g ∧ g.nParams = 5 ∧
    ∃ r, grwStep g 2 2 (fun e => e + 1) (fun i => i) (fun m p => 10 * m + p) = .ok r ∧
      r 1 0 1 = 10 + 2 * (14 * 7) ∧ r 1 1 1 = 11 ∧ r 1 2 1 = 12 + 2 * (13 * 6) ∧ r 1 3 1 = 13 := by
  refine ⟨⟨3, .list [2, 0], 2, .learnedDiag⟩, rfl, rfl, _, rfl, ?_⟩
  have h2 : Int.toNat 2 = 2 := rfl
  have h0 : Int.toNat 0 = 0 := rfl
  norm_num [scatterAdd, lastPos, grwSteps, h2, h0]

end

end QInfer
