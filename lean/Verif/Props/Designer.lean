import Verif.Model.Designer
import Mathlib.Data.List.Basic
import Mathlib.Data.List.Induction
import Mathlib.Tactic.Linarith

/-! # C39: the experiment designer keeps the best guess -/

set_option linter.unusedSectionVars false

namespace QInfer

variable {F V K : Type} [DecidableEq F] [LinearOrder K]

/-! ## Specification -/

/-- One stored design step: an array guess, the field to vary, the optimum found and its cost. -/
structure GuessStep (F V K : Type) where
  guess : F → V
  field : F
  x : V
  cost : K

/-- The candidate experiment of a step: the guess with the field set to the optimum. -/
def GuessStep.candidate (s : GuessStep F V K) : F → V :=
  fun k => if k = s.field then s.x else s.guess k

/-- A sequence of stored steps; the results are those of the calls in order. -/
def runSteps (d : Designer F V K) : List (GuessStep F V K) →
    Designer F V K × List (Except PyErr Nat)
  | [] => (d, [])
  | s :: ss =>
    let r := d.design (.array s.guess) s.field (.found s.x s.cost) true
    let rest := runSteps r.1 ss
    (rest.1, r.2 :: rest.2)

/-- `s` is the first of the cheapest steps of `l`. -/
def FirstBest (l : List (GuessStep F V K)) (s : GuessStep F V K) : Prop :=
  ∃ a b, l = a ++ s :: b ∧ (∀ t ∈ a, s.cost < t.cost) ∧ (∀ t ∈ b, s.cost ≤ t.cost)

/-- The designer has stored candidate `s`. -/
def Stored (d : Designer F V K) (s : GuessStep F V K) : Prop :=
  d.bestCost = some s.cost ∧ ∃ i, d.bestEp = some i ∧ d.heap[i]? = some s.candidate

/-! ## Helper lemmas -/

theorem candidate_eq (s : GuessStep F V K) :
    Function.update s.guess s.field s.x = s.candidate := by
  funext k
  by_cases h : k = s.field
  · subst h; simp [GuessStep.candidate]
  · simp [GuessStep.candidate, h]

theorem design_found (d : Designer F V K) (ha : d.algo ≠ .null) (s : GuessStep F V K) :
    d.design (.array s.guess) s.field (.found s.x s.cost) true =
      match isBetter d.bestCost (some s.cost) with
        | .error err => (d, .error err)
        | .ok true => ({ d with heap := d.heap ++ [s.candidate], bestCost := some s.cost,
                                bestEp := some d.heap.length }, .ok d.heap.length)
        | .ok false => match d.bestEp with
          | some i => (d, .ok i)
          | none => (d, .ok d.heap.length) := by
  unfold Designer.design
  cases h : d.algo with
  | null => exact absurd h ha
  | cg => simp only [runOpt, if_true, candidate_eq]; rfl
  | ncg => simp only [runOpt, if_true, candidate_eq]; rfl
  | nelderMead => simp only [runOpt, if_true, candidate_eq]; rfl

theorem design_null (d : Designer F V K) (ha : d.algo = .null) (hb : d.bestCost = none)
    (s : GuessStep F V K) :
    d.design (.array s.guess) s.field (.found s.x s.cost) true =
      ({ d with heap := d.heap ++ [s.guess], bestCost := none, bestEp := some d.heap.length },
        .ok d.heap.length) := by
  have hu : Function.update s.guess s.field (s.guess s.field) = s.guess :=
    Function.update_eq_self _ _
  simp only [Designer.design, ha, runOpt, hb, isBetter, if_true, hu]

theorem step_stored (d : Designer F V K) (ha : d.algo ≠ .null) (l : List (GuessStep F V K))
    (s : GuessStep F V K) (hpre : (l = [] ∧ d.bestCost = none) ∨ ∃ t, FirstBest l t ∧ Stored d t) :
    let r := d.design (.array s.guess) s.field (.found s.x s.cost) true
    r.1.algo = d.algo ∧ ∃ t, FirstBest (l ++ [s]) t ∧ Stored r.1 t ∧
      ∃ i, r.2 = .ok i ∧ r.1.bestEp = some i := by
  intro r
  have hr : r = _ := design_found d ha s
  rcases hpre with ⟨rfl, hnone⟩ | ⟨t, ⟨a, b, hl, h1, h2⟩, hc, i, hi, hh⟩
  · rw [hnone] at hr
    simp only [isBetter] at hr
    rw [hr]
    refine ⟨rfl, s, ⟨[], [], rfl, by simp, by simp⟩, ⟨rfl, d.heap.length, rfl, ?_⟩, _, rfl, rfl⟩
    simp
  · rw [hc] at hr
    simp only [isBetter] at hr
    by_cases hlt : s.cost < t.cost
    · simp only [hlt, decide_true] at hr
      rw [hr]
      refine ⟨rfl, s, ⟨l, [], rfl, ?_, by simp⟩, ⟨rfl, d.heap.length, rfl, ?_⟩, _, rfl, rfl⟩
      · intro u hu
        rw [hl] at hu
        rcases List.mem_append.mp hu with hu | hu
        · exact hlt.trans (h1 u hu)
        · rcases List.mem_cons.mp hu with rfl | hu
          · exact hlt
          · exact hlt.trans_le (h2 u hu)
      · simp
    · simp only [hlt, decide_false, hi] at hr
      rw [hr]
      refine ⟨rfl, t, ⟨a, b ++ [s], by simp [hl], h1, ?_⟩, ⟨hc, i, hi, hh⟩, i, rfl, hi⟩
      intro u hu
      rcases List.mem_append.mp hu with hu | hu
      · exact h2 u hu
      · rw [List.mem_singleton] at hu
        subst hu
        exact not_lt.mp hlt

theorem runSteps_append (d : Designer F V K) (a : List (GuessStep F V K)) (s : GuessStep F V K) :
    runSteps d (a ++ [s]) =
      let r := runSteps d a
      let r' := r.1.design (.array s.guess) s.field (.found s.x s.cost) true
      (r'.1, r.2 ++ [r'.2]) := by
  induction a generalizing d with
  | nil => rfl
  | cons t a ih =>
    simp only [List.cons_append, runSteps]
    rw [ih]

theorem runSteps_inv (d : Designer F V K) (ha : d.algo ≠ .null) (l : List (GuessStep F V K)) :
    (runSteps d.newExp l).1.algo = d.algo ∧
    ((l = [] ∧ (runSteps d.newExp l).1.bestCost = none) ∨
      ∃ t, FirstBest l t ∧ Stored (runSteps d.newExp l).1 t ∧
      ∃ i, (runSteps d.newExp l).2.getLast? = some (.ok i) ∧
        (runSteps d.newExp l).1.bestEp = some i) := by
  induction l using List.reverseRecOn with
  | nil => exact ⟨rfl, Or.inl ⟨rfl, rfl⟩⟩
  | append_singleton l s ih =>
    obtain ⟨h1, h2⟩ := ih
    have hstep := step_stored (runSteps d.newExp l).1 (by rw [h1]; exact ha) l s (by
      rcases h2 with h | ⟨t, ht, hs, _⟩
      · exact Or.inl h
      · exact Or.inr ⟨t, ht, hs⟩)
    obtain ⟨g1, t, g2, g3, i, g4, g5⟩ := hstep
    rw [runSteps_append]
    refine ⟨g1.trans h1, Or.inr ⟨t, g2, g3, i, ?_, g5⟩⟩
    simp [g4]

/-! ## Theorems -/

/-- **C39.**  After `new_exp` and any non-empty sequence of stored guesses with an optimiser that
reports costs, the stored cost is the minimum of all costs seen, the stored experiment is the
candidate of the first step that reached it, and the last call returned exactly that experiment. -/
theorem C39_best_guess_kept (d : Designer F V K) (ha : d.algo ≠ .null)
    (l : List (GuessStep F V K)) (hl : l ≠ []) :
    ∃ t ∈ l, (∀ u ∈ l, t.cost ≤ u.cost) ∧ FirstBest l t ∧
      (runSteps d.newExp l).1.bestCost = some t.cost ∧
      ∃ i, (runSteps d.newExp l).1.bestEp = some i ∧
        (runSteps d.newExp l).2.getLast? = some (.ok i) ∧
        (runSteps d.newExp l).1.heap[i]? = some t.candidate := by
  rcases (runSteps_inv d ha l).2 with ⟨h, _⟩ | ⟨t, hf, ⟨hc, i, hi, hh⟩, j, hj, hj'⟩
  · exact absurd h hl
  · have hij : i = j := by rw [hi] at hj'; injection hj'
    subst hij
    obtain ⟨a, b, e, h1, h2⟩ := hf
    refine ⟨t, by rw [e]; simp, ?_, ⟨a, b, e, h1, h2⟩, hc, i, hi, hj, hh⟩
    intro u hu
    rw [e] at hu
    rcases List.mem_append.mp hu with hu | hu
    · exact (h1 u hu).le
    · rcases List.mem_cons.mp hu with rfl | hu
      · exact le_rfl
      · exact h2 u hu

/-- **C39, objective.**  If the optimiser reports the objective at the location it returns, the
stored experiment attains the stored cost, which is the least objective among the candidates. -/
theorem C39_stored_cost_is_objective (d : Designer F V K) (ha : d.algo ≠ .null)
    (l : List (GuessStep F V K)) (hl : l ≠ []) (objective : (F → V) → K)
    (hobj : ∀ s ∈ l, s.cost = objective s.candidate) :
    ∃ i ep, (runSteps d.newExp l).1.bestEp = some i ∧ (runSteps d.newExp l).1.heap[i]? = some ep ∧
      (runSteps d.newExp l).1.bestCost = some (objective ep) ∧
      ∀ s ∈ l, objective ep ≤ objective s.candidate := by
  obtain ⟨t, ht, hmin, -, hc, i, hi, -, hh⟩ := C39_best_guess_kept d ha l hl
  refine ⟨i, t.candidate, hi, hh, by rw [hc, hobj t ht], ?_⟩
  intro s hs
  rw [← hobj t ht, ← hobj s hs]
  exact hmin s hs

/-- **C39, one field.**  A call changes only the given field of the guess, whatever the algorithm,
and without `store_guess` it leaves the best guess alone and returns the optimum of this guess. -/
theorem C39_without_store (d : Designer F V K) (g : F → V) (field : F) (res : OptRes V K) (i : Nat)
    (h : (d.design (.array g) field res false).2 = .ok i) :
    (d.design (.array g) field res false).1.bestCost = d.bestCost ∧
    (d.design (.array g) field res false).1.bestEp = d.bestEp ∧
    ∃ ep, (d.design (.array g) field res false).1.heap[i]? = some ep ∧
      (∀ k, k ≠ field → ep k = g k) ∧
      (∀ x f, res = .found x f → d.algo ≠ .null → ep field = x) := by
  unfold Designer.design at h ⊢
  dsimp only at h ⊢
  cases hr : runOpt d.algo g field res with
  | error err => rw [hr] at h; cases h
  | ok p =>
    obtain ⟨x, f⟩ := p
    rw [hr] at h
    simp only [Bool.false_eq_true, if_false] at h ⊢
    injection h with h
    refine ⟨trivial, trivial, Function.update g field x, ?_, ?_, ?_⟩
    · rw [← h]; simp
    · intro k hk; simp [hk]
    · rintro x' f' rfl ha
      rw [Function.update_self]
      cases hal : d.algo with
      | null => exact absurd hal ha
      | cg => rw [hal] at hr; simp [runOpt] at hr; exact hr.1.symm
      | ncg => rw [hal] at hr; simp [runOpt] at hr; exact hr.1.symm
      | nelderMead => rw [hal] at hr; simp [runOpt] at hr; exact hr.1.symm

/-- **C39, violation with the null optimiser.**  No cost is ever stored, so every stored guess
replaces the previous one: the last guess wins whatever the objective. -/
theorem C39_null_last_guess_wins (d : Designer F V K) (ha : d.algo = .null)
    (l : List (GuessStep F V K)) (s : GuessStep F V K) :
    (runSteps d.newExp (l ++ [s])).1.bestCost = none ∧
    ∃ i, (runSteps d.newExp (l ++ [s])).1.bestEp = some i ∧
      (runSteps d.newExp (l ++ [s])).1.heap[i]? = some s.guess := by
  have hinv : ∀ l : List (GuessStep F V K), (runSteps d.newExp l).1.algo = .null ∧
      (runSteps d.newExp l).1.bestCost = none := by
    intro l
    induction l using List.reverseRecOn with
    | nil => exact ⟨ha, rfl⟩
    | append_singleton l s ih =>
      rw [runSteps_append]
      obtain ⟨h1, h2⟩ := ih
      dsimp only
      rw [design_null _ h1 h2]
      exact ⟨h1, rfl⟩
  obtain ⟨h1, h2⟩ := hinv l
  refine ⟨(hinv _).2, ?_⟩
  rw [runSteps_append]
  dsimp only
  rw [design_null _ h1 h2]
  exact ⟨_, rfl, by simp⟩

/-- **C39, violation with a flat gradient.**  With NCG, once a cost is stored, a later guess whose
gradient is too flat raises `TypeError` instead of being compared. -/
theorem C39_flat_gradient_raises (d : Designer F V K) (ha : d.algo = .ncg) (b : K)
    (hb : d.bestCost = some b) (g : F → V) (field : F) :
    (d.design (.array g) field .typeError true).2 = .error .typeError := by
  simp [Designer.design, ha, runOpt, isBetter, hb]

/-- **C39, an optimiser that raises `TypeError`.**  NCG swallows it and, when nothing is stored yet, returns
the guess as it was, without optimising; the other optimisers let it through and change nothing.
(`scipy.optimize.fmin_tnc`, called with `full_output=True`, an argument it does not have, raises it on
every call.) -/
theorem C39_optimiser_type_error (d : Designer F V K) (g : F → V) (field : F) (store : Bool) :
    (d.algo = .ncg → (store = true → d.bestCost = none) →
      (d.design (.array g) field .typeError store).2 = .ok d.heap.length ∧
      (d.design (.array g) field .typeError store).1.heap = d.heap ++ [g]) ∧
    (d.algo = .cg ∨ d.algo = .nelderMead →
      d.design (.array g) field .typeError store = (d, .error .typeError)) := by
  constructor
  · intro ha hb
    cases store
    · simp [Designer.design, ha, runOpt]
    · simp [Designer.design, ha, runOpt, isBetter, hb rfl]
  · rintro (ha | ha) <;> simp [Designer.design, ha, runOpt]

/-- **C39, guesses that never work.**  Callable guesses raise `TypeError` and heuristic objects
`NotImplementedError`, for every algorithm, although both are documented. -/
theorem C39_callable_guess_fails (d : Designer F V K) (f : F → V) (field : F) (res : OptRes V K)
    (store : Bool) :
    d.design (.callable f) field res store = (d, .error .typeError) ∧
    d.design .heuristic field res store = (d, .error .other) := ⟨rfl, rfl⟩

/-- **C39, sharing.**  The returned array is the stored one: if the caller overwrites the array a
stored call returned, a later worse guess returns the overwritten array. -/
theorem C39_returned_array_is_shared (d : Designer F V K) (ha : d.algo ≠ .null)
    (l : List (GuessStep F V K)) (hl : l ≠ []) (i : Nat)
    (hi : (runSteps d.newExp l).2.getLast? = some (.ok i)) (junk : F → V) (s : GuessStep F V K)
    (hs : ∃ t ∈ l, t.cost ≤ s.cost) :
    let d' := ((runSteps d.newExp l).1.callerWrites i junk)
    (d'.design (.array s.guess) s.field (.found s.x s.cost) true).2 = .ok i ∧
    (d'.design (.array s.guess) s.field (.found s.x s.cost) true).1.heap[i]? = some junk := by
  intro d'
  obtain ⟨t, ht, hmin, -, hc, j, hj, hlast, hh⟩ := C39_best_guess_kept d ha l hl
  rw [hlast] at hi
  injection hi with hi
  injection hi with hi
  subst hi
  have halg := (runSteps_inv d ha l).1
  have hlt : ¬ s.cost < t.cost := by
    obtain ⟨u, hu, hus⟩ := hs
    exact not_lt.mpr ((hmin u hu).trans hus)
  have hjl : j < (runSteps d.newExp l).1.heap.length := by
    by_contra hn
    rw [List.getElem?_eq_none (by omega)] at hh; cases hh
  have hd : d'.design (.array s.guess) s.field (.found s.x s.cost) true = (d', .ok j) := by
    rw [design_found d' (by simpa [d', Designer.callerWrites, halg] using ha)]
    simp [d', Designer.callerWrites, hc, isBetter, hlt, hj]
  rw [hd]
  refine ⟨rfl, ?_⟩
  simp [d', Designer.callerWrites, hjl]

/-- **C39, construction.**  Exactly the four listed algorithms are accepted, numbered in the order
NULL, CG, NCG, NELDER_MEAD, and a new designer has nothing stored. -/
theorem C39_constructor (algo : ℤ) (heap : List (F → V)) :
    (0 ≤ algo ∧ algo ≤ 3 ∧ ∃ d : Designer F V K, designerInit algo heap = .ok d ∧
      [OptAlgo.null, .cg, .ncg, .nelderMead][algo.toNat]? = some d.algo ∧ d.heap = heap ∧
      d.bestCost = none ∧ d.bestEp = none) ∨
    (¬ (0 ≤ algo ∧ algo ≤ 3) ∧
      (designerInit algo heap : Except PyErr (Designer F V K)) = .error .valueError) := by
  by_cases h : 0 ≤ algo ∧ algo ≤ 3
  · left
    obtain ⟨h0, h3⟩ := h
    refine ⟨h0, h3, ?_⟩
    have : algo = 0 ∨ algo = 1 ∨ algo = 2 ∨ algo = 3 := by omega
    rcases this with rfl | rfl | rfl | rfl <;> exact ⟨_, rfl, rfl, rfl, rfl, rfl⟩
  · right
    refine ⟨h, ?_⟩
    have hn : OptAlgo.ofInt algo = none := by
      unfold OptAlgo.ofInt
      split <;> first | rfl | (exfalso; omega)
    simp [designerInit, hn]

/-- Case for `C39_best_guess_kept`: three guesses, the second the best. -/
example :
    let g : String → ℤ := fun _ => 0
    let d : Designer String ℤ ℤ := ⟨.cg, none, none, []⟩
    let r := runSteps d.newExp [⟨g, "t", 3, 30⟩, ⟨g, "t", 1, 10⟩, ⟨g, "t", 2, 20⟩]
    r.1.bestCost = some 10 ∧ r.2 = [.ok 0, .ok 1, .ok 1] ∧
      (r.1.heap[1]?.map fun ep => (ep "t", ep "x")) = some (1, 0) := by
  decide

end QInfer
