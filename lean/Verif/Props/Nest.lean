import Verif.Model.Nest
import Verif.Model.GaussHyper
import Verif.Props.Domain
import Mathlib.Analysis.Real.Pi.Bounds
import Mathlib.Tactic

/-!
# C122: experiments and outcomes of nested models
-/

namespace QInfer
namespace Nest

variable {V : Type}

/-! ## Specification -/

/-- Models that can be made with the constructors of the library. -/
inductive Spec.Built (count : V → Nat) : Tree → Prop
  | base (b : Base) (h : 1 ≤ b.nOut) : Spec.Built count (.base b)
  | wrap (w : Wrap) (u t : Tree) (hu : Spec.Built count u) (h : construct count w u = .ok t) :
      Spec.Built count t

/-- The stand-alone model at the bottom. -/
def Spec.root : Tree → Base
  | .base b => b
  | .wrap _ u => Spec.root u

/-- The wrappers, outermost first. -/
def Spec.wrappers : Tree → List Wrap
  | .base _ => []
  | .wrap w u => w :: Spec.wrappers u

/-- A wrapper that turns data into numbers of outcomes. -/
def Spec.isCounter : Wrap → Bool
  | .binomial => true
  | .multinomial => true
  | _ => false

/-- Whether the model takes numbers of outcomes as data. -/
def Spec.counts (t : Tree) : Prop := ∃ w ∈ Spec.wrappers t, Spec.isCounter w = true

/-- Whether the model looks at outcomes through normal noise. -/
def Spec.noisy (t : Tree) : Prop := Wrap.gaussHyper ∈ Spec.wrappers t

/-- An experiment with the declared fields. -/
def Spec.Fits (d : Dtype) (e : Exp V) : Prop :=
  match d, e with
  | .scalar _, .scalar _ => True
  | .fields fs, .record es => es.map Prod.fst = fs.map Prod.fst
  | _, _ => False

/-- The members of a domain: integers below `n`, real numbers, tuples of counts with a given sum. -/
def Spec.Members : Dom → Type
  | .ints n => Fin n
  | .reals => ℝ
  | .tuples (some k) n => {p : Fin k → ℤ // IsOutcome n p}
  | .tuples none n => {p : ℕ →₀ ℕ // p.sum (fun _ m => m) = n}

/-! ## Lemmas -/

theorem built_shape (count : V → Nat) {w : Wrap} {u t : Tree} (h : construct count w u = .ok t) :
    t = .wrap w u := by
  unfold construct at h
  cases w <;> simp only [bind, Except.bind] at h <;> (try (injection h with h; exact h.symm))
  all_goals
    split at h
    · split at h
      · cases h
      · first
        | (split at h
           · first | (injection h with h; exact h.symm) | cases h
           · first | (injection h with h; exact h.symm) | cases h)
        | (injection h with h; exact h.symm)
    · cases h

theorem built_inv (count : V → Nat) {w : Wrap} {u : Tree} (h : Spec.Built count (.wrap w u)) :
    Spec.Built count u ∧ construct count w u = .ok (.wrap w u) := by
  cases h with
  | wrap w' u' _ hu hc =>
    have := built_shape count hc
    injection this with h1 h2
    subst h1; subst h2
    exact ⟨hu, hc⟩

theorem counts_wrap (w : Wrap) (u : Tree) :
    Spec.counts (.wrap w u) ↔ Spec.isCounter w = true ∨ Spec.counts u := by
  simp [Spec.counts, Spec.wrappers]

theorem noisy_wrap (w : Wrap) (u : Tree) :
    Spec.noisy (.wrap w u) ↔ w = .gaussHyper ∨ Spec.noisy u := by
  simp [Spec.noisy, Spec.wrappers, eq_comm]

/-- Without an experiment: what the number of outcomes and the domain are. -/
theorem without_experiment (count : V → Nat) (t : Tree) (h : Spec.Built count t) :
    (Spec.counts t → t.nOutcomes count none = .error .typeError ∧
      t.domain count none = .error .typeError) ∧
    (¬ Spec.counts t → t.nOutcomes count none = .ok (some (Spec.root t).nOut) ∧
      t.domain count none = .ok (if Wrap.gaussHyper ∈ Spec.wrappers t then .reals
        else .ints (Spec.root t).nOut)) := by
  induction t with
  | base b =>
    refine ⟨fun hc => ?_, fun _ => ⟨rfl, rfl⟩⟩
    simp [Spec.counts, Spec.wrappers] at hc
  | wrap w u ih =>
    obtain ⟨hu, hc⟩ := built_inv count h
    obtain ⟨ih1, ih2⟩ := ih hu
    have fwd : Spec.isCounter w = false → w ≠ .gaussHyper →
        (Tree.wrap w u).nOutcomes count (none : Option (Exp V)) = u.nOutcomes count none ∧
        (Tree.wrap w u).domain count (none : Option (Exp V)) = u.domain count none := by
      intro h1 h2
      cases w <;> simp_all [Spec.isCounter, Tree.nOutcomes, Tree.domain]
    by_cases hw : Spec.isCounter w = true
    · refine ⟨fun _ => ?_, fun hn => absurd ((counts_wrap w u).mpr (Or.inl hw)) hn⟩
      cases w <;> simp [Spec.isCounter] at hw
      · exact ⟨rfl, rfl⟩
      · have hd : ∃ d k, u.domain count (none : Option (Exp V)) = .ok d ∧ d.nMembers = .ok k := by
          unfold construct at hc
          simp only [bind, Except.bind] at hc
          split at hc
          · split at hc
            · cases hc
            · rename_i d hd
              split at hc
              · cases hc
              · rename_i k hk
                exact ⟨d, k, hd, hk⟩
          · cases hc
        obtain ⟨d, k, hd, hk⟩ := hd
        simp [Tree.nOutcomes, Tree.domain, bind, Except.bind, hd, hk, getOpt]
    · have hw' : Spec.isCounter w = false := by simpa using hw
      have hcw : Spec.counts (.wrap w u) ↔ Spec.counts u := by simp [counts_wrap, hw]
      rw [hcw]
      by_cases hg : w = .gaussHyper
      · subst hg
        have hnc : ¬ Spec.counts u := by
          intro hcu
          have := (ih1 hcu).1
          unfold construct at hc
          simp only [bind, Except.bind, this] at hc
          split at hc <;> cases hc
        refine ⟨fun hcu => absurd hcu hnc, fun _ => ⟨?_, ?_⟩⟩
        · simpa [Tree.nOutcomes, Spec.root] using (ih2 hnc).1
        · simp [Tree.domain, Spec.wrappers]
      · obtain ⟨f1, f2⟩ := fwd hw' hg
        refine ⟨fun hcu => ⟨f1.trans (ih1 hcu).1, f2.trans (ih1 hcu).2⟩, fun hcu => ⟨?_, ?_⟩⟩
        · exact f1.trans (ih2 hcu).1
        · rw [f2, (ih2 hcu).2]
          have : (Wrap.gaussHyper ∈ Spec.wrappers (.wrap w u)) ↔
              Wrap.gaussHyper ∈ Spec.wrappers u := by
            simp [Spec.wrappers]; intro h; exact absurd h.symm hg
          simp [this, Spec.root]

/-- A wrapper that asks for the number of outcomes cannot be put on a model that counts. -/
theorem construct_counts (count : V → Nat) (w : Wrap) (u t : Tree) (hu : Spec.Built count u)
    (h : construct count w u = .ok t) (hw : Spec.isCounter w = true ∨ w = .gaussHyper) :
    ¬ Spec.counts u := by
  intro hc
  obtain ⟨h1, h2⟩ := (without_experiment count u hu).1 hc
  unfold construct at h
  rcases hw with hw | hw
  · cases w <;> simp [Spec.isCounter] at hw <;>
      simp only [bind, Except.bind, h1, h2] at h <;> split at h <;> cases h
  · subst hw
    simp only [bind, Except.bind, h1] at h
    split at h <;> cases h

/-! ## Theorems -/

/-- **C122, constructors.**  When the constructors that depend on the number of outcomes accept a model, and
what they raise otherwise.  The binomial and the noise model accept a model exactly if it does not count, has two
outcomes and does not have a Gaussian random walk on the outside; the multinomial model does not look at the
number. -/
theorem C122_constructors (count : V → Nat) (u : Tree) (hu : Spec.Built count u) (w : Wrap)
    (hw : w = .binomial ∨ w = .gaussHyper) :
    (construct count w u = .ok (.wrap w u) ↔ ¬ Spec.counts u ∧ (Spec.root u).nOut = 2 ∧
      (Spec.wrappers u).head? ≠ some .gaussianRW) ∧
    (construct count w u = .error .typeError ↔ Spec.counts u ∧
      ∀ v, (Spec.wrappers u).head? = some v → Spec.isCounter v = false ∧ v ≠ .gaussianRW) ∧
    (construct count .multinomial u = .ok (.wrap .multinomial u) ↔ ¬ Spec.counts u ∧
      (Spec.wrappers u).head? ≠ some .gaussianRW) := by
  have hflag : u.isConst = true ↔
      ∀ v, (Spec.wrappers u).head? = some v → Spec.isCounter v = false ∧ v ≠ .gaussianRW := by
    cases u with
    | base b => simp [Tree.isConst, Spec.wrappers]
    | wrap v u' => cases v <;> simp [Tree.isConst, Spec.wrappers, Spec.isCounter]
  have hflag' : ¬ Spec.counts u → (u.isConst = true ↔ (Spec.wrappers u).head? ≠ some .gaussianRW) := by
    intro hn
    cases u with
    | base b => simp [Tree.isConst, Spec.wrappers]
    | wrap v u' =>
      rw [counts_wrap] at hn
      cases v <;> simp_all [Tree.isConst, Spec.wrappers, Spec.isCounter]
  obtain ⟨h1, h2⟩ := without_experiment count u hu
  have hcon : construct count w u = if u.isConst = true then
      (u.nOutcomes count none).bind (fun n => if n = some 2 then .ok (.wrap w u) else .error .valueError)
      else .error .valueError := by
    rcases hw with rfl | rfl <;> rfl
  by_cases hc : Spec.counts u
  · obtain ⟨e1, e2⟩ := h1 hc
    refine ⟨?_, ?_, ?_⟩
    · rw [hcon, e1]
      constructor
      · intro h; split at h <;> cases h
      · intro h; exact absurd hc h.1
    · rw [hcon, e1, ← hflag]
      constructor
      · intro h
        refine ⟨hc, ?_⟩
        by_contra hf
        rw [if_neg hf] at h
        cases h
      · rintro ⟨-, hf⟩
        rw [if_pos hf]; rfl
    · constructor
      · intro h
        simp only [construct, bind, Except.bind, e2] at h
        split at h <;> cases h
      · intro h; exact absurd hc h.1
  · obtain ⟨e1, e2⟩ := h2 hc
    refine ⟨?_, ?_, ?_⟩
    · rw [hcon, e1, ← hflag' hc]
      by_cases hf : u.isConst = true
      · rw [if_pos hf]
        by_cases h2' : (Spec.root u).nOut = 2
        · simp [Except.bind, h2', hc, hf]
        · simp [Except.bind, h2']
      · rw [if_neg hf]
        simp [hf]
    · rw [hcon, e1]
      constructor
      · intro h
        split at h
        · simp only [Except.bind] at h
          split at h <;> cases h
        · cases h
      · intro h; exact absurd h.1 hc
    · rw [← hflag' hc]
      simp only [construct, bind, Except.bind, e2]
      by_cases hf : u.isConst = true
      · simp only [hf, if_true]
        by_cases hg : Wrap.gaussHyper ∈ Spec.wrappers u <;> simp [hg, Dom.nMembers, hc]
      · simp [hf]

/-- **C122, one counter.**  In no model that can be made are there two wrappers that count, or normal noise
outside of one that counts. -/
theorem C122_one_counter (count : V → Nat) (t : Tree) (h : Spec.Built count t) :
    ((Spec.wrappers t).filter Spec.isCounter).length ≤ 1 ∧
    (∀ i j : Nat, i < j → (Spec.wrappers t)[i]? = some Wrap.gaussHyper →
      ∀ w, (Spec.wrappers t)[j]? = some w → Spec.isCounter w = false) := by
  induction t with
  | base b => simp [Spec.wrappers]
  | wrap w u ih =>
    obtain ⟨hu, hc⟩ := built_inv count h
    obtain ⟨ih1, ih2⟩ := ih hu
    have none_left : ¬ Spec.counts u → (Spec.wrappers u).filter Spec.isCounter = [] := by
      intro hn
      rw [List.filter_eq_nil_iff]
      intro v hv hv'
      exact hn ⟨v, hv, hv'⟩
    refine ⟨?_, ?_⟩
    · by_cases hw : Spec.isCounter w = true
      · have := none_left (construct_counts count w u _ hu hc (Or.inl hw))
        simp [Spec.wrappers, hw, this]
      · simpa [Spec.wrappers, hw] using ih1
    · intro i j hij hi v hv
      obtain ⟨j, rfl⟩ : ∃ j', j = j' + 1 := ⟨j - 1, by omega⟩
      simp only [Spec.wrappers, List.getElem?_cons_succ] at hv
      cases i with
      | zero =>
        simp only [Spec.wrappers, List.getElem?_cons_zero, Option.some.injEq] at hi
        have := construct_counts count w u _ hu hc (Or.inr hi)
        by_contra hne
        exact this ⟨v, List.mem_of_getElem? hv, by simpa using hne⟩
      | succ i =>
        simp only [Spec.wrappers, List.getElem?_cons_succ] at hi
        exact ih2 i j (by omega) hi v hv

/-- **C122, fields.**  The experiments of a model are those of the stand-alone model if it does not count;
otherwise they are records with its fields, or with the field `x` for its scalar, and the additional last field
`n_meas`. -/
theorem C122_fields (count : V → Nat) (t : Tree) (h : Spec.Built count t) :
    (¬ Spec.counts t → t.dtype = (Spec.root t).dtype) ∧
    (Spec.counts t → t.dtype = .fields
      ((match (Spec.root t).dtype with | .scalar k => [("x", k)] | .fields fs => fs) ++
        [("n_meas", "uint")])) := by
  induction t with
  | base b =>
    refine ⟨fun _ => rfl, fun hc => ?_⟩
    simp [Spec.counts, Spec.wrappers] at hc
  | wrap w u ih =>
    obtain ⟨hu, hc⟩ := built_inv count h
    obtain ⟨ih1, ih2⟩ := ih hu
    by_cases hw : Spec.isCounter w = true
    · refine ⟨fun hn => absurd ((counts_wrap w u).mpr (Or.inl hw)) hn, fun _ => ?_⟩
      have hd := ih1 (construct_counts count w u _ hu hc (Or.inl hw))
      have : (Tree.wrap w u).dtype = countDtype u.dtype := by
        cases w <;> simp [Spec.isCounter] at hw <;> rfl
      rw [this, hd]
      simp only [Spec.root]
      cases (Spec.root u).dtype <;> rfl
    · have hcw : Spec.counts (.wrap w u) ↔ Spec.counts u := by simp [counts_wrap, hw]
      have hd : (Tree.wrap w u).dtype = u.dtype := by
        cases w <;> simp [Spec.isCounter] at hw <;> rfl
      rw [hcw, hd]
      exact ⟨ih1, ih2⟩

/-- Records are read field by field. -/
theorem fits_get {fs : List (String × String)} {es : List (String × V)} {name : String}
    (h : es.map Prod.fst = fs.map Prod.fst) (hm : name ∈ fs.map Prod.fst) :
    ∃ v, (Exp.record es).get name = .ok v ∧ (name, v) ∈ es := by
  have hne : es.find? (fun f => f.1 == name) ≠ none := by
    rw [← h] at hm
    obtain ⟨f, hf, hn⟩ := List.mem_map.mp hm
    intro hnone
    have := List.find?_eq_none.mp hnone f hf
    simp [hn] at this
  obtain ⟨f, hf⟩ := Option.ne_none_iff_exists'.mp hne
  refine ⟨f.2, by simp [Exp.get, hf], ?_⟩
  have h1 := List.find?_some hf
  have h2 := List.mem_of_find?_eq_some hf
  have : f = (name, f.2) := by
    have : f.1 = name := by simpa using h1
    rw [← this]
  rw [← this]; exact h2

/-- **C122, number of measurements.**  An experiment of a model that counts has a number of measurements. -/
theorem fits_n_meas (count : V → Nat) (t : Tree) (h : Spec.Built count t) (hc : Spec.counts t)
    (e : Exp V) (he : Spec.Fits t.dtype e) : ∃ v, e.get "n_meas" = .ok v := by
  rw [(C122_fields count t h).2 hc] at he
  cases e with
  | scalar v => exact absurd he (by simp [Spec.Fits])
  | record es =>
    obtain ⟨v, hv, _⟩ := fits_get (name := "n_meas") he (by simp)
    exact ⟨v, hv⟩

/-- **C122, outcomes.**  For every experiment with the declared fields, `domain` is the domain of the
stand-alone model, or for a model that counts the numbers of ones (two outcomes) or the tuples of numbers of
outcomes of `n_meas` measurements, and `n_outcomes` is the number of its members.  Missing: models seen
through normal noise, see `C122_noise`. -/
theorem C122_outcomes_partial (count : V → Nat) (t : Tree) (h : Spec.Built count t)
    (hn : ¬ Spec.noisy t) (e : Exp V) (he : Spec.Fits t.dtype e) :
    ∃ d, t.domain count (some e) = .ok d ∧
      t.nOutcomes count (some e) = .ok (some (Nat.card (Spec.Members d))) ∧
      d.nMembers = .ok (some (Nat.card (Spec.Members d))) ∧
      (¬ Spec.counts t → d = .ints (Spec.root t).nOut) ∧
      (∀ n, Spec.counts t → e.get "n_meas" = .ok n →
        (Wrap.binomial ∈ Spec.wrappers t ∧ (Spec.root t).nOut = 2 ∧ d = .ints (count n + 1)) ∨
        (Wrap.multinomial ∈ Spec.wrappers t ∧ d = .tuples (some (Spec.root t).nOut) (count n))) := by
  induction t with
  | base b =>
    refine ⟨.ints b.nOut, rfl, ?_, ?_, fun _ => rfl, fun n hc => ?_⟩
    · simp [Spec.Members, Tree.nOutcomes]
    · simp [Spec.Members, Dom.nMembers]
    · simp [Spec.counts, Spec.wrappers] at hc
  | wrap w u ih =>
    obtain ⟨hu, hc⟩ := built_inv count h
    rw [noisy_wrap, not_or] at hn
    by_cases hw : Spec.isCounter w = true
    · have hcu := construct_counts count w u _ hu hc (Or.inl hw)
      obtain ⟨n, hnm⟩ := fits_n_meas count _ h ((counts_wrap w u).mpr (Or.inl hw)) e he
      obtain ⟨e1, e2⟩ := (without_experiment count u hu).2 hcu
      have hroot : 1 ≤ (Spec.root u).nOut := by
        clear * - hu
        induction u with
        | base b => cases hu with
          | base _ h => exact h
          | wrap w' u' _ hu' hc' => cases built_shape count hc'
        | wrap w' u' ih => exact ih (built_inv count hu).1
      cases w <;> simp [Spec.isCounter] at hw
      · refine ⟨.ints (count n + 1), ?_, ?_, ?_, ?_, ?_⟩
        · simp [Tree.domain, getOpt, hnm, bind, Except.bind]
        · simp [Tree.nOutcomes, getOpt, hnm, bind, Except.bind, Spec.Members]
        · simp [Dom.nMembers, Spec.Members]
        · intro hnc; exact absurd ((counts_wrap .binomial u).mpr (Or.inl rfl)) hnc
        · intro n' _ hn'
          rw [hnm] at hn'
          injection hn' with hn'
          subst hn'
          refine Or.inl ⟨by simp [Spec.wrappers], ?_, rfl⟩
          exact ((C122_constructors count u hu .binomial (Or.inl rfl)).1.mp hc).2.1
      · have hd : u.domain count (none : Option (Exp V)) = .ok (.ints (Spec.root u).nOut) := by
          rw [e2, if_neg (show Wrap.gaussHyper ∉ Spec.wrappers u from hn.2)]
        have hcard : Nat.card (Spec.Members (.tuples (some (Spec.root u).nOut) (count n))) =
            multNMembers (count n) (Spec.root u).nOut := by
          obtain ⟨vs, -, hnd, hmem, hlen⟩ := C23_values_exact (count n) (Spec.root u).nOut hroot
          rw [← hlen]
          have : Spec.Members (.tuples (some (Spec.root u).nOut) (count n)) =
              {p : Fin (Spec.root u).nOut → ℤ // p ∈ vs.toFinset} := by
            simp only [Spec.Members, List.mem_toFinset, hmem]
          rw [this, Nat.card_eq_fintype_card, Fintype.card_coe, List.toFinset_card_of_nodup hnd]
        refine ⟨.tuples (some (Spec.root u).nOut) (count n), ?_, ?_, ?_, ?_, ?_⟩
        · simp [Tree.domain, hd, Dom.nMembers, getOpt, hnm, bind, Except.bind]
        · rw [hcard]
          simp [Tree.nOutcomes, hd, Dom.nMembers, getOpt, hnm, bind, Except.bind]
        · rw [hcard]; rfl
        · intro hnc; exact absurd ((counts_wrap .multinomial u).mpr (Or.inl rfl)) hnc
        · intro n' _ hn'
          rw [hnm] at hn'
          injection hn' with hn'
          subst hn'
          exact Or.inr ⟨by simp [Spec.wrappers], rfl⟩
    · have hd : (Tree.wrap w u).dtype = u.dtype := by
        cases w <;> simp [Spec.isCounter] at hw <;> rfl
      rw [hd] at he
      obtain ⟨d, h1, h2, h3, h4, h5⟩ := ih hu hn.2 he
      have hf : (Tree.wrap w u).nOutcomes count (some e) = u.nOutcomes count (some e) ∧
          (Tree.wrap w u).domain count (some e) = u.domain count (some e) := by
        cases w <;> simp_all [Spec.isCounter, Tree.nOutcomes, Tree.domain]
      have hcw : Spec.counts (.wrap w u) ↔ Spec.counts u := by simp [counts_wrap, hw]
      refine ⟨d, hf.2.trans h1, hf.1.trans h2, h3, fun hnc => h4 (hcw.not.mp hnc), ?_⟩
      intro n hcn hne
      rcases h5 n (hcw.mp hcn) hne with ⟨a, b, c⟩ | ⟨a, c⟩
      · exact Or.inl ⟨by simp [Spec.wrappers, a], b, c⟩
      · exact Or.inr ⟨by simp [Spec.wrappers, a], c⟩

/-- **C122, experiments reach the stand-alone model.**  In `likelihood` and `simulate_experiment` the
stand-alone model gets an experiment of its own type, with the values given by the user: the experiment itself,
or the value of the field `x` if the stand-alone model has scalar experiments and the data are counted; a record
is handed on with all its fields. -/
theorem C122_reaches_model (count : V → Nat) (t : Tree) (h : Spec.Built count t) (e : Exp V)
    (he : Spec.Fits t.dtype e) :
    (¬ Spec.counts t → t.seen e = .ok e) ∧
    (Spec.counts t → ∀ k, (Spec.root t).dtype = .scalar k →
      ∃ v, e.get "x" = .ok v ∧ t.seen e = .ok (.scalar v)) ∧
    (∀ fs, (Spec.root t).dtype = .fields fs → t.seen e = .ok e ∧
      ∀ f ∈ fs.map Prod.fst, ∃ v, e.get f = .ok v) := by
  have key : ∀ (t : Tree), Spec.Built count t → ∀ e : Exp V, Spec.Fits t.dtype e →
      (¬ Spec.counts t → t.seen e = .ok e) ∧
      (Spec.counts t → ∀ k, (Spec.root t).dtype = .scalar k →
        ∃ v, e.get "x" = .ok v ∧ t.seen e = .ok (.scalar v)) ∧
      (∀ fs, (Spec.root t).dtype = .fields fs → t.seen e = .ok e) := by
    intro t
    induction t with
    | base b =>
      intro _ e _
      refine ⟨fun _ => rfl, fun hc => ?_, fun _ _ => rfl⟩
      simp [Spec.counts, Spec.wrappers] at hc
    | wrap w u ih =>
      intro h e he
      obtain ⟨hu, hc⟩ := built_inv count h
      by_cases hw : Spec.isCounter w = true
      · have hcu := construct_counts count w u _ hu hc (Or.inl hw)
        have hdu := (C122_fields count u hu).1 hcu
        have hs : (Tree.wrap w u).seen e = (unwrapExp u.dtype e).bind u.seen := by
          cases w <;> simp [Spec.isCounter] at hw <;> rfl
        have hcount : Spec.counts (.wrap w u) := (counts_wrap w u).mpr (Or.inl hw)
        refine ⟨fun hnc => absurd hcount hnc, fun _ k hk => ?_, fun fs hfs => ?_⟩
        · simp only [Spec.root] at hk
          rw [(C122_fields count _ h).2 hcount] at he
          simp only [Spec.root, hk] at he
          cases e with
          | scalar v => exact absurd he (by simp [Spec.Fits])
          | record es =>
            obtain ⟨v, hv, _⟩ := fits_get (name := "x") he (by simp)
            refine ⟨v, hv, ?_⟩
            rw [hs, hdu, hk]
            simp only [unwrapExp, bind, Except.bind, hv]
            exact (ih hu (.scalar v) (by rw [hdu, hk]; trivial)).1 hcu
        · simp only [Spec.root] at hfs
          have hsk : ∀ t : Tree, Spec.Built count t → ¬ Spec.counts t → t.seen e = .ok e := by
            intro t
            induction t with
            | base b => intros; rfl
            | wrap w' u' ih' =>
              intro hb hnc
              rw [counts_wrap, not_or] at hnc
              have : (Tree.wrap w' u').seen e = u'.seen e := by
                cases w' <;> simp_all [Spec.isCounter, Tree.seen]
              rw [this]
              exact ih' (built_inv count hb).1 hnc.2
          rw [hs, hdu, hfs]
          simp only [unwrapExp, Except.bind]
          exact hsk u hu hcu
      · have hd : (Tree.wrap w u).dtype = u.dtype := by
          cases w <;> simp [Spec.isCounter] at hw <;> rfl
        have hs : (Tree.wrap w u).seen e = u.seen e := by
          cases w <;> simp_all [Spec.isCounter, Tree.seen]
        have hcw : Spec.counts (.wrap w u) ↔ Spec.counts u := by simp [counts_wrap, hw]
        rw [hd] at he
        rw [hcw, hs]
        exact ih hu e he
  obtain ⟨k1, k2, k3⟩ := key t h e he
  refine ⟨k1, k2, fun fs hfs => ⟨k3 fs hfs, fun f hf => ?_⟩⟩
  obtain ⟨f1, f2⟩ := C122_fields count t h
  by_cases hc : Spec.counts t
  · rw [f2 hc, hfs] at he
    cases e with
    | scalar v => exact absurd he (by simp [Spec.Fits])
    | record es =>
      obtain ⟨v, hv, _⟩ := fits_get (name := f) he (by
        simp only [List.map_append, List.mem_append]; exact Or.inl hf)
      exact ⟨v, hv⟩
  · rw [f1 hc, hfs] at he
    cases e with
    | scalar v => exact absurd he (by simp [Spec.Fits])
    | record es =>
      obtain ⟨v, hv, _⟩ := fits_get (name := f) he hf
      exact ⟨v, hv⟩

/-- **C122, time steps.**  Without a multinomial wrapper, `update_timestep` hands the stand-alone model the
same experiment as `likelihood`, unless a random walk replaces its time step.  Missing: multinomial models, see
`C122_multinomial_timestep`. -/
theorem C122_timestep_partial (t : Tree) (hm : Wrap.multinomial ∉ Spec.wrappers t)
    (hr : Wrap.randomWalk ∉ Spec.wrappers t) (hg : Wrap.gaussianRW ∉ Spec.wrappers t) (e : Exp V) :
    t.seenStep e = (t.seen e).map some := by
  induction t generalizing e with
  | base b => rfl
  | wrap w u ih =>
    simp only [Spec.wrappers, List.mem_cons, not_or] at hm hr hg
    have ih' := ih hm.2 hr.2 hg.2
    cases w
    case binomial =>
      simp only [Tree.seenStep, Tree.seen, bind, Except.bind]
      cases unwrapExp u.dtype e with
      | error x => rfl
      | ok e' => exact ih' e'
    all_goals first
      | exact absurd rfl hm.1
      | exact absurd rfl hr.1
      | exact absurd rfl hg.1
      | exact ih' e

/-- **C122, random walks.**  A random walk anywhere among the wrappers replaces the time step: for every experiment of the
model, `update_timestep` does not reach the stand-alone model. -/
theorem C122_walk_timestep (count : V → Nat) (t : Tree) (h : Spec.Built count t)
    (hw : Wrap.randomWalk ∈ Spec.wrappers t ∨ Wrap.gaussianRW ∈ Spec.wrappers t) (e : Exp V) (he : Spec.Fits t.dtype e) :
    t.seenStep e = .ok none := by
  have plain : ∀ t : Tree, ¬ Spec.counts t → (Wrap.randomWalk ∈ Spec.wrappers t ∨ Wrap.gaussianRW ∈ Spec.wrappers t) →
      ∀ e : Exp V, t.seenStep e = .ok none := by
    intro t
    induction t with
    | base b => intro _ hw; simp [Spec.wrappers] at hw
    | wrap w u ih =>
      intro hn hw e
      rw [counts_wrap, not_or] at hn
      cases w <;> simp only [Spec.wrappers, List.mem_cons, reduceCtorEq, false_or] at hw <;>
        first
          | rfl
          | exact ih hn.2 hw e
          | exact absurd rfl hn.1
  induction t with
  | base b => simp [Spec.wrappers] at hw
  | wrap w u ih =>
    obtain ⟨hu, hc⟩ := built_inv count h
    by_cases hb : Spec.isCounter w = true
    · have hcu := construct_counts count w u _ hu hc (Or.inl hb)
      cases w <;> simp [Spec.isCounter] at hb <;>
        simp only [Spec.wrappers, List.mem_cons, reduceCtorEq, false_or] at hw
      · obtain ⟨e', he'⟩ : ∃ e', unwrapExp u.dtype e = .ok e' := by
          cases hd : u.dtype with
          | fields fs => exact ⟨e, rfl⟩
          | scalar k =>
            simp only [Tree.dtype, hd, countDtype] at he
            cases e with
            | scalar v => exact absurd he (by simp [Spec.Fits])
            | record es =>
              obtain ⟨v, hv, _⟩ := fits_get (name := "x") he (by simp)
              exact ⟨.scalar v, by simp [unwrapExp, bind, Except.bind, hv]⟩
        simp only [Tree.seenStep, bind, Except.bind, he']
        exact plain u hcu hw e'
      · exact plain u hcu hw e
    · have hd : (Tree.wrap w u).dtype = u.dtype := by
        cases w <;> simp [Spec.isCounter] at hb <;> rfl
      rw [hd] at he
      cases w <;> simp only [Spec.wrappers, List.mem_cons, reduceCtorEq, false_or] at hw <;>
        first
          | rfl
          | exact ih hu hw he
          | exact absurd rfl hb

/-- **C122, missing fields.**  Asked for the outcomes of an experiment without the field `n_meas`, a counting model raises:
`ValueError` for a record, `IndexError` for a number, `TypeError` for `None`. -/
theorem C122_missing (count : V → Nat) (t : Tree) (h : Spec.Built count t) (hc : Spec.counts t) :
    (∀ es : List (String × V), "n_meas" ∉ es.map Prod.fst → t.domain count (some (.record es)) = .error .valueError ∧
      t.nOutcomes count (some (.record es)) = .error .valueError) ∧
    (∀ v : V, t.domain count (some (.scalar v)) = .error .indexError ∧
      t.nOutcomes count (some (.scalar v)) = .error .indexError) ∧
    (t.domain count none = .error .typeError ∧ t.nOutcomes count none = .error .typeError) := by
  have key : ∀ (t : Tree), Spec.Built count t → Spec.counts t → ∀ (e : Option (Exp V)) (x : PyErr),
      getOpt e "n_meas" = .error x → t.domain count e = .error x ∧ t.nOutcomes count e = .error x := by
    intro t
    induction t with
    | base b => intro _ hc; simp [Spec.counts, Spec.wrappers] at hc
    | wrap w u ih =>
      intro h hc e x hx
      obtain ⟨hu, hcon⟩ := built_inv count h
      by_cases hb : Spec.isCounter w = true
      · have hcu := construct_counts count w u _ hu hcon (Or.inl hb)
        obtain ⟨d, k, hd, hk⟩ : ∃ d k, u.domain count (none : Option (Exp V)) = .ok d ∧ d.nMembers = .ok k := by
          rw [((without_experiment count u hu).2 hcu).2]
          split_ifs
          · exact ⟨_, none, rfl, rfl⟩
          · exact ⟨_, some _, rfl, rfl⟩
        cases w <;> simp [Spec.isCounter] at hb
        · simp [Tree.domain, Tree.nOutcomes, bind, Except.bind, hx]
        · simp [Tree.domain, Tree.nOutcomes, bind, Except.bind, hx, hd, hk]
      · have hcu : Spec.counts u := by rw [counts_wrap] at hc; exact hc.resolve_left hb
        have hg : w ≠ .gaussHyper := fun hg => construct_counts count w u _ hu hcon (Or.inr hg) hcu
        have := ih hu hcu e x hx
        cases w <;> first
          | exact this
          | exact absurd rfl hg
          | exact absurd rfl hb
  refine ⟨fun es hes => key t h hc _ _ ?_, fun v => key t h hc _ _ rfl, key t h hc _ _ rfl⟩
  have : es.find? (fun f => f.1 == "n_meas") = none := by
    rw [List.find?_eq_none]
    intro f hf hn
    exact hes (List.mem_map.2 ⟨f, hf, by simpa using hn⟩)
  simp [getOpt, Exp.get, this]

/-- **C122, finding.**  `MultinomialModel` does not convert the experiment for `update_timestep`: around any
stand-alone model with scalar experiments, the time step is called with the whole record, which is not an
experiment of that model, while the likelihood is called with the value of `x`. -/
theorem C122_multinomial_timestep (n : Nat) (k : String) (x m : V) :
    let t := Tree.wrap .multinomial (.base ⟨n, .scalar k⟩)
    let e := Exp.record [("x", x), ("n_meas", m)]
    t.seen e = .ok (.scalar x) ∧ t.seenStep e = .ok (some e) ∧ ¬ Spec.Fits (.scalar k) e := by
  refine ⟨rfl, rfl, fun h => h⟩

/-- **C122, finding.**  A model seen through normal noise reports the number of outcomes of the wrapped model,
2, although its domain are the real numbers.  A binomial model therefore accepts it, and takes the value of the
noisy likelihood at the outcome 1 for the probability of a one: even where the wrapped model always gives 1, the
likelihood of `n` ones in `n` measurements is less than 1/2. -/
theorem C122_noise (count : V → Nat) (t : Tree) (h : Spec.Built count t) (hn : Spec.noisy t)
    (hc : ¬ Spec.counts t) :
    (∀ e, t.nOutcomes count e = .ok (some 2) ∧ t.domain count e = .ok .reals) ∧
    (t.isConst = true → Spec.Built count (.wrap .binomial t)) ∧
    (∀ (xs : List ℝ) (μ₀ μ₁ s : ℝ) (m : Nat), 0 < s → 1 ≤ m →
      ∃ L, binomialLikelihood m [(m : ℤ)]
        (ghCell (fun u _ (_ : Unit) => if u = 1 then 1 else 0) xs.length 1 (xs ++ [μ₀, μ₁, s, s]) ()) =
          .ok [L] ∧ L < 1 / 2) := by
  have h2 : (Spec.root t).nOut = 2 ∧
      ∀ e : Option (Exp V), t.nOutcomes count e = .ok (some (Spec.root t).nOut) ∧
        t.domain count e = .ok .reals := by
    induction t with
    | base b => simp [Spec.noisy, Spec.wrappers] at hn
    | wrap w u ih =>
      obtain ⟨hu, hcon⟩ := built_inv count h
      rw [counts_wrap, not_or] at hc
      have all_e : ∀ u : Tree, Spec.Built count u → ¬ Spec.counts u → ∀ e : Option (Exp V),
          u.nOutcomes count e = .ok (some (Spec.root u).nOut) := by
        intro u
        induction u with
        | base b => intros; rfl
        | wrap w' u' ih' =>
          intro hb hnc e
          rw [counts_wrap, not_or] at hnc
          have : (Tree.wrap w' u').nOutcomes count e = u'.nOutcomes count e := by
            cases w' <;> simp_all [Spec.isCounter, Tree.nOutcomes]
          rw [this]
          exact ih' (built_inv count hb).1 hnc.2 e
      by_cases hg : w = .gaussHyper
      · subst hg
        have hroot := ((C122_constructors count u hu .gaussHyper (Or.inr rfl)).1.mp hcon).2.1
        refine ⟨hroot, fun e => ⟨?_, rfl⟩⟩
        exact all_e u hu hc.2 e
      · have hn' : Spec.noisy u := by
          rcases (noisy_wrap w u).mp hn with h | h
          · exact absurd h hg
          · exact h
        obtain ⟨a, b⟩ := ih hu hn' hc.2
        refine ⟨a, fun e => ?_⟩
        have hf : (Tree.wrap w u).nOutcomes count e = u.nOutcomes count e ∧
            (Tree.wrap w u).domain count e = u.domain count e := by
          have := hc.1
          cases w <;> simp_all [Spec.isCounter, Tree.nOutcomes, Tree.domain]
        exact ⟨hf.1.trans (b e).1, hf.2.trans (b e).2⟩
  obtain ⟨hr, h2⟩ := h2
  refine ⟨fun e => ⟨hr ▸ (h2 e).1, (h2 e).2⟩, fun hconst => ?_, ?_⟩
  · refine Spec.Built.wrap .binomial t _ h ?_
    simp [construct, hconst, bind, Except.bind, (h2 none).1, hr]
  · intro xs μ₀ μ₁ s m hs hm
    obtain ⟨p, hp⟩ : ∃ p, p = ghCell (fun u _ (_ : Unit) => if u = 1 then (1:ℝ) else 0) xs.length 1
      (xs ++ [μ₀, μ₁, s, s]) () := ⟨_, rfl⟩
    rw [← hp]
    have hpi : (2:ℝ) < Real.sqrt (2 * Real.pi) := by
      rw [show (2:ℝ) = Real.sqrt 4 by
        rw [show (4:ℝ) = 2 ^ 2 by norm_num]; exact (Real.sqrt_sq (by norm_num)).symm]
      apply Real.sqrt_lt_sqrt (by norm_num)
      have := Real.pi_gt_three
      have h4 : Real.sqrt 4 = 2 := by
        rw [show (4:ℝ) = 2 ^ 2 by norm_num]; exact Real.sqrt_sq (by norm_num)
      rw [h4]; linarith
    have hrange : 0 ≤ p ∧ p < 1 / 2 := by
      have : ∃ z : ℝ, p = normPdf z := by
        refine ⟨(1 - (ghMu xs.length (xs ++ [μ₀, μ₁, s, s])).getD 1 0) /
          Real.sqrt ((ghSigma2 xs.length (xs ++ [μ₀, μ₁, s, s])).getD 1 0), ?_⟩
        rw [hp]
        simp [ghCell]
      obtain ⟨z, rfl⟩ := this
      unfold normPdf
      have hexp : Real.exp (-z ^ 2 / 2) ≤ 1 := by
        rw [Real.exp_le_one_iff]
        nlinarith [sq_nonneg z]
      refine ⟨div_nonneg (Real.exp_pos _).le (Real.sqrt_nonneg _), ?_⟩
      rw [div_lt_div_iff₀ (by linarith) (by norm_num)]
      linarith
    refine ⟨p ^ m, ?_, ?_⟩
    · have h1 : p ≤ 1 := by linarith [hrange.2]
      simp [binomialLikelihood, binomialPdf, hrange.1, h1]
    · calc p ^ m ≤ p ^ 1 := pow_le_pow_of_le_one hrange.1 (by linarith [hrange.2]) hm
        _ < 1 / 2 := by simpa using hrange.2

/-! ## Cases -/

/-- **C122, finding.**  A multinomial model accepts a model seen through normal noise; its `n_outcomes` is then
NaN, and asking its domain for `n_members` raises `ValueError`. -/
theorem C122_noise_multinomial (count : V → Nat) (t : Tree) (h : Spec.Built count t) (hn : Spec.noisy t)
    (hc : ¬ Spec.counts t) (hconst : t.isConst = true) (e : Exp V) (n : V) (he : e.get "n_meas" = .ok n) :
    Spec.Built count (.wrap .multinomial t) ∧
    (Tree.wrap .multinomial t).nOutcomes count (some e) = .ok none ∧
    ∃ d, (Tree.wrap .multinomial t).domain count (some e) = .ok d ∧ d.nMembers = .error .valueError := by
  have hd := ((C122_noise count t h hn hc).1 none).2
  refine ⟨Spec.Built.wrap .multinomial t _ h ?_, ?_, .tuples none (count n), ?_, rfl⟩
  · simp [construct, hconst, hd, Dom.nMembers, bind, Except.bind]
  · simp [Tree.nOutcomes, hd, Dom.nMembers, getOpt, he, bind, Except.bind]
  · simp [Tree.domain, hd, Dom.nMembers, getOpt, he, bind, Except.bind]

/-- Case for C122: a coin seen through normal noise. -/
example : Spec.Built (id : ℕ → ℕ) (.wrap .multinomial (.wrap .gaussHyper (.base ⟨2, .scalar "float"⟩))) := by
  have h1 : Spec.Built (id : ℕ → ℕ) (.base ⟨2, .scalar "float"⟩) := .base _ (by decide)
  have h2 := Spec.Built.wrap .gaussHyper _ (.wrap .gaussHyper (.base ⟨2, .scalar "float"⟩)) h1 (by decide)
  exact (C122_noise_multinomial id _ h2 (by simp [Spec.noisy, Spec.wrappers])
    (by simp [Spec.counts, Spec.wrappers, Spec.isCounter]) rfl
    (.record [("x", 5), ("n_meas", 7)]) 7 rfl).1

/-- A poisoned binomial model around a random walk of a precession model with scalar experiments. -/
def Spec.tower : Tree := .wrap .poisoned (.wrap .binomial (.wrap .randomWalk (.base ⟨2, .scalar "float"⟩)))

theorem tower_built : Spec.Built (id : ℕ → ℕ) Spec.tower := by
  have h1 : Spec.Built (id : ℕ → ℕ) (.base ⟨2, .scalar "float"⟩) := .base _ (by decide)
  have h2 := Spec.Built.wrap .randomWalk _ (.wrap .randomWalk (.base ⟨2, .scalar "float"⟩)) h1 rfl
  have h3 := Spec.Built.wrap .binomial _
    (.wrap .binomial (.wrap .randomWalk (.base ⟨2, .scalar "float"⟩))) h2 (by decide)
  exact .wrap .poisoned _ _ h3 rfl

/-- Case for C122: it counts, its experiments have two fields, there are eight numbers of ones among seven
measurements, and the precession model sees the time. -/
example : Spec.counts Spec.tower ∧ ¬ Spec.noisy Spec.tower ∧
    Spec.tower.dtype = .fields [("x", "float"), ("n_meas", "uint")] ∧
    Spec.tower.nOutcomes (id : ℕ → ℕ) (some (.record [("x", 5), ("n_meas", 7)])) = .ok (some 8) ∧
    Spec.tower.seen (Exp.record [("x", 5), ("n_meas", 7)]) = .ok (Exp.scalar 5) := by
  refine ⟨⟨.binomial, by simp [Spec.tower, Spec.wrappers], rfl⟩, ?_, rfl, rfl, rfl⟩
  simp [Spec.noisy, Spec.tower, Spec.wrappers]

/-- Case for C122: the walk takes over the time step, and an experiment without a number of measurements is refused. -/
example : Spec.tower.seenStep (Exp.record [("x", 5), ("n_meas", 7)]) = .ok none ∧
    Spec.tower.domain (id : ℕ → ℕ) (some (.record [("x", 5)])) = .error .valueError :=
  ⟨C122_walk_timestep id _ tower_built (by simp [Spec.tower, Spec.wrappers]) _ rfl,
    ((C122_missing id _ tower_built ⟨.binomial, by simp [Spec.tower, Spec.wrappers], rfl⟩).1 _ (by simp)).1⟩

/-- Case for C122: a multinomial model of a die with named fields can be poisoned; counting again raises. -/
example : let die : Tree := .base ⟨6, .fields [("exp_num", "int")]⟩
    construct (id : ℕ → ℕ) .multinomial die = .ok (.wrap .multinomial die) ∧
    construct (id : ℕ → ℕ) .multinomial (.wrap .poisoned (.wrap .multinomial die)) = .error .typeError ∧
    construct (id : ℕ → ℕ) .multinomial (.wrap .multinomial die) = .error .assertionError ∧
    construct (id : ℕ → ℕ) .binomial die = .error .valueError := by
  decide

/-- Case for `C122_noise`: a coin seen through noise. -/
example : Spec.Built (id : ℕ → ℕ) (.wrap .gaussHyper (.base ⟨2, .fields []⟩)) ∧
    Spec.Built (id : ℕ → ℕ) (.wrap .binomial (.wrap .gaussHyper (.base ⟨2, .fields []⟩))) := by
  have h0 : Spec.Built (id : ℕ → ℕ) (.base ⟨2, .fields []⟩) := .base _ (by decide)
  have : Spec.Built (id : ℕ → ℕ) (.wrap .gaussHyper (.base ⟨2, .fields []⟩)) :=
    .wrap .gaussHyper _ _ h0 (by decide)
  exact ⟨this, .wrap .binomial _ _ this (by decide)⟩

end Nest
end QInfer
