import Verif.Model.Stack
import Verif.Props.Nest
import Verif.Props.Pdf
import Verif.Props.Walk
import Mathlib.Tactic

/-!
# C124: likelihoods of nested models
-/

namespace QInfer
namespace Nest

variable {V : Type}

/-! ## Specification -/

/-- Number of parameters of the stand-alone model. -/
def Spec.rootParams : Stack V → Nat
  | .base _ n _ => n
  | .wrap _ u => Spec.rootParams u

/-- Likelihood of the stand-alone model. -/
def Spec.rootLike : Stack V → Nat → List ℝ → Exp V → ℝ
  | .base _ _ f => f
  | .wrap _ u => Spec.rootLike u

/-- The wrappers with their data, outermost first. -/
def Spec.layers : Stack V → List (Layer V)
  | .base _ _ _ => []
  | .wrap l u => l :: Spec.layers u

/-- The columns a wrapper adds: two means and two variances, or the parameters of a walk. -/
def Spec.added : Layer V → Nat
  | .gaussHyper => 4
  | .gaussianRW extra => extra
  | _ => 0

/-- A wrapper that is meant to leave probabilities alone: numbers of outcomes and random walks. -/
def Spec.plain : Wrap → Bool
  | .binomial | .multinomial | .randomWalk | .gaussianRW => true
  | _ => false

/-- A model made of such wrappers only. -/
def Spec.Faithful (t : Tree) : Prop := ∀ w ∈ Spec.wrappers t, Spec.plain w = true

/-- The likelihoods of the stand-alone model are a probability distribution. -/
def Spec.Distribution (s : Stack V) : Prop := ∀ row e,
  (∀ k < (Spec.root s.tree).nOut, 0 ≤ Spec.rootLike s k row e) ∧
    ∑ k : Fin (Spec.root s.tree).nOut, Spec.rootLike s k row e = 1

/-- The experiment of the stand-alone model inside the experiment `e` of a model that counts. -/
def Spec.Inner (d : Dtype) (e e' : Exp V) : Prop :=
  match d with
  | .scalar _ => ∃ v, e.get "x" = .ok v ∧ e' = .scalar v
  | .fields _ => e' = e

/-- A member of the domain as an outcome. -/
def Spec.outc : (d : Dom) → Spec.Members d → Outc
  | .ints _, k => .int ((k : Fin _).val : ℤ)
  | .reals, x => .real x
  | .tuples (some _) _, p => .tuple (List.ofFn p.1)
  | .tuples none _, _ => .tuple []

/-! ## Lemmas -/

theorem faithful_wrap (l : Layer V) (u : Stack V) :
    Spec.Faithful (Stack.wrap l u).tree ↔ Spec.plain l.wrap = true ∧ Spec.Faithful u.tree := by
  simp [Spec.Faithful, Stack.tree, Spec.wrappers]

theorem rootParams_le (s : Stack V) : Spec.rootParams s ≤ s.nParams := by
  induction s with
  | base b n f => exact le_rfl
  | wrap l u ih => cases l <;> simp [Spec.rootParams, Stack.nParams] <;> omega

theorem unwrap_inner (d : Dtype) (e : Exp V) (he : Spec.Fits (countDtype d) e) :
    ∃ e', unwrapExp d e = .ok e' ∧ Spec.Inner d e e' := by
  cases d with
  | fields fs => exact ⟨e, rfl, rfl⟩
  | scalar k =>
    cases e with
    | scalar v => exact absurd he (by simp [Spec.Fits, countDtype])
    | record es =>
      obtain ⟨v, hv, _⟩ := fits_get (name := "x") he (by simp)
      exact ⟨.scalar v, by simp [unwrapExp, hv, bind, Except.bind], v, hv, rfl⟩

theorem fits_count_n_meas (d : Dtype) (e : Exp V) (he : Spec.Fits (countDtype d) e) :
    ∃ v, e.get "n_meas" = .ok v := by
  cases e with
  | scalar v => cases d <;> exact absurd he (by simp [Spec.Fits, countDtype])
  | record es =>
    cases d with
    | scalar k => exact (fits_get (name := "n_meas") he (by simp)).imp fun v h => h.1
    | fields fs => exact (fits_get (name := "n_meas") he (by simp)).imp fun v h => h.1

theorem mapM_like_ok {α β ε : Type} (g : α → Except ε β) (f : α → β) (l : List α)
    (h : ∀ a ∈ l, g a = .ok (f a)) : l.mapM g = .ok (l.map f) := by
  induction l with
  | nil => rfl
  | cons a l ih =>
    rw [List.mapM_cons, h a (by simp), ih fun b hb => h b (by simp [hb])]
    rfl

theorem binomial_single (m : Nat) (k : Nat) (p : ℝ) (h0 : 0 ≤ p) (h1 : p ≤ 1) :
    binomialLikelihood m [(k : ℤ)] p = .ok [(m.choose k : ℝ) * p ^ k * (1 - p) ^ (m - k)] := by
  rw [binomialLikelihood_ok m _ (by simp) p h0 h1, List.map_singleton, binomialPdf_some _ _ _ ⟨h0, h1⟩]
  simp only [Option.getD_some]
  split
  · rfl
  · rename_i hk
    rw [Nat.choose_eq_zero_of_lt (by omega)]; simp

/-! ## Theorems -/

/-- **C124, columns.**  A row has the parameters of the stand-alone model and those added by the wrappers. -/
theorem C124_columns (s : Stack V) :
    s.nParams = Spec.rootParams s + ((Spec.layers s).map Spec.added).sum := by
  induction s with
  | base b n f => rfl
  | wrap l u ih =>
    cases l <;> simp [Stack.nParams, Spec.rootParams, Spec.layers, Spec.added, ih] <;> omega

/-- **C124, single outcomes.**  In a model without counting, poisoning, powers and noise, the likelihood is
that of the stand-alone model at the leading parameters. -/
theorem C124_single (count : V → Nat) (s : Stack V) (hf : Spec.Faithful s.tree)
    (hc : ¬ Spec.counts s.tree) (row : List ℝ) (hrow : row.length = s.nParams) (e : Exp V) (k : Nat) :
    s.like count (.int k) row e =
      .ok (some (Spec.rootLike s k (row.take (Spec.rootParams s)) e)) := by
  induction s generalizing row with
  | base b n f =>
    rw [Spec.rootParams, List.take_of_length_le (by rw [hrow, Stack.nParams])]
    rfl
  | wrap l u ih =>
    rw [faithful_wrap] at hf
    rw [Stack.tree, counts_wrap, not_or] at hc
    cases l <;> simp [Layer.wrap, Spec.plain, Spec.isCounter] at hf hc
    case randomWalk => exact ih hf hc row hrow
    case gaussianRW x =>
      have hle := rootParams_le u
      have := ih hf hc (row.take u.nParams) (by
        rw [List.length_take, hrow, Stack.nParams]; omega)
      rw [List.take_take, min_eq_left hle] at this
      exact this

theorem root_inner_dtype (count : V → Nat) (t : Tree) (h : Spec.Built count t) (hc : ¬ Spec.counts t) :
    t.dtype = (Spec.root t).dtype := (C122_fields count t h).1 hc

/-- **C124, numbers of ones.**  In a model with a `BinomialModel` and otherwise only random walks, in any
nesting the constructors accept, the likelihood of `k` is the binomial probability of `k` ones among `n_meas`
measurements of the stand-alone model, at the leading parameters and with its own experiment. -/
theorem C124_binomial (count : V → Nat) (s : Stack V) (hb : Spec.Built count s.tree)
    (hf : Spec.Faithful s.tree) (hd : Spec.Distribution s) (hc : Wrap.binomial ∈ Spec.wrappers s.tree)
    (row : List ℝ) (hrow : row.length = s.nParams) (e : Exp V) (he : Spec.Fits s.tree.dtype e) :
    ∃ e' m p, Spec.Inner (Spec.root s.tree).dtype e e' ∧ e.get "n_meas" = .ok m ∧
      p = Spec.rootLike s 1 (row.take (Spec.rootParams s)) e' ∧
      ∀ k : Nat, s.like count (.int k) row e =
        .ok (some (((count m).choose k : ℝ) * p ^ k * (1 - p) ^ (count m - k))) := by
  induction s generalizing row with
  | base b n f => simp [Stack.tree, Spec.wrappers] at hc
  | wrap l u ih =>
    rw [faithful_wrap] at hf
    obtain ⟨hu, hcon⟩ := built_inv count hb
    have hdu : Spec.Distribution u := hd
    by_cases hl : l.wrap = .binomial
    · have hl' : l = .binomial := by cases l <;> simp_all [Layer.wrap]
      subst hl'
      have hnc := construct_counts count _ _ _ hu hcon (Or.inl rfl)
      have h2 := ((C122_constructors count _ hu .binomial (Or.inl rfl)).1.mp hcon).2.1
      have hdt := root_inner_dtype count _ hu hnc
      obtain ⟨e', hun, hin⟩ := unwrap_inner _ e he
      obtain ⟨m, hm⟩ := fits_count_n_meas _ e he
      obtain ⟨p, hp⟩ : ∃ p, p = Spec.rootLike u 1 (row.take (Spec.rootParams u)) e' := ⟨_, rfl⟩
      have hbound : 0 ≤ p ∧ p ≤ 1 := by
        obtain ⟨h0, h1⟩ := hdu (row.take (Spec.rootParams u)) e'
        have ha := h0 0 (by omega)
        have hb' := h0 1 (by omega)
        have hs : Spec.rootLike u 0 (row.take (Spec.rootParams u)) e' +
            Spec.rootLike u 1 (row.take (Spec.rootParams u)) e' = 1 := by
          rw [← h1, Fin.sum_univ_eq_sum_range
            (fun k => Spec.rootLike u k (row.take (Spec.rootParams u)) e') _, h2]
          simp [Finset.sum_range_succ]
        rw [hp]
        exact ⟨hb', by linarith⟩
      refine ⟨e', m, p, ?_, hm, hp, fun k => ?_⟩
      · simpa [Stack.tree, Spec.root, ← hdt] using hin
      · have h1 := C124_single count u hf.2 hnc row hrow e' 1
        simp only [Stack.like, hun, bind, Except.bind, hm]
        rw [show (Outc.int 1 : Outc) = .int ((1 : Nat) : ℤ) from rfl, h1, ← hp]
        simp only [binomial_single _ _ _ hbound.1 hbound.2, List.head?_cons]
    · have hcu : Wrap.binomial ∈ Spec.wrappers u.tree := by
        simp only [Stack.tree, Spec.wrappers, List.mem_cons] at hc
        rcases hc with hc | hc
        · exact absurd hc.symm hl
        · exact hc
      have hcount : Spec.counts u.tree := ⟨_, hcu, rfl⟩
      cases l <;> simp [Layer.wrap, Spec.plain] at hf hl
      case multinomial => exact absurd hcount (construct_counts count _ _ _ hu hcon (Or.inl rfl))
      case randomWalk => exact ih hu hf hdu hcu row hrow he
      case gaussianRW x =>
        have hle := rootParams_le u
        have := ih hu hf hdu hcu (row.take u.nParams) (by
          rw [List.length_take, hrow, Stack.nParams]; omega) he
        rw [List.take_take, min_eq_left hle] at this
        exact this

/-- **C124, counts of all outcomes.**  In a model with a `MultinomialModel` and otherwise only random walks,
the likelihood of a tuple of counts is the multinomial probability of the stand-alone model's likelihoods, at the
leading parameters and with its own experiment. -/
theorem C124_multinomial (count : V → Nat) (s : Stack V) (hb : Spec.Built count s.tree)
    (hf : Spec.Faithful s.tree) (hd : Spec.Distribution s)
    (hc : Wrap.multinomial ∈ Spec.wrappers s.tree)
    (row : List ℝ) (hrow : row.length = s.nParams) (e : Exp V) (he : Spec.Fits s.tree.dtype e) :
    ∃ e', Spec.Inner (Spec.root s.tree).dtype e e' ∧
      ∀ c : Fin (Spec.root s.tree).nOut → Nat,
        s.like count (.tuple (List.ofFn fun j => (c j : ℤ))) row e =
          .ok (some (multinomialProb c fun j =>
            Spec.rootLike s j (row.take (Spec.rootParams s)) e')) := by
  induction s generalizing row with
  | base b n f => simp [Stack.tree, Spec.wrappers] at hc
  | wrap l u ih =>
    rw [faithful_wrap] at hf
    obtain ⟨hu, hcon⟩ := built_inv count hb
    have hdu : Spec.Distribution u := hd
    by_cases hl : l.wrap = .multinomial
    · have hl' : l = .multinomial := by cases l <;> simp_all [Layer.wrap]
      subst hl'
      have hnc := construct_counts count _ _ _ hu hcon (Or.inl rfl)
      have hdt := root_inner_dtype count _ hu hnc
      have hng : Wrap.gaussHyper ∉ Spec.wrappers u.tree := fun hg => by
        have := hf.2 _ hg
        simp [Spec.plain] at this
      have hdom := ((without_experiment count _ hu).2 hnc).2
      rw [if_neg hng] at hdom
      obtain ⟨e', hun, hin⟩ := unwrap_inner _ e he
      refine ⟨e', ?_, fun c => ?_⟩
      · simpa [Stack.tree, Spec.root, ← hdt] using hin
      · change Fin (Spec.root u.tree).nOut → Nat at c
        change Stack.like count (.wrap .multinomial u)
          (.tuple (List.ofFn (n := (Spec.root u.tree).nOut) fun j => (c j : ℤ))) row e =
          .ok (some (multinomialProb (k := (Spec.root u.tree).nOut) c fun j =>
            Spec.rootLike u j (row.take (Spec.rootParams u)) e'))
        obtain ⟨h0, h1⟩ := hdu (row.take (Spec.rootParams u)) e'
        have hm := mapM_like_ok (fun i : Nat => u.like count (.int i) row e')
          (fun i : Nat => some (Spec.rootLike u i (row.take (Spec.rootParams u)) e'))
          (List.range (Spec.root u.tree).nOut).dropLast
          (fun i _ => C124_single count u hf.2 hnc row hrow e' i)
        have hpdf := (C30_formula c
          (fun j => Spec.rootLike u j (row.take (Spec.rootParams u)) e')
          (fun j => h0 j j.2)).2 h1
        have hlist : ((List.range (Spec.root u.tree).nOut).dropLast.map
            (fun i : Nat => some (Spec.rootLike u i (row.take (Spec.rootParams u)) e'))).map
              (fun p => p.getD 0) =
            (List.ofFn fun j : Fin (Spec.root u.tree).nOut =>
              Spec.rootLike u j (row.take (Spec.rootParams u)) e').dropLast := by
          rw [List.map_map, List.map_dropLast]
          congr 1
          apply List.ext_getElem <;> simp
        have hany : ((List.range (Spec.root u.tree).nOut).dropLast.map
            (fun i : Nat => some (Spec.rootLike u i (row.take (Spec.rootParams u)) e'))).any
              Option.isNone = false := by
          rw [List.any_map]
          exact List.any_eq_false.mpr fun x _ => by simp
        simp only [Stack.like, hun, bind, Except.bind, hdom, hm, hany, hlist]
        simp only [hpdf, Bool.false_eq_true, if_false]
    · have hcu : Wrap.multinomial ∈ Spec.wrappers u.tree := by
        simp only [Stack.tree, Spec.wrappers, List.mem_cons] at hc
        rcases hc with hc | hc
        · exact absurd hc.symm hl
        · exact hc
      have hcount : Spec.counts u.tree := ⟨_, hcu, rfl⟩
      cases l <;> simp [Layer.wrap, Spec.plain] at hf hl
      case binomial => exact absurd hcount (construct_counts count _ _ _ hu hcon (Or.inl rfl))
      case randomWalk => exact ih hu hf hdu hcu row hrow he
      case gaussianRW x =>
        have hle := rootParams_le u
        have := ih hu hf hdu hcu (row.take u.nParams) (by
          rw [List.length_take, hrow, Stack.nParams]; omega) he
        rw [List.take_take, min_eq_left hle] at this
        exact this

theorem hasSum_binomial (n : Nat) (p : ℝ) :
    HasSum (fun k : Fin (n + 1) => (n.choose k : ℝ) * p ^ (k : Nat) * (1 - p) ^ (n - (k : Nat))) 1 := by
  have : ∑ k : Fin (n + 1), (n.choose k : ℝ) * p ^ (k : Nat) * (1 - p) ^ (n - (k : Nat)) = 1 := by
    rw [Fin.sum_univ_eq_sum_range
      (fun k => (n.choose k : ℝ) * p ^ k * (1 - p) ^ (n - k)) (n + 1)]
    have h := add_pow p (1 - p) n
    rw [show p + (1 - p) = 1 by ring, one_pow] at h
    refine Eq.trans (Finset.sum_congr rfl fun k _ => ?_) h.symm
    ring
  have h2 := hasSum_fintype
    (fun k : Fin (n + 1) => (n.choose k : ℝ) * p ^ (k : Nat) * (1 - p) ^ (n - (k : Nat)))
  rw [this] at h2
  exact h2

theorem multinomialProb_nonneg {k : Nat} (c : Fin k → Nat) (p : Fin k → ℝ) (h : ∀ j, 0 ≤ p j) :
    0 ≤ multinomialProb c p := by
  unfold multinomialProb
  have : 0 ≤ ∏ j, p j ^ c j := Finset.prod_nonneg fun j _ => pow_nonneg (h j) _
  positivity

theorem hasSum_multinomial (n k : Nat) (p : Fin k → ℝ) (h0 : ∀ j, 0 ≤ p j) (h1 : ∑ j, p j = 1) :
    HasSum (fun c : {c : Fin k → ℤ // IsOutcome n c} =>
      multinomialProb (fun j => (c.1 j).toNat) p) 1 := by
  have hk : 1 ≤ k := by
    rcases Nat.eq_zero_or_pos k with rfl | h
    · exact absurd h1 (by simp)
    · exact h
  obtain ⟨vs, hv, prs, hprs, -, hsum⟩ := C30_sums_to_one n k p h0 h1
  obtain ⟨vs', hv', hnd, hmem, -⟩ := C23_values_exact n k hk
  have hvv : vs = vs' := by
    exact List.map_injective_iff.mpr (Option.some_injective _) (Except.ok.inj (hv.symm.trans hv'))
  subst hvv
  have hm := mapM_like_ok (fun c : Fin k → ℤ => multinomialLikelihood (List.ofFn c) (List.ofFn p))
    (fun c => multinomialProb (fun j => (c j).toNat) p) vs (fun c hc => by
      have hpos : ∀ j, 0 ≤ c j := ((hmem c).mp hc).1
      have e1 : (List.ofFn c) = List.ofFn fun j => (((c j).toNat : Nat) : ℤ) := by
        congr 1; funext j; exact (Int.toNat_of_nonneg (hpos j)).symm
      rw [e1]
      unfold multinomialLikelihood
      simp only [(C30_formula _ p h0).2 h1, bind, Except.bind])
  rw [← Except.ok.inj (hm.symm.trans hprs)] at hsum
  have key : ∑ c ∈ vs.toFinset, multinomialProb (fun j => (c j).toNat) p = 1 := by
    rw [← hsum, List.sum_toFinset _ hnd]
  have h := Finset.hasSum vs.toFinset
    (fun c : Fin k → ℤ => multinomialProb (fun j => (c j).toNat) p)
  rw [key] at h
  have hiff : ∀ c : Fin k → ℤ, IsOutcome n c ↔ c ∈ vs.toFinset := fun c => by
    rw [List.mem_toFinset, hmem]
  have h2 := (Equiv.hasSum_iff (a := (1 : ℝ)) (f := fun c : {c : Fin k → ℤ // c ∈ vs.toFinset} =>
    multinomialProb (fun j => (c.1 j).toNat) p) (Equiv.subtypeEquivRight hiff)).mpr h
  exact h2

/-- **C124, a distribution.**  For every model that can be made from a stand-alone model with counting
wrappers and random walks, every row of parameters and every experiment with the declared fields, no call of
`likelihood` fails on the domain reported for the experiment, and over this domain the likelihoods are
non-negative and sum to one. -/
theorem C124_distribution (count : V → Nat) (s : Stack V) (hb : Spec.Built count s.tree)
    (hf : Spec.Faithful s.tree) (hd : Spec.Distribution s) (row : List ℝ)
    (hrow : row.length = s.nParams) (e : Exp V) (he : Spec.Fits s.tree.dtype e) :
    ∃ d, s.tree.domain count (some e) = .ok d ∧ ∃ L : Spec.Members d → ℝ,
      (∀ o, s.like count (Spec.outc d o) row e = .ok (some (L o))) ∧ (∀ o, 0 ≤ L o) ∧ HasSum L 1 := by
  have hng : ¬ Spec.noisy s.tree := fun h => by
    have := hf _ h
    simp [Spec.plain] at this
  obtain ⟨d, hdom, -, -, h4, h5⟩ := C122_outcomes_partial count s.tree hb hng e he
  refine ⟨d, hdom, ?_⟩
  by_cases hc : Spec.counts s.tree
  · obtain ⟨m, hm⟩ := fits_n_meas count _ hb hc e he
    rcases h5 m hc hm with ⟨hw, h2, rfl⟩ | ⟨hw, rfl⟩
    · obtain ⟨e', m', p, -, hm', hp, hL⟩ := C124_binomial count s hb hf hd hw row hrow e he
      rw [hm] at hm'
      injection hm' with hm'
      subst hm'
      have hp01 : 0 ≤ p ∧ p ≤ 1 := by
        obtain ⟨h0, h1⟩ := hd (row.take (Spec.rootParams s)) e'
        rw [Fin.sum_univ_eq_sum_range
          (fun k => Spec.rootLike s k (row.take (Spec.rootParams s)) e') _, h2] at h1
        simp [Finset.sum_range_succ] at h1
        have ha := h0 0 (by omega)
        have hb' := h0 1 (by omega)
        rw [hp]
        exact ⟨hb', by linarith⟩
      refine ⟨fun k : Fin (count m + 1) => ((count m).choose k : ℝ) * p ^ (k : Nat) *
        (1 - p) ^ (count m - (k : Nat)), fun k => hL _, fun k => ?_, hasSum_binomial _ _⟩
      have := hp01.1
      have : 0 ≤ 1 - p := by linarith [hp01.2]
      positivity
    · obtain ⟨e', -, hL⟩ := C124_multinomial count s hb hf hd hw row hrow e he
      obtain ⟨h0, h1⟩ := hd (row.take (Spec.rootParams s)) e'
      refine ⟨fun c : {p : Fin (Spec.root s.tree).nOut → ℤ // IsOutcome (count m) p} =>
        multinomialProb (fun j => (c.1 j).toNat) fun j =>
          Spec.rootLike s j (row.take (Spec.rootParams s)) e', fun c => ?_, fun c => ?_, ?_⟩
      · change {p : Fin (Spec.root s.tree).nOut → ℤ // IsOutcome (count m) p} at c
        have e1 : List.ofFn c.1 = List.ofFn fun j => (((c.1 j).toNat : Nat) : ℤ) := by
          congr 1; funext j; exact (Int.toNat_of_nonneg (c.2.1 j)).symm
        have := hL fun j => (c.1 j).toNat
        rw [← e1] at this
        exact this
      · exact multinomialProb_nonneg _ _ fun j => h0 j j.2
      · exact hasSum_multinomial _ _ _ (fun j => h0 j j.2) h1
  · have := h4 hc
    subst this
    obtain ⟨h0, h1⟩ := hd (row.take (Spec.rootParams s)) e
    refine ⟨fun k : Fin (Spec.root s.tree).nOut =>
      Spec.rootLike s k (row.take (Spec.rootParams s)) e,
      fun k => C124_single count s hf hc row hrow e _, fun k => h0 _ k.2, ?_⟩
    have h2 := hasSum_fintype fun k : Fin (Spec.root s.tree).nOut =>
      Spec.rootLike s k (row.take (Spec.rootParams s)) e
    rw [h1] at h2
    exact h2

/-- Settings of a wrapper that distorts likelihoods: any tolerance, a number of samples and a hedge that are
not negative, a power that is not negative. -/
def Spec.Sane : Layer V → Prop
  | .poisoned (.ale _) _ => True
  | .poisoned (.mle (some n) h) _ => 0 ≤ n ∧ 0 ≤ h
  | .poisoned (.mle none _) _ => False
  | .mle γ => 0 ≤ γ
  | .randomWalk => True
  | .gaussianRW _ => True
  | _ => False

/-- A model made of such wrappers only. -/
def Spec.AllSane : Stack V → Prop
  | .base _ _ _ => True
  | .wrap l u => Spec.Sane l ∧ Spec.AllSane u

/-- Poisoning and powers leave likelihoods between 0 and 1, whatever the noise. -/
theorem sane_range (count : V → Nat) (u : Stack V) (hs : Spec.AllSane u)
    (hd : ∀ k row e, 0 ≤ Spec.rootLike u k row e ∧ Spec.rootLike u k row e ≤ 1)
    (k : Nat) (row : List ℝ) (e : Exp V) :
    ∃ p, u.like count (.int k) row e = .ok (some p) ∧ 0 ≤ p ∧ p ≤ 1 := by
  induction u generalizing row with
  | base b n f => exact ⟨_, rfl, hd k row e⟩
  | wrap l u ih =>
    obtain ⟨hl, hu⟩ := hs
    have ih' := ih hu hd
    cases l with
    | poisoned mode z =>
      obtain ⟨p, hp, h0, h1⟩ := ih' row
      cases mode with
      | ale t =>
        obtain ⟨r, hr, hc⟩ := C45_ale t (z (.int k) row e) p
        exact ⟨r, by simp only [Stack.like, hp, bind, Except.bind, hr, Flt.toOption], hc.1, hc.2.1⟩
      | mle n h =>
        cases n with
        | none => exact absurd hl (by simp [Spec.Sane])
        | some n =>
          obtain ⟨r, hr, hc⟩ := C45_mle n h (z (.int k) row e) p hl.1 hl.2 h0 h1
          exact ⟨r, by simp only [Stack.like, hp, bind, Except.bind, hr, Flt.toOption], hc.1, hc.2.1⟩
    | mle γ =>
      obtain ⟨p, hp, h0, h1⟩ := ih' row
      have hγ : 0 ≤ γ := hl
      have hpow : powEntry γ p = some (p ^ γ) := by
        unfold powEntry
        rw [if_neg]
        rintro (h | h) <;> linarith [h]
      exact ⟨p ^ γ, by simp only [Stack.like, hp, bind, Except.bind, Option.bind, hpow],
        Real.rpow_nonneg h0 _, Real.rpow_le_one h0 h1 hγ⟩
    | randomWalk => exact ih' row
    | gaussianRW x => exact ih' (row.take u.nParams)
    | binomial => exact absurd hl (by simp [Spec.Sane])
    | gaussHyper => exact absurd hl (by simp [Spec.Sane])
    | multinomial => exact absurd hl (by simp [Spec.Sane])

/-- **C124, distorted coins.**  Around any poisoned, amplified or walking model, whatever the noise, the
likelihoods of a `BinomialModel` are again binomial probabilities: no call fails and they sum to one. -/
theorem C124_binomial_distorted (count : V → Nat) (u : Stack V) (hs : Spec.AllSane u)
    (hd : ∀ k row e, 0 ≤ Spec.rootLike u k row e ∧ Spec.rootLike u k row e ≤ 1)
    (row : List ℝ) (e : Exp V) (he : Spec.Fits (Stack.wrap .binomial u).tree.dtype e) :
    ∃ e' m p, unwrapExp u.tree.dtype e = .ok e' ∧ e.get "n_meas" = .ok m ∧
      u.like count (.int 1) row e' = .ok (some p) ∧ 0 ≤ p ∧ p ≤ 1 ∧
      (∀ k : Nat, (Stack.wrap .binomial u).like count (.int k) row e =
        .ok (some (((count m).choose k : ℝ) * p ^ k * (1 - p) ^ (count m - k)))) ∧
      ∑ k ∈ Finset.range (count m + 1), ((count m).choose k : ℝ) * p ^ k * (1 - p) ^ (count m - k) = 1 := by
  obtain ⟨e', hun, -⟩ := unwrap_inner _ e he
  obtain ⟨m, hm⟩ := fits_count_n_meas _ e he
  obtain ⟨p, hp, h0, h1⟩ := sane_range count u hs hd 1 row e'
  refine ⟨e', m, p, hun, hm, hp, h0, h1, fun k => ?_, ?_⟩
  · simp only [Stack.like, hun, bind, Except.bind, hm]
    rw [show (Outc.int 1 : Outc) = .int ((1 : Nat) : ℤ) from rfl, hp]
    simp only [binomial_single _ _ _ h0 h1, List.head?_cons]
  · have h := add_pow p (1 - p) (count m)
    rw [show p + (1 - p) = 1 by ring, one_pow] at h
    refine Eq.trans (Finset.sum_congr rfl fun k _ => ?_) h.symm
    ring

/-- **C124, finding.**  A `MultinomialModel` around a poisoned model with three or more outcomes can fail with
an `AssertionError`: all likelihoods but the last are distorted one by one, and the last is what they leave, which
can be negative.  For every tolerance but zero, all underlying likelihoods and all counts there is noise for which
this happens. -/
theorem C124_multinomial_poisoned (count : V → Nat) (b : Base) (hb : 3 ≤ b.nOut) (n : Nat)
    (f : Nat → List ℝ → Exp V → ℝ) (tol : ℝ) (ht : tol ≠ 0) :
    ∃ z, ∀ (c : Fin b.nOut → ℤ) row e, Spec.Fits (countDtype b.dtype) e →
      (Stack.wrap .multinomial (.wrap (.poisoned (.ale tol) z) (.base b n f))).like count
        (.tuple (List.ofFn c)) row e = .error .assertionError := by
  obtain ⟨z, hz⟩ : ∃ z : Outc → List ℝ → Exp V → ℝ, ∀ (k : Nat) row e,
      z (.int k) row e = (1 - f k row e) / tol :=
    ⟨fun o row e => match o with
      | .int (.ofNat k) => (1 - f k row e) / tol
      | _ => 0, fun _ _ _ => rfl⟩
  refine ⟨z, fun c row e he => ?_⟩
  obtain ⟨e', hun, -⟩ := unwrap_inner _ e he
  have hone : ∀ i : Nat, Stack.like count (.wrap (.poisoned (.ale tol) z) (.base b n f)) (.int i) row e' =
      .ok (some 1) := by
    intro i
    have hc : f i row e' + z (.int i) row e' * tol = 1 := by rw [hz]; field_simp; ring
    simp [Stack.like, bind, Except.bind, poisonEntry, fltAddClip, hc, clip, Flt.toOption]
  have hm := mapM_like_ok (fun i : Nat =>
      Stack.like count (.wrap (.poisoned (.ale tol) z) (.base b n f)) (.int i) row e')
    (fun _ => some (1 : ℝ)) (List.range b.nOut).dropLast (fun i _ => hone i)
  obtain ⟨m, hm3⟩ : ∃ m, b.nOut = m + 3 := ⟨b.nOut - 3, by omega⟩
  have hlist : ((List.range b.nOut).dropLast.map fun _ => some (1 : ℝ)) =
      List.replicate (m + 2) (some 1) := by
    rw [List.map_const', List.length_dropLast, List.length_range, hm3]
    rfl
  rw [hlist] at hm
  have hpdf : multinomialPdf (List.ofFn c) (List.replicate (m + 2) (1 : ℝ)) = .ok none := by
    unfold multinomialPdf
    have hlen : (List.replicate (m + 2) (1 : ℝ)).length + 1 = (List.ofFn c).length := by
      simp [hm3]
    rw [if_pos hlen]
    have hneg : (1 : ℝ) - (List.replicate (m + 2) (1 : ℝ)).sum < 0 := by
      rw [List.sum_replicate, nsmul_eq_mul, mul_one]
      have : (0 : ℝ) ≤ m := Nat.cast_nonneg m
      push_cast; linarith
    simp only
    rw [if_neg (by simp [hm3]), if_pos (by
      rw [List.any_append]
      simp only [List.any_cons, hneg, decide_true, Bool.true_or, Bool.or_true])]
  have hdt : (Stack.wrap (.poisoned (.ale tol) z) (.base b n f)).tree.dtype = b.dtype := rfl
  have hdom : (Stack.wrap (.poisoned (.ale tol) z) (.base b n f)).tree.domain count
      (none : Option (Exp V)) = .ok (.ints b.nOut) := rfl
  rw [Stack.like]
  simp only [hdt, hun, hdom, bind, Except.bind, hm]
  simp [hpdf]

/-- A coin: the parameter is the probability of a one. -/
def Spec.coin : Stack V := .base ⟨2, .scalar "float"⟩ 1
  fun k row _ => if k = 1 then row.headD 0 else 1 - row.headD 0

/-- The probability of `k` ones among `m` has its only maximum at `k / m`. -/
theorem binomial_mode (m k : Nat) (hk : 0 < k) (hkm : k < m) (p : ℝ) (h0 : 0 ≤ p) (h1 : p ≤ 1)
    (hp : p ≠ (k : ℝ) / m) :
    (m.choose k : ℝ) * p ^ k * (1 - p) ^ (m - k) <
      (m.choose k : ℝ) * ((k : ℝ) / m) ^ k * (1 - (k : ℝ) / m) ^ (m - k) := by
  have hm : (0 : ℝ) < m := by exact_mod_cast (by omega : 0 < m)
  have hk' : (0 : ℝ) < k := by exact_mod_cast hk
  have hkm' : (k : ℝ) < m := by exact_mod_cast hkm
  have hq0 : 0 < (k : ℝ) / m := by positivity
  have hq1 : 0 < 1 - (k : ℝ) / m := by rw [sub_pos, div_lt_one hm]; exact hkm'
  have hch : (0 : ℝ) < m.choose k := by exact_mod_cast Nat.choose_pos hkm.le
  rw [mul_assoc, mul_assoc]
  refine mul_lt_mul_of_pos_left ?_ hch
  rcases eq_or_lt_of_le h0 with h | h
  · rw [← h, zero_pow hk.ne', zero_mul]; positivity
  rcases eq_or_lt_of_le h1 with h' | h'
  · rw [h', sub_self, zero_pow (by omega), mul_zero]; positivity
  have h1p : 0 < 1 - p := by linarith
  have hsub : ((m - k : Nat) : ℝ) = m - k := by push_cast [Nat.cast_sub hkm.le]; rfl
  rw [← Real.log_lt_log_iff (by positivity) (by positivity),
    Real.log_mul (by positivity) (by positivity), Real.log_mul (by positivity) (by positivity),
    Real.log_pow, Real.log_pow, Real.log_pow, Real.log_pow, hsub]
  have e1 : Real.log p - Real.log ((k : ℝ) / m) < p / ((k : ℝ) / m) - 1 := by
    rw [← Real.log_div h.ne' hq0.ne']
    refine Real.log_lt_sub_one_of_pos (by positivity) ?_
    rw [Ne, div_eq_one_iff_eq hq0.ne']; exact hp
  have e2 : Real.log (1 - p) - Real.log (1 - (k : ℝ) / m) ≤ (1 - p) / (1 - (k : ℝ) / m) - 1 := by
    rw [← Real.log_div h1p.ne' hq1.ne']
    exact Real.log_le_sub_one_of_pos (by positivity)
  have s1 : (k : ℝ) * (p / ((k : ℝ) / m) - 1) = m * p - k := by field_simp
  have s2 : ((m : ℝ) - k) * ((1 - p) / (1 - (k : ℝ) / m) - 1) = m * (1 - p) - (m - k) := by
    have : (m : ℝ) - k ≠ 0 := by linarith
    have h3 : 1 - (k : ℝ) / m = (m - k) / m := by field_simp
    rw [h3]; field_simp
  nlinarith [mul_lt_mul_of_pos_left e1 hk', mul_le_mul_of_nonneg_left e2 (sub_nonneg.2 hkm'.le)]

/-- **C124, finding.**  The place of an `MLEModel` matters.  Around a `BinomialModel` the amplified likelihood of
`k` ones among `m` has its only maximum at the frequency `k / m`, the maximum likelihood estimate.  Inside, which
the constructors accept as well, the maximum is at `(k / m) ^ (1 / γ)`, for every power but 1 a different
number. -/
theorem C124_mle_place (count : V → Nat) (x n : V) (k : Nat) (hk : 0 < k) (hkm : k < count n) (γ : ℝ)
    (hγ : 0 < γ) :
    let e := Exp.record [("x", x), ("n_meas", n)]
    let outside := Stack.wrap (.mle γ) (.wrap .binomial (Spec.coin : Stack V))
    let inside := Stack.wrap .binomial (.wrap (.mle γ) (Spec.coin : Stack V))
    let q : ℝ := (k : ℝ) / count n
    Spec.Built count outside.tree ∧ Spec.Built count inside.tree ∧
    (∀ p, 0 ≤ p → p ≤ 1 → p ≠ q → ∃ a b, outside.like count (.int k) [p] e = .ok (some a) ∧
      outside.like count (.int k) [q] e = .ok (some b) ∧ a < b) ∧
    (∀ p, 0 ≤ p → p ≤ 1 → p ≠ q ^ (1 / γ) → ∃ a b, inside.like count (.int k) [p] e = .ok (some a) ∧
      inside.like count (.int k) [q ^ (1 / γ)] e = .ok (some b) ∧ a < b) ∧
    (γ ≠ 1 → q ^ (1 / γ) ≠ q) := by
  intro e outside inside q
  have hm : (0 : ℝ) < count n := by exact_mod_cast (by omega : 0 < count n)
  have hk' : (0 : ℝ) < k := by exact_mod_cast hk
  have hkm' : (k : ℝ) < count n := by exact_mod_cast hkm
  have hq0 : 0 < q := div_pos hk' hm
  have hq1 : q < 1 := (div_lt_one hm).mpr hkm'
  have hun : unwrapExp (Spec.coin : Stack V).tree.dtype e = .ok (.scalar x) := rfl
  have hn : e.get "n_meas" = .ok n := rfl
  have hcoin : ∀ p e', (Spec.coin : Stack V).like count (.int 1) [p] e' = .ok (some p) := by
    intro p e'
    rw [show (Outc.int 1 : Outc) = .int (.ofNat 1) from rfl]
    simp [Spec.coin, Stack.like]
  have hb0 : Spec.Built count (Spec.coin : Stack V).tree := .base _ (by simp)
  have hpow : ∀ p, 0 ≤ p → powEntry γ p = some (p ^ γ) := by
    intro p hp
    unfold powEntry
    rw [if_neg]
    rintro (h | h) <;> linarith [h]
  have hbin : ∀ p, 0 ≤ p → p ≤ 1 → (Stack.wrap .binomial (Spec.coin : Stack V)).like count (.int k) [p] e =
      .ok (some (((count n).choose k : ℝ) * p ^ k * (1 - p) ^ (count n - k))) := by
    intro p h0 h1
    simp only [Stack.like, hun, bind, Except.bind, hn, hcoin, binomial_single _ _ _ h0 h1, List.head?_cons]
  have hval : ∀ p : ℝ, 0 ≤ p → p ≤ 1 →
      0 ≤ ((count n).choose k : ℝ) * p ^ k * (1 - p) ^ (count n - k) := by
    intro p h0 h1
    have : 0 ≤ 1 - p := by linarith
    positivity
  have hout : ∀ p, 0 ≤ p → p ≤ 1 → outside.like count (.int k) [p] e =
      .ok (some ((((count n).choose k : ℝ) * p ^ k * (1 - p) ^ (count n - k)) ^ γ)) := by
    intro p h0 h1
    have := hpow _ (hval p h0 h1)
    rw [show outside = Stack.wrap (.mle γ) (.wrap .binomial (Spec.coin : Stack V)) from rfl, Stack.like,
      hbin p h0 h1]
    simp only [bind, Except.bind, Option.bind, this]
  have hin : ∀ p, 0 ≤ p → p ≤ 1 → inside.like count (.int k) [p] e =
      .ok (some (((count n).choose k : ℝ) * (p ^ γ) ^ k * (1 - p ^ γ) ^ (count n - k))) := by
    intro p h0 h1
    have hun' : unwrapExp (Stack.wrap (.mle γ) (Spec.coin : Stack V)).tree.dtype e = .ok (.scalar x) := rfl
    have hl : (Stack.wrap (.mle γ) (Spec.coin : Stack V)).like count (.int 1) [p] (.scalar x) =
        .ok (some (p ^ γ)) := by
      simp only [Stack.like, hcoin, bind, Except.bind, Option.bind, hpow p h0]
    rw [show inside = Stack.wrap .binomial (.wrap (.mle γ) (Spec.coin : Stack V)) from rfl]
    rw [Stack.like]
    simp only [hun', bind, Except.bind, hn, hl,
      binomial_single _ _ _ (Real.rpow_nonneg h0 γ) (Real.rpow_le_one h0 h1 hγ.le), List.head?_cons]
  have hr0 : 0 ≤ q ^ (1 / γ) := Real.rpow_nonneg hq0.le _
  have hr1 : q ^ (1 / γ) ≤ 1 := Real.rpow_le_one hq0.le hq1.le (by positivity)
  have hinv : (q ^ (1 / γ)) ^ γ = q := by
    rw [← Real.rpow_mul hq0.le, one_div, inv_mul_cancel₀ hγ.ne', Real.rpow_one]
  refine ⟨?_, ?_, ?_, ?_, ?_⟩
  · exact .wrap .mle _ _ (.wrap .binomial _ _ hb0 rfl) rfl
  · exact .wrap .binomial _ _ (.wrap .mle _ _ hb0 rfl) rfl
  · intro p h0 h1 hp
    refine ⟨_, _, hout p h0 h1, hout q hq0.le hq1.le, ?_⟩
    exact Real.rpow_lt_rpow (hval p h0 h1) (binomial_mode _ k hk hkm p h0 h1 hp) hγ
  · intro p h0 h1 hp
    refine ⟨_, _, hin p h0 h1, hin _ hr0 hr1, ?_⟩
    rw [hinv]
    refine binomial_mode _ k hk hkm (p ^ γ) (Real.rpow_nonneg h0 γ) (Real.rpow_le_one h0 h1 hγ.le) ?_
    intro hpq
    apply hp
    rw [show q = p ^ γ from hpq.symm, ← Real.rpow_mul h0, one_div, mul_inv_cancel₀ hγ.ne', Real.rpow_one]
  · intro hne hqq
    have h2 := congrArg Real.log hqq
    rw [Real.log_rpow hq0] at h2
    have hlog : Real.log q ≠ 0 := (Real.log_neg hq0 hq1).ne
    have : 1 / γ = 1 := by
      have := mul_right_cancel₀ hlog (h2.trans (one_mul _).symm)
      exact this
    apply hne
    field_simp at this
    linarith

/-- Case for C124: a Gaussian random walk around a random walk around numbers of ones of a coin; with two
columns, and three measurements. -/
example : let s : Stack ℕ := .wrap (.gaussianRW 1) (.wrap .randomWalk (.wrap .binomial Spec.coin))
    Spec.Built id s.tree ∧ Spec.Faithful s.tree ∧ s.nParams = 2 ∧ Spec.counts s.tree ∧
      Spec.Fits s.tree.dtype (.record [("x", 5), ("n_meas", 3)]) := by
  intro s
  refine ⟨?_, ?_, rfl, ?_, ?_⟩
  · exact .wrap .gaussianRW _ _ (.wrap .randomWalk _ _ (.wrap .binomial _ _
      (.base ⟨2, .scalar "float"⟩ (by decide)) rfl) rfl) rfl
  · intro w hw
    simp only [s, Stack.tree, Layer.wrap, Spec.coin, Spec.wrappers, List.mem_cons, List.not_mem_nil, or_false] at hw
    rcases hw with rfl | rfl | rfl <;> rfl
  · exact ⟨.binomial, by simp [s, Stack.tree, Layer.wrap, Spec.wrappers], rfl⟩
  · rfl

/-- Case for C124: three outcomes of equal probability are a distribution, and can be counted. -/
example : let s : Stack ℕ := .wrap .multinomial (.base ⟨3, .scalar "float"⟩ 0 fun _ _ _ => 1 / 3)
    Spec.Built id s.tree ∧ Spec.Faithful s.tree ∧ Spec.Distribution s := by
  intro s
  refine ⟨?_, ?_, ?_⟩
  · exact .wrap .multinomial _ _ (.base _ (by simp)) rfl
  · intro w hw
    simp only [s, Stack.tree, Layer.wrap, Spec.wrappers, List.mem_cons, List.not_mem_nil, or_false] at hw
    subst hw; rfl
  · intro row e
    refine ⟨fun k _ => by simp [s, Spec.rootLike], ?_⟩
    show ∑ k : Fin 3, (1 / 3 : ℝ) = 1
    norm_num

/-- Case for C124: a poisoned and amplified coin. -/
example : Spec.AllSane (.wrap (.mle 2) (.wrap (.poisoned (.mle (some 10) 1) fun _ _ _ => -3)
    (Spec.coin : Stack ℕ))) := by
  simp [Spec.AllSane, Spec.Sane, Spec.coin]

end Nest
end QInfer
