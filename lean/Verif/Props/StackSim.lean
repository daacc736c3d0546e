import Verif.Model.StackSim
import Verif.Props.Stack
import Mathlib.Tactic

/-!
# C125: simulated data of nested models
-/

namespace QInfer
namespace Nest

variable {V : Type}

/-! ## Specification -/

/-- A wrapper that is meant to change the likelihood but not the data. -/
def Spec.distorts : Layer V → Bool
  | .poisoned _ _ => true
  | .mle _ => true
  | _ => false

/-- The model without the wrappers that distort likelihoods. -/
def Spec.strip : Stack V → Stack V
  | .base b n f => .base b n f
  | .wrap l u => if Spec.distorts l then Spec.strip u else .wrap l (Spec.strip u)

/-- No distorting wrapper is inside one that counts, and no normal noise. -/
def Spec.Outermost : Stack V → Prop
  | .base _ _ _ => True
  | .wrap l u => (if Spec.isCounter l.wrap then Spec.Faithful u.tree else l.wrap ≠ .gaussHyper) ∧
      Spec.Outermost u

/-! ## Lemmas -/

theorem strip_faithful (s : Stack V) (h : Spec.Faithful s.tree) : Spec.strip s = s := by
  induction s with
  | base b n f => rfl
  | wrap l u ih =>
    rw [faithful_wrap] at h
    have : Spec.distorts l = false := by cases l <;> simp_all [Layer.wrap, Spec.plain, Spec.distorts]
    rw [Spec.strip, this, ih h.2]
    rfl

theorem strip_nParams (s : Stack V) : (Spec.strip s).nParams = s.nParams := by
  induction s with
  | base b n f => rfl
  | wrap l u ih => cases l <;> simp [Spec.strip, Spec.distorts, Stack.nParams, ih]

theorem strip_outermost (s : Stack V) (h : Spec.Outermost s) : Spec.Faithful (Spec.strip s).tree := by
  induction s with
  | base b n f => intro w hw; simp [Spec.strip, Stack.tree, Spec.wrappers] at hw
  | wrap l u ih =>
    obtain ⟨h1, h2⟩ := h
    cases l <;> simp [Spec.isCounter, Layer.wrap] at h1 <;>
      simp only [Spec.strip, Spec.distorts, if_true, Bool.false_eq_true, if_false]
    case poisoned => exact ih h2
    case mle => exact ih h2
    all_goals
      rw [faithful_wrap]
      exact ⟨rfl, ih h2⟩

theorem strip_root (s : Stack V) : Spec.root (Spec.strip s).tree = Spec.root s.tree := by
  induction s with
  | base b n f => rfl
  | wrap l u ih =>
    cases l <;> simp only [Spec.strip, Spec.distorts, if_true, Bool.false_eq_true, if_false, Stack.tree,
      Spec.root] <;> exact ih

theorem strip_rootLike (s : Stack V) : Spec.rootLike (Spec.strip s) = Spec.rootLike s := by
  induction s with
  | base b n f => rfl
  | wrap l u ih =>
    cases l <;> simp only [Spec.strip, Spec.distorts, if_true, Bool.false_eq_true, if_false,
      Spec.rootLike] <;> exact ih

theorem strip_dtype (s : Stack V) : (Spec.strip s).tree.dtype = s.tree.dtype := by
  induction s with
  | base b n f => rfl
  | wrap l u ih =>
    cases l <;> simp only [Spec.strip, Spec.distorts, if_true, Bool.false_eq_true, if_false, Stack.tree,
      Layer.wrap, Tree.dtype, ih]

theorem strip_domain (count : V → Nat) (s : Stack V) (e : Option (Exp V)) :
    (Spec.strip s).tree.domain count e = s.tree.domain count e := by
  induction s generalizing e with
  | base b n f => rfl
  | wrap l u ih =>
    cases l <;> simp only [Spec.strip, Spec.distorts, if_true, Bool.false_eq_true, if_false, Stack.tree,
      Layer.wrap, Tree.domain, ih]

theorem strip_built (count : V → Nat) (s : Stack V) (hb : Spec.Built count s.tree)
    (h : Spec.Outermost s) : Spec.Built count (Spec.strip s).tree := by
  induction s with
  | base b n f => exact hb
  | wrap l u ih =>
    obtain ⟨h1, h2⟩ := h
    obtain ⟨hu, hc⟩ := built_inv count hb
    have ih' := ih hu h2
    cases l <;> simp [Spec.isCounter, Layer.wrap] at h1 <;>
      simp only [Spec.strip, Spec.distorts, if_true, Bool.false_eq_true, if_false]
    case poisoned => exact ih'
    case mle => exact ih'
    case binomial => rw [strip_faithful u h1]; exact hb
    case multinomial => rw [strip_faithful u h1]; exact hb
    case randomWalk => exact .wrap .randomWalk _ _ ih' rfl
    case gaussianRW x => exact .wrap .gaussianRW _ _ ih' rfl

theorem multinomLaw_prob {k : Nat} (n : Nat) (p : Fin k → ℝ) (h1 : ∑ j, p j = 1)
    (c : Fin k → ℤ) (hc : IsOutcome n c) :
    multinomLaw n (List.ofFn p).dropLast (.tuple (List.ofFn c)) =
      multinomialProb (fun j => (c j).toNat) p := by
  cases k with
  | zero => exact absurd h1 (by simp)
  | succ k =>
    have hd : (List.ofFn p).dropLast = List.ofFn fun j : Fin k => p j.castSucc := by
      rw [List.ofFn_succ', List.concat_eq_append, List.dropLast_concat]
    have hfull : (List.ofFn p).dropLast ++ [1 - (List.ofFn p).dropLast.sum] = List.ofFn p := by
      rw [hd, List.ofFn_succ' p, List.concat_eq_append, List.sum_ofFn]
      rw [Fin.sum_univ_castSucc] at h1
      congr 2
      linarith
    unfold multinomLaw
    simp only
    rw [hfull, if_pos]
    · unfold multinomialProb
      have hsum : ∑ j, (c j).toNat = n := by
        have h2 : ((∑ j, (c j).toNat : Nat) : ℤ) = n := by
          push_cast
          rw [← hc.2]
          exact Finset.sum_congr rfl fun j _ => Int.toNat_of_nonneg (hc.1 j)
        exact_mod_cast h2
      rw [hsum, List.map_ofFn, List.prod_ofFn, zipWith_ofFn, List.prod_ofFn]
      rfl
    · refine ⟨by simp, ?_, ?_⟩
      · intro m hm
        obtain ⟨j, rfl⟩ := (List.mem_ofFn' _ _).1 hm
        exact hc.1 j
      · rw [List.sum_ofFn]; exact hc.2

/-! ## Theorems -/

/-- The law of a walking or counting model, by the kind of counting. -/
theorem simLaw_faithful (count : V → Nat) (s : Stack V) (hb : Spec.Built count s.tree)
    (hf : Spec.Faithful s.tree) (hd : Spec.Distribution s) (row : List ℝ)
    (hrow : row.length = s.nParams) (e : Exp V) (he : Spec.Fits s.tree.dtype e) :
    ∃ d P, s.tree.domain count (some e) = .ok d ∧ s.simLaw count row e = .ok P ∧
      ∀ o : Spec.Members d, s.like count (Spec.outc d o) row e = .ok (some (P (Spec.outc d o))) := by
  induction s generalizing row with
  | base b n f =>
    refine ⟨.ints b.nOut, _, rfl, rfl, fun (k : Fin b.nOut) => ?_⟩
    show Except.ok (some (f k row e)) = .ok (some (if (k : Nat) < b.nOut then f k row e else 0))
    rw [if_pos k.2]
  | wrap l u ih =>
    obtain ⟨d, hdom, L, hL, -, -⟩ := C124_distribution count _ hb hf hd row hrow e he
    rw [faithful_wrap] at hf
    obtain ⟨hu, hcon⟩ := built_inv count hb
    have hdu : Spec.Distribution u := hd
    cases l <;> simp [Layer.wrap, Spec.plain] at hf
    case randomWalk => exact ih hu hf hdu row hrow he
    case gaussianRW x =>
      exact ih hu hf hdu (row.take u.nParams) (by
        rw [List.length_take, hrow, Stack.nParams]; omega) he
    case binomial =>
      have hnc := construct_counts count _ _ _ hu hcon (Or.inl rfl)
      have h2 := ((C122_constructors count _ hu .binomial (Or.inl rfl)).1.mp hcon).2.1
      obtain ⟨e', hun, -⟩ := unwrap_inner _ e he
      obtain ⟨m, hm⟩ := fits_count_n_meas _ e he
      have hl := C124_single count u hf hnc row hrow e' 1
      obtain ⟨p, hp⟩ : ∃ p, p = Spec.rootLike u 1 (row.take (Spec.rootParams u)) e' := ⟨_, rfl⟩
      rw [← hp] at hl
      have hp01 : 0 ≤ p ∧ p ≤ 1 := by
        obtain ⟨h0, h1⟩ := hdu (row.take (Spec.rootParams u)) e'
        rw [Fin.sum_univ_eq_sum_range
          (fun k => Spec.rootLike u k (row.take (Spec.rootParams u)) e') _, h2] at h1
        simp [Finset.sum_range_succ] at h1
        have ha := h0 0 (by omega)
        have hb' := h0 1 (by omega)
        rw [hp]
        exact ⟨hb', by linarith⟩
      refine ⟨.ints (count m + 1), binomLaw (count m) p, ?_, ?_, fun (k : Fin (count m + 1)) => ?_⟩
      · simp [Stack.tree, Layer.wrap, Tree.domain, getOpt, hm, bind, Except.bind]
      · simp only [Stack.simLaw, hun, bind, Except.bind, hm]
        rw [show (Outc.int 1 : Outc) = .int ((1 : Nat) : ℤ) from rfl, hl]
        simp only [if_pos hp01]
      · simp only [Stack.like, hun, bind, Except.bind, hm, Spec.outc]
        rw [show (Outc.int 1 : Outc) = .int ((1 : Nat) : ℤ) from rfl, hl]
        simp only [binomial_single _ _ _ hp01.1 hp01.2, List.head?_cons]
        rfl
    case multinomial =>
      have hnc := construct_counts count _ _ _ hu hcon (Or.inl rfl)
      have hng : Wrap.gaussHyper ∉ Spec.wrappers u.tree := fun hg => by
        have := hf _ hg
        simp [Spec.plain] at this
      have hdom' := ((without_experiment count _ hu).2 hnc).2
      rw [if_neg hng] at hdom'
      obtain ⟨e', hun, -⟩ := unwrap_inner _ e he
      obtain ⟨m, hm⟩ := fits_count_n_meas _ e he
      obtain ⟨h0, h1⟩ := hdu (row.take (Spec.rootParams u)) e'
      obtain ⟨p, hp⟩ : ∃ p : Fin (Spec.root u.tree).nOut → ℝ,
        p = fun j : Fin _ => Spec.rootLike u j (row.take (Spec.rootParams u)) e' := ⟨_, rfl⟩
      have hmap := mapM_like_ok (fun i : Nat => u.like count (.int i) row e')
        (fun i : Nat => some (Spec.rootLike u i (row.take (Spec.rootParams u)) e'))
        (List.range (Spec.root u.tree).nOut).dropLast
        (fun i _ => C124_single count u hf hnc row hrow e' i)
      have hlist : ((List.range (Spec.root u.tree).nOut).dropLast.map
          (fun i : Nat => some (Spec.rootLike u i (row.take (Spec.rootParams u)) e'))).map
            (fun p => p.getD 0) = (List.ofFn p).dropLast := by
        rw [List.map_map, List.map_dropLast, hp]
        congr 1
        apply List.ext_getElem <;> simp
      have hany : ((List.range (Spec.root u.tree).nOut).dropLast.map
          (fun i : Nat => some (Spec.rootLike u i (row.take (Spec.rootParams u)) e'))).any
            Option.isNone = false := by
        rw [List.any_map]
        exact List.any_eq_false.mpr fun x _ => by simp
      have hp0 : ∀ j, 0 ≤ p j := fun j => by rw [hp]; exact h0 j j.2
      have hp1 : ∑ j, p j = 1 := by rw [hp]; exact h1
      have hok : (∀ x ∈ (List.ofFn p).dropLast, 0 ≤ x) ∧ (List.ofFn p).dropLast.sum ≤ 1 := by
        refine ⟨fun x hx => ?_, ?_⟩
        · obtain ⟨j, rfl⟩ := (List.mem_ofFn' _ _).1 (List.mem_of_mem_dropLast hx)
          exact hp0 j
        · have : (List.ofFn p).sum = 1 := by rw [List.sum_ofFn]; exact hp1
          rw [← this]
          rcases List.eq_nil_or_concat (List.ofFn p) with h | ⟨l, a, h⟩
          · rw [h]; simp
          · rw [h, List.concat_eq_append, List.dropLast_concat, List.sum_append]
            have ha : 0 ≤ a := by
              obtain ⟨j, rfl⟩ := (List.mem_ofFn' _ _).1 (show a ∈ List.ofFn p by rw [h]; simp)
              exact hp0 j
            simpa using ha
      refine ⟨.tuples (some (Spec.root u.tree).nOut) (count m),
        multinomLaw (count m) (List.ofFn p).dropLast, ?_, ?_, ?_⟩
      · simp [Stack.tree, Layer.wrap, Tree.domain, hdom', Dom.nMembers, getOpt, hm, bind, Except.bind]
      · simp only [Stack.simLaw, hun, bind, Except.bind, hdom', hmap, hm, hany, hlist,
          Bool.false_eq_true, if_false, if_pos hok]
      · rintro ⟨c, hc⟩
        have hpdf := (C30_formula (fun j => (c j).toNat) p hp0).2 hp1
        have e1 : List.ofFn c = List.ofFn fun j => (((c j).toNat : Nat) : ℤ) := by
          congr 1; funext j; exact (Int.toNat_of_nonneg (hc.1 j)).symm
        rw [← e1] at hpdf
        simp only [Spec.outc, multinomLaw_prob _ p hp1 c hc]
        simp only [Stack.like, hun, bind, Except.bind, hdom', hmap, hany, hlist, hpdf,
          Bool.false_eq_true, if_false]

/-- **C125, data follow the likelihood.**  For every model that can be made from a stand-alone model with
counting wrappers and random walks, with poisoned or amplified likelihoods outside of all counting wrappers,
`simulate_experiment` does not fail, its outcomes lie in the reported domain, and their law is the likelihood of
the model without poisoning and amplification. -/
theorem C125_law (count : V → Nat) (s : Stack V) (hb : Spec.Built count s.tree)
    (ho : Spec.Outermost s) (hd : Spec.Distribution s) (row : List ℝ)
    (hrow : row.length = s.nParams) (e : Exp V) (he : Spec.Fits s.tree.dtype e) :
    ∃ d P, s.tree.domain count (some e) = .ok d ∧ s.simLaw count row e = .ok P ∧
      (∀ o : Spec.Members d,
        (Spec.strip s).like count (Spec.outc d o) row e = .ok (some (P (Spec.outc d o)))) ∧
      (∀ o : Spec.Members d, 0 ≤ P (Spec.outc d o)) ∧
      HasSum (fun o : Spec.Members d => P (Spec.outc d o)) 1 := by
  have hsim : ∀ s : Stack V, Spec.Outermost s → ∀ row,
      s.simLaw count row e = (Spec.strip s).simLaw count row e := by
    intro s
    induction s with
    | base b n f => intros; rfl
    | wrap l u ih =>
      rintro ⟨h1, h2⟩ row
      cases l <;> simp [Spec.isCounter, Layer.wrap] at h1 <;>
        simp only [Spec.strip, Spec.distorts, if_true, Bool.false_eq_true, if_false]
      case poisoned => exact ih h2 row
      case mle => exact ih h2 row
      case binomial => rw [strip_faithful u h1]
      case multinomial => rw [strip_faithful u h1]
      case randomWalk => exact ih h2 row
      case gaussianRW x =>
        rw [Stack.simLaw, Stack.simLaw, ih h2, strip_nParams]
  have hb' := strip_built count s hb ho
  have hf' := strip_outermost s ho
  have hd' : Spec.Distribution (Spec.strip s) := by
    intro row e
    rw [strip_root, strip_rootLike]
    exact hd row e
  have hrow' : row.length = (Spec.strip s).nParams := by rw [strip_nParams]; exact hrow
  have he' : Spec.Fits (Spec.strip s).tree.dtype e := by rw [strip_dtype]; exact he
  obtain ⟨d, P, hdom, hP, hlike⟩ := simLaw_faithful count _ hb' hf' hd' row hrow' e he'
  obtain ⟨d', hdom', L, hL, h0, h1⟩ := C124_distribution count _ hb' hf' hd' row hrow' e he'
  rw [hdom] at hdom'
  injection hdom' with hdd
  subst hdd
  have hPL : ∀ o, P (Spec.outc d o) = L o := by
    intro o
    have := (hlike o).symm.trans (hL o)
    injection this with this
    injection this
  refine ⟨d, P, ?_, ?_, hlike, fun o => by rw [hPL]; exact h0 o, ?_⟩
  · rw [← strip_domain]; exact hdom
  · rw [hsim s ho]; exact hP
  · have : (fun o => P (Spec.outc d o)) = L := funext hPL
    rw [this]; exact h1

/-- **C125, finding: poisoning.**  `PoisonedModel` documents that data are simulated with the original model.
Inside a `BinomialModel` they are not: for every tolerance but zero there is noise for which all `n_meas`
simulated measurements of any coin give a one, also of a coin that never does. -/
theorem C125_poisoned_inside (count : V → Nat) (tol : ℝ) (ht : tol ≠ 0) (x n : V) :
    ∃ z, ∀ p : ℝ, ∃ P,
      (Stack.wrap .binomial (.wrap (.poisoned (.ale tol) z) Spec.coin)).simLaw count [p]
        (.record [("x", x), ("n_meas", n)]) = .ok P ∧ P (.int (count n)) = 1 ∧
      ∃ Q, (Stack.wrap (.poisoned (.ale tol) z) Spec.coin).simLaw count [p] (.scalar x) = .ok Q ∧
        Q (.int 1) = p := by
  refine ⟨fun _ row _ => (1 - row.headD 0) / tol, fun p => ⟨binomLaw (count n) 1, ?_, ?_, ?_⟩⟩
  · have hl : Stack.like count (.wrap (.poisoned (.ale tol) fun _ row _ => (1 - row.headD 0) / tol)
        (Spec.coin : Stack V)) (.int 1) [p] (.scalar x) = .ok (some 1) := by
      have h1 : (Spec.coin : Stack V).like count (.int 1) [p] (.scalar x) = .ok (some p) := by
        rw [show (Outc.int 1 : Outc) = .int (.ofNat 1) from rfl]
        simp [Spec.coin, Stack.like]
      have hc : p + (1 - p) / tol * tol = 1 := by field_simp; ring
      simp [Stack.like, h1, bind, Except.bind, poisonEntry, fltAddClip, hc, clip, Flt.toOption]
    have hun : unwrapExp (Stack.wrap (.poisoned (.ale tol) fun _ row _ => (1 - row.headD 0) / tol)
        (Spec.coin : Stack V)).tree.dtype (.record [("x", x), ("n_meas", n)]) = .ok (.scalar x) := rfl
    have hn : (Exp.record [("x", x), ("n_meas", n)]).get "n_meas" = .ok n := rfl
    rw [Stack.simLaw]
    simp only [hun, bind, Except.bind, hl, hn]
    rw [if_pos (by norm_num)]
  · show ((count n).choose (count n) : ℝ) * 1 ^ count n * (1 - 1) ^ (count n - count n) = 1
    simp
  · refine ⟨_, rfl, ?_⟩
    show (if 1 < 2 then (if 1 = 1 then [p].headD 0 else 1 - [p].headD 0) else 0 : ℝ) = p
    simp

/-- **C125, finding: amplification.**  `MLEModel` simulates data with the wrapped model.  Inside a
`BinomialModel` it does not: the data are those of a coin with probability `p ^ γ`, while outside of it they are
those of the coin itself. -/
theorem C125_mle_inside (count : V → Nat) (γ : ℝ) (hγ : 0 ≤ γ) (x n : V) (p : ℝ) (h0 : 0 ≤ p)
    (h1 : p ≤ 1) :
    let e := Exp.record [("x", x), ("n_meas", n)]
    (∃ P, (Stack.wrap .binomial (.wrap (.mle γ) Spec.coin)).simLaw count [p] e = .ok P ∧
      ∀ k : Nat, P (.int k) = ((count n).choose k : ℝ) * (p ^ γ) ^ k * (1 - p ^ γ) ^ (count n - k)) ∧
    (∃ P, (Stack.wrap (.mle γ) (.wrap .binomial Spec.coin)).simLaw count [p] e = .ok P ∧
      ∀ k : Nat, P (.int k) = ((count n).choose k : ℝ) * p ^ k * (1 - p) ^ (count n - k)) := by
  intro e
  have hcoin : (Spec.coin : Stack V).like count (.int 1) [p] (.scalar x) = .ok (some p) := by
    rw [show (Outc.int 1 : Outc) = .int (.ofNat 1) from rfl]
    simp [Spec.coin, Stack.like]
  have hn : e.get "n_meas" = .ok n := rfl
  have hpow : powEntry γ p = some (p ^ γ) := by
    unfold powEntry
    rw [if_neg]
    rintro (h | h) <;> linarith [h]
  constructor
  · refine ⟨binomLaw (count n) (p ^ γ), ?_, fun k => rfl⟩
    have hl : Stack.like count (.wrap (.mle γ) (Spec.coin : Stack V)) (.int 1) [p] (.scalar x) =
        .ok (some (p ^ γ)) := by
      simp only [Stack.like, hcoin, bind, Except.bind, Option.bind, hpow]
    have hun : unwrapExp (Stack.wrap (.mle γ) (Spec.coin : Stack V)).tree.dtype e = .ok (.scalar x) := rfl
    rw [Stack.simLaw]
    simp only [hun, bind, Except.bind, hl, hn]
    rw [if_pos ⟨Real.rpow_nonneg h0 _, Real.rpow_le_one h0 h1 hγ⟩]
  · refine ⟨binomLaw (count n) p, ?_, fun k => rfl⟩
    have hun : unwrapExp (Spec.coin : Stack V).tree.dtype e = .ok (.scalar x) := rfl
    rw [Stack.simLaw, Stack.simLaw]
    simp only [hun, bind, Except.bind, hcoin, hn]
    rw [if_pos ⟨h0, h1⟩]

/-- **C125, normal noise.**  The data of a model seen through normal noise have the density of the mixture of
two normal distributions, weighted with the law of the wrapped model's data. -/
theorem C125_noise (count : V → Nat) (u : Stack V) (xs : List ℝ) (hx : xs.length = u.nParams)
    (μ₀ μ₁ σ₀ σ₁ : ℝ) (h0 : 0 < σ₀) (h1 : 0 < σ₁) (e : Exp V) (P : Outc → ℝ)
    (hP : u.simLaw count xs e = .ok P) :
    ∃ Q, (Stack.wrap .gaussHyper u).simLaw count (xs ++ [μ₀, μ₁, σ₀ ^ 2, σ₁ ^ 2]) e = .ok Q ∧
      ∀ x, Q (.real x) =
        P (.int 0) * (Real.exp (-((x - μ₀) / σ₀) ^ 2 / 2) / (Real.sqrt (2 * Real.pi) * σ₀)) +
        P (.int 1) * (Real.exp (-((x - μ₁) / σ₁) ^ 2 / 2) / (Real.sqrt (2 * Real.pi) * σ₁)) := by
  have htake : (xs ++ [μ₀, μ₁, σ₀ ^ 2, σ₁ ^ 2]).take ((xs ++ [μ₀, μ₁, σ₀ ^ 2, σ₁ ^ 2]).length - 4) = xs := by
    simp
  have hmu : ghMu u.nParams (xs ++ [μ₀, μ₁, σ₀ ^ 2, σ₁ ^ 2]) = [μ₀, μ₁] := by
    simp [ghMu, ← hx]
  have hs : ghSigma2 u.nParams (xs ++ [μ₀, μ₁, σ₀ ^ 2, σ₁ ^ 2]) = [σ₀ ^ 2, σ₁ ^ 2] := by
    simp [ghSigma2, ← hx]
  refine ⟨_, by rw [Stack.simLaw, htake, hP]; rfl, fun x => ?_⟩
  simp only [hmu, hs, List.getD_cons_zero, List.getD_cons_succ, Real.sqrt_sq h0.le, Real.sqrt_sq h1.le,
    normDensity, normPdf, div_div]

/-- Case for C125: amplified and poisoned numbers of ones of a walking coin. -/
example : let s : Stack ℕ := .wrap (.mle 3) (.wrap (.poisoned (.ale 1) fun _ _ _ => 2)
      (.wrap .binomial (.wrap .randomWalk Spec.coin)))
    Spec.Built id s.tree ∧ Spec.Outermost s ∧ Spec.strip s = .wrap .binomial (.wrap .randomWalk Spec.coin) := by
  intro s
  refine ⟨?_, ?_, rfl⟩
  · exact .wrap .mle _ _ (.wrap .poisoned _ _ (.wrap .binomial _ _ (.wrap .randomWalk _ _
      (.base ⟨2, .scalar "float"⟩ (by decide)) rfl) rfl) rfl) rfl
  · simp only [s, Spec.Outermost, Spec.coin, Layer.wrap, Spec.isCounter]
    refine ⟨by simp, by simp, ?_, by simp, trivial⟩
    intro w hw
    simp only [Stack.tree, Layer.wrap, Spec.wrappers, List.mem_cons, List.not_mem_nil, or_false] at hw
    subst hw; rfl

end Nest
end QInfer
