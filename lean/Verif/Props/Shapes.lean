import Verif.Model.Shapes
import Mathlib.Data.List.Basic
import Mathlib.Data.List.Forall2
import Mathlib.Algebra.BigOperators.Group.List.Basic
import Mathlib.Tactic

/-!
# C115: samples have the declared shape
-/

namespace QInfer

/-- The distributions that can be built from documented arguments: every class but
`DiscreteUniformDistribution`, and every nesting.  Postselection is allowed when `p` holds. -/
inductive Spec.Built (p : Prop) : DObj → Prop
  | uniform {ranges d} (h : uniformNew ranges = .ok d) : Spec.Built p d
  | constant (k : Nat) {d} (h : constantNew [k] = .ok d) : Spec.Built p d
  | scalar : Spec.Built p scalarDist
  | mvn (k : Nat) : Spec.Built p (mvnDist k)
  | dirichlet {alpha d} (h : dirichletNew alpha = .ok d) : Spec.Built p d
  | mvUniform (k : Nat) : Spec.Built p (mvUniformDist k)
  | particle (N k : Nat) (h : N ≠ 0) : Spec.Built p (particleDist N k)
  | haar : Spec.Built p (haarDist 2)
  | ginibre : Spec.Built p (ginibreDist 2)
  | density (dim : Nat) : Spec.Built p (densityDist dim)
  | product (ds : List DObj) (hne : ds ≠ []) (h : ∀ d ∈ ds, Spec.Built p d) : Spec.Built p (productDist ds)
  | mixture (d₀ : DObj) (ds : List DObj) (h₀ : Spec.Built p d₀) (h : ∀ d ∈ ds, Spec.Built p d)
      (hw : ∀ d ∈ ds, d.nRvs = d₀.nRvs) : Spec.Built p (mixtureDist d₀ ds)
  | post (hp : p) (d : DObj) (h : Spec.Built p d) (maxiters : Nat) (hm : maxiters ≠ 0) :
      Spec.Built p (postDist d maxiters)
  | constrained (d : DObj) (h : Spec.Built p d) : Spec.Built p (constrainedDist d)

theorem fitsInto_self2 (a b : Nat) : fitsInto [a, b] [a, b] = true := by simp [fitsInto, fitsRev]

theorem fitsInto_self1 (a : Nat) : fitsInto [a] [a] = true := by simp [fitsInto, fitsRev]

/-- Widths of blocks put side by side. -/
theorem concat_one (n : Nat) (ds : List Nat) (h : ds ≠ []) :
    concatShapes 1 (ds.map fun d => [n, d]) = .ok [n, ds.sum] := by
  cases ds with
  | nil => exact absurd rfl h
  | cons d ds => simp [concatShapes, Function.comp_def]

theorem hstack_pairs (n : Nat) (ds : List Nat) (h : ds ≠ []) :
    hstackShapes (ds.map fun d => [n, d]) = .ok [n, ds.sum] := by
  unfold hstackShapes
  have : (List.map (fun d => [n, d]) ds).map (fun s => if s = [] then [1] else s) = ds.map fun d => [n, d] := by
    simp [Function.comp_def]
  simp only [this]
  cases ds with
  | nil => exact absurd rfl h
  | cons d ds => simpa using concat_one n (d :: ds) (by simp)

theorem concat_zero (d : Nat) (ns : List Nat) (h : ns ≠ []) :
    concatShapes 0 (ns.map fun m => [m, d]) = .ok [ns.sum, d] := by
  cases ns with
  | nil => exact absurd rfl h
  | cons m ns => simp [concatShapes, Function.comp_def]

/-- What a list of results can be when each is a shape or the given error. -/
theorem firstError_cases {α : Type*} (P : α → Except PyErr Shape → Prop) (sh : α → Shape) (Q : Prop) (e : PyErr)
    (l : List α) (hP : ∀ a ∈ l, ∀ q, P a q → q = .ok (sh a) ∨ (Q ∧ q = .error e)) (rs : List (Except PyErr Shape))
    (hf : List.Forall₂ P l rs) :
    firstError rs = .ok (l.map sh) ∨ (Q ∧ firstError rs = .error e) := by
  induction hf with
  | nil => left; rfl
  | cons hq _ ih =>
    rcases hP _ (by simp) _ hq with rfl | ⟨hQ, rfl⟩
    · rcases ih fun a ha => hP a (by simp [ha]) with h | ⟨hQ, h⟩
      · left; simp [firstError, h]
      · right; exact ⟨hQ, by simp [firstError, h]⟩
    · right; exact ⟨hQ, rfl⟩

theorem zip_filter_sum (l : List DObj) (ns : List Nat) (h : ns.length = l.length) :
    (((l.zip ns).filter fun dm => decide (0 < dm.2)).map Prod.snd).sum = ns.sum := by
  induction l generalizing ns with
  | nil => cases ns with
    | nil => rfl
    | cons => simp at h
  | cons d l ih => cases ns with
    | nil => simp at h
    | cons m ns =>
      have := ih ns (by simpa using h)
      rcases Nat.eq_zero_or_pos m with rfl | hm
      · simpa using this
      · simp [hm, this]

theorem postRows_shape (d : DObj) (p : Prop)
    (h : ∀ n, n ≠ 0 → ∀ r, d.sample n r → r = .ok [n, d.nRvs] ∨ (p ∧ r = .error .runtimeError)) (n : Nat) (hp : p)
    (iters m : Nat) (r : Except PyErr Shape) (hr : postRows d n iters m r) :
    r = .ok [n, d.nRvs] ∨ (p ∧ r = .error .runtimeError) := by
  induction iters generalizing m with
  | zero =>
    unfold postRows at hr
    split_ifs at hr
    · exact Or.inl hr
    · exact Or.inr ⟨hp, hr⟩
  | succ k ih =>
    unfold postRows at hr
    split_ifs at hr with hm
    · exact Or.inl hr
    · obtain ⟨q, hq, hr⟩ := hr
      rcases h m hm q hq with rfl | ⟨-, rfl⟩
      · simp only [fitsInto_self2, if_true] at hr
        obtain ⟨m', -, hr⟩ := hr
        exact ih m' hr
      · exact Or.inr ⟨hp, hr⟩

/-- **C115.**  Whatever is drawn, `sample(n)` with `n ≥ 1` returns an array of shape `(n, n_rvs)`, for every
distribution but the discrete uniform one and every nesting of distributions; the only other outcome is the
`RuntimeError` of a postselection that runs out of rounds. -/
theorem C115_shape_partial (p : Prop) (d : DObj) (hd : Spec.Built p d) (n : Nat) (hn : n ≠ 0) (r : Except PyErr Shape)
    (hr : d.sample n r) : r = .ok [n, d.nRvs] ∨ (p ∧ r = .error .runtimeError) := by
  induction hd generalizing n r with
  | @uniform ranges d h =>
    left
    unfold uniformNew at h
    split at h
    · cases h
    · split_ifs at h; cases h; exact hr
    · split_ifs at h; cases h; exact hr
    · cases h
  | constant k h => cases h; exact Or.inl hr
  | scalar => exact Or.inl hr
  | mvn k => exact Or.inl hr
  | @dirichlet alpha d h =>
    left
    unfold dirichletNew at h
    split at h
    · cases h; exact hr
    · cases h
  | mvUniform k => exact Or.inl hr
  | particle N k h => left; simpa [particleDist, h] using hr
  | haar => left; simpa [haarDist, singleShape, hn, fitsInto_self1] using hr
  | ginibre => left; simpa [ginibreDist, singleShape, hn, fitsInto_self1] using hr
  | density dim => left; simpa [densityDist, singleShape, hn, fitsInto_self1] using hr
  | product ds hne h ih =>
    obtain ⟨rs, hf, rfl⟩ := hr
    rcases firstError_cases _ (fun d : DObj => [n, d.nRvs]) p .runtimeError ds
      (fun d hd q hq => ih d hd n hn q hq) rs hf with e | ⟨hp, e⟩
    · left
      have := hstack_pairs n (ds.map DObj.nRvs) (by simpa using hne)
      rw [List.map_map] at this
      simp only [e]
      exact this
    · right; exact ⟨hp, by simp only [e]⟩
  | mixture d₀ ds h₀ h hw ih₀ ih =>
    obtain ⟨ns, hlen, hsum, rs, hf, rfl⟩ := hr
    have hall : ∀ d ∈ d₀ :: ds, d.nRvs = d₀.nRvs ∧ ∀ m, m ≠ 0 → ∀ q, d.sample m q →
        q = .ok [m, d₀.nRvs] ∨ (p ∧ q = .error .runtimeError) := by
      intro d hd
      rcases List.mem_cons.1 hd with rfl | hd
      · exact ⟨rfl, ih₀⟩
      · refine ⟨hw d hd, fun m hm q hq => ?_⟩
        rw [← hw d hd]
        exact ih d hd m hm q hq
    rcases firstError_cases _ (fun dm : DObj × Nat => [dm.2, d₀.nRvs]) p .runtimeError _
      (fun dm hdm q hq => by
        rw [List.mem_filter] at hdm
        exact (hall dm.1 (List.of_mem_zip hdm.1).1).2 dm.2 (by
          have := hdm.2; simp at this; omega) q hq) rs hf with e | ⟨hp, e⟩
    · left
      have hs := zip_filter_sum (d₀ :: ds) ns hlen
      have hne : (((d₀ :: ds).zip ns).filter fun dm => decide (0 < dm.2)).map Prod.snd ≠ [] := by
        intro h0
        rw [h0, hsum] at hs
        exact hn hs.symm
      have := concat_zero d₀.nRvs _ hne
      rw [List.map_map, hs, hsum] at this
      simp only [e]
      exact this
    · right; exact ⟨hp, by simp only [e]⟩
  | post hp d h maxiters hm ih => exact postRows_shape d p (fun n hn r hr => ih n hn r hr) n hp maxiters n r hr
  | constrained d h ih =>
    obtain ⟨q, hq, rfl⟩ := hr
    rcases ih n hn q hq with rfl | ⟨hp, rfl⟩
    · left; simp [constrainedDist]
    · right; exact ⟨hp, rfl⟩

theorem firstError_map_ok {α : Type*} (l : List α) (f : α → Shape) :
    firstError (l.map fun a => .ok (f a)) = .ok (l.map f) := by
  induction l with
  | nil => rfl
  | cons a l ih => simp [firstError, ih]

theorem zip_zeros_filter (l : List DObj) (m : Nat) :
    ((l.zip (List.replicate m 0)).filter fun dm => decide (0 < dm.2)) = [] := by
  rw [List.filter_eq_nil_iff]
  intro dm hdm
  have := (List.of_mem_zip hdm).2
  simp [List.eq_of_mem_replicate this]

/-- **C115, draws exist.**  Every such distribution can return an array. -/
theorem C115_possible (p : Prop) (d : DObj) (hd : Spec.Built p d) (n : Nat) (hn : n ≠ 0) :
    d.sample n (.ok [n, d.nRvs]) := by
  induction hd generalizing n with
  | @uniform ranges d h =>
    unfold uniformNew at h
    split at h
    · cases h
    · split_ifs at h; cases h; rfl
    · split_ifs at h; cases h; rfl
    · cases h
  | constant k h => cases h; rfl
  | scalar => rfl
  | mvn k => rfl
  | @dirichlet alpha d h =>
    unfold dirichletNew at h
    split at h
    · cases h; rfl
    · cases h
  | mvUniform k => rfl
  | particle N k h => simp [particleDist, h]
  | haar => simp [haarDist, singleShape, hn, fitsInto_self1]
  | ginibre => simp [ginibreDist, singleShape, hn, fitsInto_self1]
  | density dim => simp [densityDist, singleShape, hn, fitsInto_self1]
  | product ds hne h ih =>
    refine ⟨ds.map fun d => .ok [n, d.nRvs], ?_, ?_⟩
    · rw [List.forall₂_map_right_iff, List.forall₂_same]
      exact fun d hd => ih d hd n hn
    · rw [firstError_map_ok]
      have := hstack_pairs n (ds.map DObj.nRvs) (by simpa using hne)
      rw [List.map_map] at this
      exact this.symm
  | mixture d₀ ds h₀ h hw ih₀ ih =>
    refine ⟨n :: List.replicate ds.length 0, by simp, by simp, [.ok [n, d₀.nRvs]], ?_, ?_⟩
    · rw [List.zip_cons_cons, List.filter_cons, zip_zeros_filter]
      simp only [Nat.pos_of_ne_zero hn, decide_true, if_true]
      exact .cons (ih₀ n hn) .nil
    · simp [firstError, concatShapes, mixtureDist]
  | post hp d h maxiters hm ih =>
    obtain ⟨k, rfl⟩ := Nat.exists_eq_succ_of_ne_zero hm
    show postRows d n (k + 1) n _
    unfold postRows
    rw [if_neg hn]
    refine ⟨_, ih n hn, ?_⟩
    simp only [fitsInto_self2, if_true]
    refine ⟨0, Nat.zero_le _, ?_⟩
    cases k <;> simp [postRows, postDist]
  | constrained d h ih => exact ⟨_, ih n hn, by simp [constrainedDist]⟩

/-- **C115, violation.**  `DiscreteUniformDistribution` returns an array with one axis.  A product of several gives
one long array in place of a column for each; a product with any other distribution, a constrained sum and a
postselection of two or more draws raise `ValueError`, and it cannot be the prior of an updater. -/
theorem C115_discrete (n : Nat) (hn : n ≠ 0) (r : Except PyErr Shape) :
    (discreteDist.nRvs = 1 ∧ (discreteDist.sample n r ↔ r = .ok [n])) ∧
    (∀ k, k ≠ 0 → (productDist (List.replicate k discreteDist)).nRvs = k ∧
      ((productDist (List.replicate k discreteDist)).sample n r ↔ r = .ok [k * n])) ∧
    (∀ d, Spec.Built False d → ((productDist [discreteDist, d]).sample n r ↔ r = .error .valueError) ∧
      ((productDist [d, discreteDist]).sample n r ↔ r = .error .valueError)) ∧
    ((constrainedDist discreteDist).sample n r ↔ r = .error .valueError) ∧
    (∀ maxiters, maxiters ≠ 0 → 2 ≤ n → ((postDist discreteDist maxiters).sample n r ↔ r = .error .valueError)) ∧
    (∀ k, resetFromPrior discreteDist n k r ↔ r = .error .indexError) := by
  refine ⟨⟨rfl, Iff.rfl⟩, fun k hk => ⟨by simp [productDist, discreteDist, fixedShape], ?_⟩, fun d hd => ?_, ?_, ?_, ?_⟩
  · have hc : ∀ k, k ≠ 0 → hstackShapes (List.replicate k [n]) = .ok [k * n] := by
      intro k hk
      obtain ⟨k, rfl⟩ := Nat.exists_eq_succ_of_ne_zero hk
      simp [hstackShapes, List.replicate_succ, concatShapes]
      ring
    have hrs : ∀ rs, List.Forall₂ (fun d q => DObj.sample d n q) (List.replicate k discreteDist) rs →
        firstError rs = .ok (List.replicate k [n]) := by
      intro rs hf
      rcases firstError_cases _ (fun _ : DObj => [n]) False .other (List.replicate k discreteDist)
        (fun d hd q hq => by
          rw [List.eq_of_mem_replicate hd] at hq
          exact Or.inl hq) rs hf with e | ⟨h, -⟩
      · rw [e]; simp
      · exact h.elim
    constructor
    · rintro ⟨rs, hf, rfl⟩
      simp only [hrs rs hf]
      exact hc k hk
    · rintro rfl
      refine ⟨List.replicate k (.ok [n]), ?_, ?_⟩
      · exact List.forall₂_iff_get.2 ⟨by simp, fun i h1 h2 => by simp [discreteDist, fixedShape]⟩
      · rw [hrs]
        · exact (hc k hk).symm
        · exact List.forall₂_iff_get.2 ⟨by simp, fun i h1 h2 => by simp [discreteDist, fixedShape]⟩
  · have h1 : ∀ q, d.sample n q ↔ q = .ok [n, d.nRvs] := fun q =>
      ⟨fun h => (C115_shape_partial False d hd n hn q h).resolve_right fun h => h.1,
        fun h => h ▸ C115_possible False d hd n hn⟩
    constructor
    · constructor
      · rintro ⟨rs, hf, rfl⟩
        cases hf with
        | cons ha hb => cases hb with
          | cons hb hc =>
            cases hc
            rw [h1] at hb
            subst hb
            change _ = _ at ha
            subst ha
            simp [firstError, hstackShapes, concatShapes, fixedShape]
      · rintro rfl
        exact ⟨[.ok [n], .ok [n, d.nRvs]], .cons rfl (.cons ((h1 _).2 rfl) .nil), by
          simp [firstError, hstackShapes, concatShapes]⟩
    · constructor
      · rintro ⟨rs, hf, rfl⟩
        cases hf with
        | cons ha hb => cases hb with
          | cons hb hc =>
            cases hc
            rw [h1] at ha
            subst ha
            change _ = _ at hb
            subst hb
            simp [firstError, hstackShapes, concatShapes, fixedShape]
      · rintro rfl
        exact ⟨[.ok [n, d.nRvs], .ok [n]], .cons ((h1 _).2 rfl) (.cons rfl .nil), by
          simp [firstError, hstackShapes, concatShapes]⟩
  · constructor
    · rintro ⟨q, rfl, rfl⟩
      simp [fixedShape]
    · rintro rfl
      exact ⟨_, rfl, by simp [fixedShape]⟩
  · intro maxiters hm h2
    obtain ⟨k, rfl⟩ := Nat.exists_eq_succ_of_ne_zero hm
    show postRows discreteDist n (k + 1) n r ↔ _
    unfold postRows
    rw [if_neg hn]
    have hfit : fitsInto [n] [n, discreteDist.nRvs] = false := by
      have : n ≠ 1 := by omega
      simp [fitsInto, fitsRev, discreteDist, fixedShape, this]
    constructor
    · rintro ⟨q, hq, hr⟩
      change q = .ok [n] at hq
      subst hq
      simpa only [hfit, Bool.false_eq_true, if_false] using hr
    · rintro rfl
      exact ⟨.ok [n], rfl, by simp only [hfit, Bool.false_eq_true, if_false]⟩
  · intro k
    constructor
    · rintro ⟨q, rfl, rfl⟩
      simp [fixedShape]
    · rintro rfl
      exact ⟨_, rfl, by simp [fixedShape]⟩

/-- **C115, refused parameters.**  Numbers instead of arrays, and ranges without two ends, are refused with
`IndexError` when a uniform or constant distribution is made; a Dirichlet distribution takes only a vector. -/
theorem C115_constructors (k d : Nat) (rest : Shape) :
    uniformNew [] = .error .indexError ∧ constantNew [] = .error .indexError ∧
    dirichletNew [] = .error .valueError ∧ dirichletNew (d :: k :: rest) = .error .valueError ∧
    (k < 2 → uniformNew [k] = .error .indexError ∧ uniformNew [d, k] = .error .indexError) := by
  refine ⟨rfl, rfl, rfl, rfl, fun h => ?_⟩
  simp [uniformNew, Nat.not_le.mpr h]

/-- **C115, qubits only.**  `HaarUniform` and `GinibreUniform` accept any dimension; with one other than two
every attempt to draw fails. -/
theorem C115_qubits_only (dim n : Nat) (hd : dim ≠ 2) (hn : n ≠ 0) (r : Except PyErr Shape) :
    ((haarDist dim).sample n r ↔ r = .error .valueError) ∧
      ((ginibreDist dim).sample n r ↔ r = .error .valueError) := by
  simp [haarDist, ginibreDist, singleShape, hd, hn]

/-- **C115, no draws.**  A mixture asked for no draws raises `ValueError`; a postselection does not draw and returns
an array of shape `(0, n_rvs)`, and so do the distributions that draw samples one by one, in every dimension. -/
theorem C115_no_draws (d₀ : DObj) (ds : List DObj) (maxiters dim : Nat) (r : Except PyErr Shape) :
    ((mixtureDist d₀ ds).sample 0 r ↔ r = .error .valueError) ∧
    ((postDist d₀ maxiters).sample 0 r ↔ r = .ok [0, d₀.nRvs]) ∧
    ((haarDist dim).sample 0 r ↔ r = .ok [0, 3]) ∧ ((ginibreDist dim).sample 0 r ↔ r = .ok [0, 3]) ∧
    ((densityDist dim).sample 0 r ↔ r = .ok [0, dim ^ 2]) := by
  have hnil : ∀ ns : List Nat, ns.sum = 0 →
      (((d₀ :: ds).zip ns).filter fun dm => decide (0 < dm.2)) = [] := by
    intro ns h0
    rw [List.filter_eq_nil_iff]
    intro dm hdm
    have := List.sum_eq_zero_iff.1 h0 dm.2 (List.of_mem_zip hdm).2
    simp [this]
  refine ⟨?_, ?_, by simp [haarDist, singleShape], by simp [ginibreDist, singleShape], by simp [densityDist, singleShape]⟩
  · constructor
    · rintro ⟨ns, -, h0, rs, hf, rfl⟩
      rw [hnil ns h0] at hf
      cases hf
      rfl
    · rintro rfl
      refine ⟨List.replicate (d₀ :: ds).length 0, by simp, by simp, [], ?_, rfl⟩
      rw [hnil _ (by simp)]
      exact .nil
  · show postRows d₀ 0 maxiters 0 r ↔ _
    cases maxiters <;> simp [postRows]

/-- **C115, mixtures of different widths.**  The assumption that all components have the same `n_rvs` is not
checked: a mixture of one variable and two may return rows of either width, or raise. -/
theorem C115_mixed_widths :
    let m := mixtureDist scalarDist [mvnDist 2]
    m.nRvs = 1 ∧ m.sample 1 (.ok [1, 1]) ∧ m.sample 1 (.ok [1, 2]) ∧ m.sample 2 (.error .valueError) := by
  refine ⟨rfl, ⟨[1, 0], rfl, rfl, [.ok [1, 1]], ?_, rfl⟩, ⟨[0, 1], rfl, rfl, [.ok [1, 2]], ?_, rfl⟩,
    ⟨[1, 1], rfl, rfl, [.ok [1, 1], .ok [1, 2]], ?_, rfl⟩⟩
  · exact .cons rfl .nil
  · exact .cons rfl .nil
  · exact .cons rfl (.cons rfl .nil)

/-- **C115, the prior of an updater.**  A prior with as many variables as the model has parameters fills the
particles; another one is refused with `ValueError`, except that a prior of a single variable is accepted by every
model, its value being used for all parameters. -/
theorem C115_prior (d : DObj) (hd : Spec.Built False d) (nP k : Nat) (hn : nP ≠ 0) (r : Except PyErr Shape) :
    resetFromPrior d nP k r ↔
      r = if d.nRvs = k ∨ d.nRvs = 1 then .ok [nP, k] else .error .valueError := by
  have h1 : ∀ q, d.sample nP q ↔ q = .ok [nP, d.nRvs] := fun q =>
    ⟨fun h => (C115_shape_partial False d hd nP hn q h).resolve_right fun h => h.1,
      fun h => h ▸ C115_possible False d hd nP hn⟩
  have h2 : fitsInto [nP, d.nRvs] [nP, k] = decide (d.nRvs = k ∨ d.nRvs = 1) := by
    simp [fitsInto, fitsRev]
  unfold resetFromPrior
  constructor
  · rintro ⟨q, hq, rfl⟩
    rw [h1] at hq
    subst hq
    simp [h2]
  · rintro rfl
    exact ⟨_, (h1 _).2 rfl, by simp [h2]⟩

/-- Case for C115: a postselected product of a normal variable, a constrained Dirichlet vector of three entries and a
mixture of two clouds with two parameters. -/
example : ∃ d, Spec.Built True (postDist (productDist [scalarDist, constrainedDist d,
      mixtureDist (particleDist 5 2) [mvnDist 2]]) 100) ∧
    (postDist (productDist [scalarDist, constrainedDist d,
      mixtureDist (particleDist 5 2) [mvnDist 2]]) 100).nRvs = 6 := by
  refine ⟨fixedShape 3 fun n => [n, 3], .post trivial _ (.product _ (by simp) ?_) _ (by norm_num), rfl⟩
  intro d hd
  simp only [List.mem_cons, List.not_mem_nil, or_false] at hd
  rcases hd with rfl | rfl | rfl
  · exact .scalar
  · exact .constrained _ (.dirichlet (alpha := [3]) rfl)
  · refine .mixture _ _ (.particle 5 2 (by norm_num)) (fun d hd => ?_) fun d hd => ?_
    · rw [List.mem_singleton.1 hd]; exact .mvn 2
    · rw [List.mem_singleton.1 hd]; rfl

/-- A prior of one variable for a model of three parameters. -/
example : resetFromPrior scalarDist 100 3 (.ok [100, 3]) :=
  (C115_prior scalarDist .scalar 100 3 (by norm_num) _).2 (by simp [scalarDist, fixedShape])

end QInfer
