import Verif.Model.Chain
import Mathlib.Algebra.BigOperators.Group.List.Basic
import Mathlib.Data.List.Chain
import Mathlib.Tactic.Ring
import Mathlib.Tactic.Linarith

/-! # C34, C35, C53: counters, chains and forwarded properties of nested models -/

namespace QInfer

/-! ## C35 -/

/-- `m` directly wraps `u`. -/
def Wraps (m u : Mdl) : Prop := ∃ d, m = .der d u

/-- Nothing is wrapped by `m`. -/
def StandAlone (m : Mdl) : Prop := ∀ u, ¬ Wraps m u

/-- **C35, chain.**  The chain followed by the model itself starts at a stand-alone model and each
member directly wraps the one before; so it lists all inner models, innermost first. -/
theorem C35_chain (m : Mdl) :
    (m.chain ++ [m]).IsChain (fun u w => Wraps w u) ∧
    (∀ b, (m.chain ++ [m]).head? = some b → StandAlone b) := by
  induction m with
  | base b =>
    refine ⟨by simp [Mdl.chain], ?_⟩
    rintro b' h
    simp [Mdl.chain] at h
    subst h
    rintro u ⟨d, hd⟩; cases hd
  | der d u ih =>
    constructor
    · rw [show (Mdl.der d u).chain = u.chain ++ [u] from rfl, List.isChain_append]
      refine ⟨ih.1, List.isChain_singleton _, ?_⟩
      intro x hx y hy
      simp at hx hy
      subst hx hy
      exact ⟨d, rfl⟩
    · intro b hb
      refine ih.2 b ?_
      rw [show (Mdl.der d u).chain = u.chain ++ [u] from rfl] at hb
      rw [← hb]
      cases hc : u.chain <;> simp

/-- **C35, base model.**  `base_model` is the innermost model: the first of the chain, or the model
itself when it is stand-alone. -/
theorem C35_base_model (m : Mdl) :
    (m.chain ++ [m]).head? = some m.baseModel ∧ StandAlone m.baseModel := by
  have h : (m.chain ++ [m]).head? = some m.baseModel := by
    induction m with
    | base b => rfl
    | der d u ih =>
      rw [show (Mdl.der d u).chain = u.chain ++ [u] from rfl]
      rw [show (Mdl.der d u).baseModel = u.baseModel from rfl, ← ih]
      cases hc : u.chain <;> simp
  exact ⟨h, (C35_chain m).2 _ h⟩

/-- **C35, underlying model.**  `underlying_model` is the directly wrapped model and the last of the
chain; it is `None`, and the chain is empty and the base the model itself, exactly for stand-alone
models. -/
theorem C35_underlying (m : Mdl) :
    (∀ u, m.underlying = some u ↔ Wraps m u) ∧ m.underlying = m.chain.getLast? ∧
    (StandAlone m ↔ m.underlying = none) ∧ (StandAlone m ↔ m.chain = []) ∧
    (StandAlone m ↔ m.baseModel = m) := by
  cases m with
  | base b =>
    have hs : StandAlone (.base b) := by rintro u ⟨d, hd⟩; cases hd
    refine ⟨fun u => ⟨fun h => by simp [Mdl.underlying, Mdl.chain] at h, fun h => absurd h (hs u)⟩,
      rfl, ?_, ?_, ?_⟩
    · simp [hs, Mdl.underlying, Mdl.chain]
    · simp [hs, Mdl.chain]
    · simp [hs, Mdl.baseModel]
  | der d u =>
    have hs : ¬ StandAlone (.der d u) := fun h => h u ⟨d, rfl⟩
    have hsz : ∀ v : Mdl, sizeOf v.baseModel ≤ sizeOf v := by
      intro v
      induction v with
      | base b => exact le_rfl
      | der d u ih =>
        rw [show (Mdl.der d u).baseModel = u.baseModel from rfl]
        rw [Mdl.der.sizeOf_spec]; omega
    refine ⟨fun v => ?_, ?_, ?_, ?_, ?_⟩
    · constructor
      · intro h
        simp only [Mdl.underlying, Option.some.injEq] at h
        exact ⟨d, by rw [h]⟩
      · rintro ⟨d', h⟩
        injection h with h1 h2
        simp [Mdl.underlying, h2]
    · simp [Mdl.underlying, Mdl.chain]
    · simp [hs, Mdl.underlying]
    · simp [hs, Mdl.chain]
    · simp only [hs, false_iff]
      intro h
      have := hsz u
      have h2 : sizeOf (Mdl.der d u).baseModel = sizeOf (Mdl.der d u) := by rw [h]
      rw [show (Mdl.der d u).baseModel = u.baseModel from rfl, Mdl.der.sizeOf_spec] at h2
      omega

/-- Case for C35: a binomial of a poisoned coin. -/
example : (Mdl.der .binomial (.der .poisoned (.base .coin))).chain =
    [.base .coin, .der .poisoned (.base .coin)] := rfl

/-! ## C34 -/

/-- The likelihood evaluations a call requests. -/
def requestedCalls : MOp → Nat
  | .likelihood os ms es => safeShape os * safeShape ms * safeShape es
  | _ => 0

/-- The data a call requests. -/
def requestedSims : MOp → Nat
  | .simulate m e r => m * e * r
  | _ => 0

/-- The likelihood evaluations a stand-alone model itself makes for a call: those requested, and all
outcomes for each simulated model and experiment. -/
def ownCalls (nOut : Nat) : MOp → Nat
  | .likelihood os ms es => safeShape os * safeShape ms * safeShape es
  | .simulate m e _ => nOut * m * e
  | .clearCache => 0

/-- The class of the outermost object counts its likelihood calls. -/
def CountsCalls : Mdl → Prop
  | .base b => b ≠ .unknownT2 ∧ b ≠ .noisyCoin
  | .der d _ => d ≠ .mle

/-- The class of the outermost object counts its simulations. -/
def CountsSims : Mdl → Prop
  | .base _ => True
  | .der d _ => d = .poisoned ∨ d = .mle ∨ d = .randomWalk ∨ d = .gaussianRW

theorem runMOps_head (mdl : Mdl) (inc : MOp → Nat) (f : Ctr → Nat)
    (h : ∀ op c cs, ∃ c' cs', applyMOp mdl (c :: cs) op = c' :: cs' ∧ f c' = f c + inc op)
    (ops : List MOp) (c : Ctr) (cs : List Ctr) :
    ∃ c' cs', runMOps mdl (c :: cs) ops = c' :: cs' ∧ f c' = f c + (ops.map inc).sum := by
  induction ops generalizing c cs with
  | nil => exact ⟨c, cs, rfl, by simp⟩
  | cons op ops ih =>
    obtain ⟨c1, cs1, h1, h2⟩ := h op c cs
    obtain ⟨c2, cs2, h3, h4⟩ := ih c1 cs1
    refine ⟨c2, cs2, ?_, ?_⟩
    · rw [runMOps, List.foldl_cons, h1]; exact h3
    · rw [h4, h2, List.map_cons, List.sum_cons]; ring

/-- **C34, calls of a wrapper.**  For every wrapper but `MLEModel`, around any model and after any
history, `call_count` is the number of (outcome, model, experiment) evaluations requested. -/
theorem C34_wrapper_call_count_partial (d : DerK) (hd : d ≠ .mle) (u : Mdl) (ops : List MOp) :
    ((runMOps (.der d u) (freshCtrs (.der d u)) ops).head?).map Ctr.call =
      some (ops.map requestedCalls).sum := by
  have hc : d.countsCalls = true := by cases d <;> first | rfl | exact absurd rfl hd
  obtain ⟨c', cs', h1, h2⟩ := runMOps_head (.der d u) requestedCalls Ctr.call (by
    intro op c cs
    cases op with
    | likelihood os ms es =>
      exact ⟨_, _, rfl, by simp [hc, requestedCalls]⟩
    | simulate m e r => exact ⟨_, _, rfl, rfl⟩
    | clearCache => exact ⟨c, cs, rfl, rfl⟩) ops ⟨0, 0⟩ (freshCtrs u)
  rw [freshCtrs, h1]
  simpa using h2

/-- **C34, calls of a stand-alone model.**  Where the class counts, `call_count` is the number of
evaluations requested plus those of its own simulations. -/
theorem C34_base_call_count_partial (b : BaseK) (hb : CountsCalls (.base b)) (ops : List MOp) :
    ((runMOps (.base b) (freshCtrs (.base b)) ops).head?).map Ctr.call =
      some (ops.map (ownCalls b.nOutcomes)).sum := by
  have hc : b.countsCalls = true := by
    obtain ⟨h1, h2⟩ := hb
    cases b <;> first | rfl | exact absurd rfl h1 | exact absurd rfl h2
  obtain ⟨c', cs', h1, h2⟩ := runMOps_head (.base b) (ownCalls b.nOutcomes) Ctr.call (by
    intro op c cs
    cases op with
    | likelihood os ms es => exact ⟨_, _, rfl, by simp [hc, ownCalls]⟩
    | simulate m e r => exact ⟨_, _, rfl, by simp [hc, ownCalls]⟩
    | clearCache => exact ⟨c, cs, rfl, rfl⟩) ops ⟨0, 0⟩ []
  rw [freshCtrs, h1]
  simpa using h2

/-- **C34, simulations.**  For stand-alone models, `PoisonedModel`, `MLEModel` and both random walks,
`sim_count` is the number of data requested, after any history. -/
theorem C34_sim_count_partial (mdl : Mdl) (hm : CountsSims mdl) (ops : List MOp) :
    ((runMOps mdl (freshCtrs mdl) ops).head?).map Ctr.sim = some (ops.map requestedSims).sum := by
  cases mdl with
  | base b =>
    obtain ⟨c', cs', h1, h2⟩ := runMOps_head (.base b) requestedSims Ctr.sim (by
      intro op c cs
      cases op with
      | likelihood os ms es =>
        refine ⟨_, _, rfl, ?_⟩
        split <;> simp [requestedSims]
      | simulate m e r =>
        refine ⟨_, _, rfl, ?_⟩
        split <;> simp [requestedSims]
      | clearCache => exact ⟨c, cs, rfl, rfl⟩) ops ⟨0, 0⟩ []
    rw [freshCtrs, h1]
    simpa using h2
  | der d u =>
    have hi : ∀ m e r, d.simIncr m e r = m * e * r := by
      rcases hm with rfl | rfl | rfl | rfl <;> intros <;> rfl
    obtain ⟨c', cs', h1, h2⟩ := runMOps_head (.der d u) requestedSims Ctr.sim (by
      intro op c cs
      cases op with
      | likelihood os ms es =>
        refine ⟨_, _, rfl, ?_⟩
        split <;> simp [requestedSims]
      | simulate m e r => exact ⟨_, _, rfl, by simp [requestedSims, hi]⟩
      | clearCache => exact ⟨c, cs, rfl, rfl⟩) ops ⟨0, 0⟩ (freshCtrs u)
    rw [freshCtrs, h1]
    simpa using h2

/-- **C34, uncounted calls.**  `UnknownT2Model`, `NoisyCoinModel` and `MLEModel` report a
`call_count` of 0 after every history. -/
theorem C34_uncounted_calls (mdl : Mdl) (hm : ¬ CountsCalls mdl) (ops : List MOp) :
    ((runMOps mdl (freshCtrs mdl) ops).head?).map Ctr.call = some 0 := by
  cases mdl with
  | base b =>
    have hc : b.countsCalls = false := by
      by_contra h
      apply hm
      constructor <;> (rintro rfl; simp [BaseK.countsCalls] at h)
    obtain ⟨c', cs', h1, h2⟩ := runMOps_head (.base b) (fun _ => 0) Ctr.call (by
      intro op c cs
      cases op with
      | likelihood os ms es => exact ⟨_, _, rfl, by simp [hc]⟩
      | simulate m e r => exact ⟨_, _, rfl, by simp [hc]⟩
      | clearCache => exact ⟨c, cs, rfl, rfl⟩) ops ⟨0, 0⟩ []
    rw [freshCtrs, h1]
    simpa using h2
  | der d u =>
    have hd : d = .mle := not_not.1 hm
    subst hd
    obtain ⟨c', cs', h1, h2⟩ := runMOps_head (.der .mle u) (fun _ => 0) Ctr.call (by
      intro op c cs
      cases op with
      | likelihood os ms es => exact ⟨_, _, rfl, rfl⟩
      | simulate m e r => exact ⟨_, _, rfl, rfl⟩
      | clearCache => exact ⟨c, cs, rfl, rfl⟩) ops ⟨0, 0⟩ (freshCtrs u)
    rw [freshCtrs, h1]
    simpa using h2

/-- **C34, miscounted simulations.**  `BinomialModel` reports no simulations at all;
`GaussianHyperparameterizedModel` and `MultinomialModel` count each call as if `repeat` were 1. -/
theorem C34_miscounted_sims (d : DerK) (hd : ¬ CountsSims (.der d (.base .coin))) (u : Mdl)
    (ops : List MOp) :
    ((runMOps (.der d u) (freshCtrs (.der d u)) ops).head?).map Ctr.sim =
      some (if d = .binomial then 0 else
        (ops.map fun op => match op with
          | .simulate m e _ => requestedSims (.simulate m e 1)
          | _ => 0).sum) := by
  by_cases hb : d = .binomial
  · subst hb
    rw [if_pos rfl]
    obtain ⟨c', cs', h1, h2⟩ := runMOps_head (.der .binomial u) (fun _ => 0) Ctr.sim (by
      intro op c cs
      cases op with
      | likelihood os ms es => exact ⟨_, _, rfl, rfl⟩
      | simulate m e r => exact ⟨_, _, rfl, rfl⟩
      | clearCache => exact ⟨c, cs, rfl, rfl⟩) ops ⟨0, 0⟩ (freshCtrs u)
    rw [freshCtrs, h1]
    simpa using h2
  · rw [if_neg hb]
    have hi : ∀ m e r, d.simIncr m e r = m * e * 1 := by
      cases d <;> first | (intros; rfl) | exact absurd rfl hb | (exfalso; apply hd; simp [CountsSims])
    obtain ⟨c', cs', h1, h2⟩ := runMOps_head (.der d u) (fun op => match op with
          | .simulate m e _ => requestedSims (.simulate m e 1)
          | _ => 0) Ctr.sim (by
      intro op c cs
      cases op with
      | likelihood os ms es =>
        refine ⟨_, _, rfl, ?_⟩
        split <;> simp
      | simulate m e r => exact ⟨_, _, rfl, by simp [hi, requestedSims]⟩
      | clearCache => exact ⟨c, cs, rfl, rfl⟩) ops ⟨0, 0⟩ (freshCtrs u)
    rw [freshCtrs, h1]
    simpa using h2

/-- The likelihood evaluations of the wrapped model a call on a wrapper costs: `BinomialModel` needs
one per model and experiment, `MultinomialModel` one less than there are sides, for likelihoods and
for simulations, whatever the number of outcomes or repetitions. -/
def innerCost (per : Nat) : MOp → Nat
  | .likelihood _ ms es => per * (safeShape ms * safeShape es)
  | .simulate m e _ => per * (m * e)
  | .clearCache => 0

/-- **C34, calls of the model under a binomial or multinomial model.** -/
theorem C34_underlying_call_count (b : BaseK) (hb : CountsCalls (.base b)) (ops : List MOp) :
    (((runMOps (.der .binomial (.base b)) (freshCtrs (.der .binomial (.base b))) ops)[1]?).map
      Ctr.call = some (ops.map (innerCost 1)).sum) ∧
    ∀ sides, ((runMOps (.der (.multinomial sides) (.base b))
      (freshCtrs (.der (.multinomial sides) (.base b))) ops)[1]?).map Ctr.call =
        some (ops.map (innerCost (sides - 1))).sum := by
  have hc : b.countsCalls = true := by
    obtain ⟨h1, h2⟩ := hb
    cases b <;> first | rfl | exact absurd rfl h1 | exact absurd rfl h2
  have key : ∀ (d : DerK) (per : Nat), (∀ op c0 c1, ∃ c0' c1',
      applyMOp (.der d (.base b)) [c0, c1] op = [c0', c1'] ∧
        c1'.call = c1.call + innerCost per op) → ∀ (ops : List MOp) (c0 c1 : Ctr),
      ∃ c0' c1', runMOps (.der d (.base b)) [c0, c1] ops = [c0', c1'] ∧
        c1'.call = c1.call + (ops.map (innerCost per)).sum := by
    intro d per h ops
    induction ops with
    | nil => intro c0 c1; exact ⟨c0, c1, rfl, by simp⟩
    | cons op ops ih =>
      intro c0 c1
      obtain ⟨d0, d1, h1, h2⟩ := h op c0 c1
      obtain ⟨e0, e1, h3, h4⟩ := ih d0 d1
      refine ⟨e0, e1, ?_, ?_⟩
      · rw [runMOps, List.foldl_cons, h1]; exact h3
      · rw [h4, h2, List.map_cons, List.sum_cons]; ring
  constructor
  · obtain ⟨c0, c1, h1, h2⟩ := key .binomial 1 (by
      intro op c0 c1
      cases op with
      | likelihood os ms es =>
        exact ⟨_, _, rfl, by simp [hc, innerCost, DerK.innerOutcomes]⟩
      | simulate m e r => exact ⟨_, _, rfl, by simp [hc, innerCost]⟩
      | clearCache => exact ⟨c0, c1, rfl, rfl⟩) ops ⟨0, 0⟩ ⟨0, 0⟩
    rw [show freshCtrs (.der .binomial (.base b)) = [⟨0, 0⟩, ⟨0, 0⟩] from rfl, h1]
    simpa using h2
  · intro sides
    obtain ⟨c0, c1, h1, h2⟩ := key (.multinomial sides) (sides - 1) (by
      intro op c0 c1
      cases op with
      | likelihood os ms es =>
        exact ⟨_, _, rfl, by simp [hc, innerCost, DerK.innerOutcomes, mul_assoc]⟩
      | simulate m e r => exact ⟨_, _, rfl, by simp [hc, innerCost, mul_assoc]⟩
      | clearCache => exact ⟨c0, c1, rfl, rfl⟩) ops ⟨0, 0⟩ ⟨0, 0⟩
    rw [show freshCtrs (.der (.multinomial sides) (.base b)) = [⟨0, 0⟩, ⟨0, 0⟩] from rfl, h1]
    simpa using h2

/-- Wrappers that pass every call on unchanged. -/
def PassThrough (d : DerK) : Prop := d = .poisoned ∨ d = .mle ∨ d = .randomWalk ∨ d = .gaussianRW

/-- A stack of wrappers around `b`. -/
def stack (b : BaseK) : List DerK → Mdl
  | [] => .base b
  | d :: ds => .der d (stack b ds)

/-- **C34, the base model under wrappers.**  Under any stack of pass-through wrappers the counters of
the base model are those it would have if it had been called directly. -/
theorem C34_base_under_wrappers (b : BaseK) (ds : List DerK) (hds : ∀ d ∈ ds, PassThrough d)
    (ops : List MOp) :
    (runMOps (stack b ds) (freshCtrs (stack b ds)) ops).getLast? =
      (runMOps (.base b) (freshCtrs (.base b)) ops).getLast? := by
  have hstep : ∀ (op : MOp) (ds : List DerK), (∀ d ∈ ds, PassThrough d) → ∀ (pre : List Ctr)
      (c : Ctr), pre.length = ds.length → ∃ pre', pre'.length = ds.length ∧
        applyMOp (stack b ds) (pre ++ [c]) op = pre' ++ applyMOp (.base b) [c] op := by
    intro op ds
    induction ds with
    | nil =>
      intro _ pre c hp
      rw [List.length_eq_zero_iff.1 hp]
      exact ⟨[], rfl, rfl⟩
    | cons d ds ih =>
      intro hd pre c hp
      obtain ⟨c0, pre, rfl⟩ : ∃ a l, pre = a :: l := by
        cases pre with
        | nil => cases hp
        | cons a l => exact ⟨a, l, rfl⟩
      obtain ⟨pre', h1, h2⟩ := ih (fun x hx => hd x (by simp [hx])) pre c (by simpa using hp)
      have hd' := hd d (by simp)
      cases op with
      | likelihood os ms es =>
        have hin : ∀ o, d.innerOutcomes o = o := by
          rcases hd' with rfl | rfl | rfl | rfl <;> intro <;> rfl
        refine ⟨(if d.countsCalls then
          { c0 with call := c0.call + safeShape os * safeShape ms * safeShape es } else c0) :: pre',
          by simp [h1], ?_⟩
        rw [List.cons_append, List.cons_append, ← h2]
        simp only [applyMOp, stack, likCall, hin]
      | simulate m e r =>
        refine ⟨{ c0 with sim := c0.sim + d.simIncr m e r } :: pre', by simp [h1], ?_⟩
        rw [List.cons_append, List.cons_append, ← h2]
        rcases hd' with rfl | rfl | rfl | rfl <;> rfl
      | clearCache =>
        refine ⟨c0 :: pre, by simpa using hp, rfl⟩
  have hsingle : ∀ (op : MOp) (c : Ctr), ∃ c', applyMOp (.base b) [c] op = [c'] := by
    intro op c
    cases op <;> exact ⟨_, rfl⟩
  have key : ∀ (ops : List MOp) (pre : List Ctr) (c : Ctr), pre.length = ds.length →
      (runMOps (stack b ds) (pre ++ [c]) ops).getLast? =
        (runMOps (.base b) [c] ops).getLast? := by
    intro ops
    induction ops with
    | nil => intro pre c _; simp [runMOps]
    | cons op ops ih =>
      intro pre c hp
      obtain ⟨pre', h1, h2⟩ := hstep op ds hds pre c hp
      obtain ⟨c', hc'⟩ := hsingle op c
      have := ih pre' c' h1
      simp only [runMOps, List.foldl_cons] at this ⊢
      rw [h2, hc', this]
  have hfresh : ∀ ds : List DerK, ∃ pre : List Ctr, pre.length = ds.length ∧
      freshCtrs (stack b ds) = pre ++ [⟨0, 0⟩] := by
    intro ds
    induction ds with
    | nil => exact ⟨[], rfl, rfl⟩
    | cons d ds ih =>
      obtain ⟨pre, h1, h2⟩ := ih
      exact ⟨⟨0, 0⟩ :: pre, by simp [h1], by simp [stack, freshCtrs, h2]⟩
  obtain ⟨pre, h1, h2⟩ := hfresh ds
  rw [h2]
  exact key ops pre ⟨0, 0⟩ h1

/-- Case for C34: a history of a poisoned coin. -/
example : runMOps (.der .poisoned (.base .coin)) (freshCtrs (.der .poisoned (.base .coin)))
    [.likelihood [2] [100, 1] [3], .simulate 5 2 4, .likelihood [] [10, 1] [1]] =
    [⟨610, 40⟩, ⟨630, 40⟩] := by decide

/-! ## C53 -/

/-- The outcome domain depends on the experiment: somewhere in the chain there is a binomial or
multinomial model, whose outcomes depend on `n_meas`, and no Gaussian reading of it above. -/
def DomainVaries : Mdl → Prop
  | .base _ => False
  | .der .binomial _ => True
  | .der (.multinomial _) _ => True
  | .der .gaussHyper _ => False
  | .der _ u => DomainVaries u

/-- **C53, negative.**  Wrapping a binomial model in a `PoisonedModel`, `MLEModel` or
`RandomWalkModel` makes `is_n_outcomes_constant` true although the domain still varies. -/
theorem C53_flag_not_forwarded (d : DerK) (hd : d = .poisoned ∨ d = .mle ∨ d = .randomWalk) (u : Mdl)
    (hu : DomainVaries u) :
    (Mdl.der d u).nOutcomesConstant = true ∧ DomainVaries (.der d u) := by
  rcases hd with rfl | rfl | rfl <;> exact ⟨rfl, hu⟩

/-- **C53, positive part.**  The flag is never false for a stand-alone model, and a true flag can be
trusted for every chain in which no such wrapper sits above a binomial or multinomial model. -/
theorem C53_flag_correct_partial (m : Mdl)
    (h : ∀ d u, m = .der d u → d = .poisoned ∨ d = .mle ∨ d = .randomWalk → ¬ DomainVaries u)
    (hf : m.nOutcomesConstant = true) : ¬ DomainVaries m := by
  cases m with
  | base b => exact id
  | der d u =>
    cases d with
    | poisoned => exact h _ u rfl (by simp)
    | binomial => cases hf
    | gaussHyper => exact id
    | multinomial s => cases hf
    | mle => exact h _ u rfl (by simp)
    | randomWalk => exact h _ u rfl (by simp)
    | gaussianRW => cases hf

/-- **C53, when the flag is false.**  The flag is false exactly for a binomial model, a multinomial model and
a `GaussianRandomWalkModel`: never for a stand-alone model. -/
theorem C53_flag_false (m : Mdl) :
    m.nOutcomesConstant = false ↔ ∃ d u, m = .der d u ∧
      (d = .binomial ∨ (∃ s, d = .multinomial s) ∨ d = .gaussianRW) := by
  cases m with
  | base b => simp [Mdl.nOutcomesConstant]
  | der d u => cases d <;> simp [Mdl.nOutcomesConstant]

/-- Case for C53. -/
example : DomainVaries (.der .binomial (.base .coin)) := trivial

end QInfer
