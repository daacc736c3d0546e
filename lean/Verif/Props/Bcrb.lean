import Verif.Model.Bcrb
import Verif.Lemmas.SmcMicro
import Verif.Demo.Smc
import Mathlib.Tactic.Ring

/-! # C51: Cramér-Rao tracking -/

set_option linter.unusedSectionVars false

namespace QInfer

variable {K O E ω : Type} {d : Nat} [Field K] [LinearOrder K] [IsStrictOrderedRing K]

/-- The state change allowed to a sequence of calls: some `update` calls were made, each adding its
information to the two arrays; nothing else in the heap changed. -/
def Accumulates (env : BEnv d K O E ω) (h : Heap d K) (b : Bcrb K O E ω) (h' : Heap d K)
    (b' : Bcrb K O E ω) : Prop :=
  b'.cur = b.cur ∧ b'.adapt = b.adapt ∧ ∃ calls, b'.log = b.log ++ calls ∧
    b'.smc.dataRecord.length = b.smc.dataRecord.length + calls.length ∧
    h' b.cur = calls.foldl (fun a c => matAdd a (bimUniform env.fisher (priorDraw env c.1).1 c.2))
      (h b.cur) ∧
    (∀ a, b.adapt = some a → h' a = calls.foldl
      (fun v c => matAdd v (bimWeighted env.fisher c.1.weights c.1.locs c.2)) (h a)) ∧
    (∀ a, a ≠ b.cur → b.adapt ≠ some a → h' a = h a)

theorem Accumulates.refl (env : BEnv d K O E ω) (h : Heap d K) (b : Bcrb K O E ω) (s : Smc K O ω)
    (hs : s.dataRecord = b.smc.dataRecord) : Accumulates env h b h { b with smc := s } :=
  ⟨rfl, rfl, [], by simp, by simp [hs], rfl, fun _ _ => rfl, fun _ _ _ => rfl⟩

theorem Accumulates.trans {env : BEnv d K O E ω} {h h' h'' : Heap d K} {b b' b'' : Bcrb K O E ω}
    (h1 : Accumulates env h b h' b') (h2 : Accumulates env h' b' h'' b'') :
    Accumulates env h b h'' b'' := by
  obtain ⟨a1, a2, c1, a3, a4, a5, a6, a7⟩ := h1
  obtain ⟨b1, b2, c2, b3, b4, b5, b6, b7⟩ := h2
  refine ⟨b1.trans a1, b2.trans a2, c1 ++ c2, by rw [b3, a3, List.append_assoc], ?_, ?_, ?_, ?_⟩
  · rw [b4, a4, List.length_append]; omega
  · rw [List.foldl_append, ← a5, ← a1]; exact b5
  · intro a ha
    rw [List.foldl_append, ← a6 a ha]
    exact b6 a (by rw [a2]; exact ha)
  · intro a hc ha
    rw [b7 a (by rw [a1]; exact hc) (by rw [a2]; exact ha), a7 a hc ha]

theorem bUpdate_accumulates (cfg : SmcConfig K) (env : BEnv d K O E ω) (h : Heap d K)
    (b : Bcrb K O E ω) (hsep : b.adapt ≠ some b.cur) (o : O) (e : E) (check : Bool) :
    Accumulates env h b (bUpdate cfg env h b o e check).1 (bUpdate cfg env h b o e check).2.1 := by
  refine ⟨rfl, rfl, [(b.smc, e)], rfl, ?_, ?_, ?_, ?_⟩
  · show (update _ _ _ _ _ _).1.dataRecord.length = _
    rw [update_data]; simp
  · show (match b.adapt with
      | none => _
      | some a => _ : Heap d K) b.cur = _
    cases ha : b.adapt with
    | none => simp [Heap.set]; rfl
    | some a =>
      have : b.cur ≠ a := fun hc => hsep (by rw [ha, hc])
      simp [Heap.set, this]; rfl
  · intro a ha
    have : a ≠ b.cur := fun hc => hsep (by rw [ha, hc])
    show (match b.adapt with
      | none => _
      | some a => _ : Heap d K) a = _
    rw [ha]
    simp [Heap.set, this]
  · intro a hc ha
    show (match b.adapt with
      | none => _
      | some a => _ : Heap d K) a = _
    cases hb : b.adapt with
    | none => simp [Heap.set, hc]
    | some a' =>
      have : a ≠ a' := fun hq => ha (by rw [hb, hq])
      simp [Heap.set, hc, this]

theorem bBatchLoop_accumulates (cfg : SmcConfig K) (env : BEnv d K O E ω) (interval : Int)
    (ds : List (O × E)) (idx : Nat) (h : Heap d K) (b : Bcrb K O E ω) (hsep : b.adapt ≠ some b.cur) :
    Accumulates env h b (bBatchLoop cfg env interval idx ds h b).1
      (bBatchLoop cfg env interval idx ds h b).2.1 := by
  induction ds generalizing idx h b with
  | nil => exact Accumulates.refl env h b b.smc rfl
  | cons p ds ih =>
    obtain ⟨o, e⟩ := p
    have hu := bUpdate_accumulates cfg env h b hsep o e false
    rw [bBatchLoop]
    rcases hr : bUpdate cfg env h b o e false with ⟨h', b', r⟩
    rw [hr] at hu
    have hsep' : b'.adapt ≠ some b'.cur := by rw [hu.1, hu.2.1]; exact hsep
    cases r with
    | error err => exact hu
    | ok _ =>
      simp only
      split
      · exact hu
      · split
        · have hm := (maybeResample_fields cfg env.toEnv b'.smc).1
          rcases hq : maybeResample cfg env.toEnv b'.smc with ⟨s, r⟩
          rw [hq] at hm
          have hstep := Accumulates.refl env h' b' s hm
          cases r with
          | error err => exact hu.trans hstep
          | ok _ => exact hu.trans (hstep.trans (ih _ _ { b' with smc := s } hsep'))
        · exact hu.trans (ih _ _ _ hsep')

theorem bRun_accumulates (cfg : SmcConfig K) (env : BEnv d K O E ω) (ops : List (Op O E))
    (h : Heap d K) (b : Bcrb K O E ω) (hsep : b.adapt ≠ some b.cur) :
    Accumulates env h b (bRun cfg env ops h b).1 (bRun cfg env ops h b).2 := by
  induction ops generalizing h b with
  | nil => exact Accumulates.refl env h b b.smc rfl
  | cons op ops ih =>
    have hs : Accumulates env h b (bStep cfg env h b op).1 (bStep cfg env h b op).2.1 := by
      cases op with
      | update o e check => exact bUpdate_accumulates cfg env h b hsep o e check
      | batch os es interval =>
        rw [bStep]
        split
        · exact Accumulates.refl env h b b.smc rfl
        · exact bBatchLoop_accumulates cfg env interval _ 0 h b hsep
      | resample => exact Accumulates.refl env h b _ (resample_fields cfg env.toEnv b.smc).1
      | reset n only rw => exact Accumulates.refl env h b _ (reset_fields cfg env.toEnv b.smc n only rw).1
    exact hs.trans (ih _ _ (by rw [hs.1, hs.2.1]; exact hsep))

theorem foldl_matAdd {α : Type} (f : α → Option (Mat d K)) (g : α → Mat d K) (l : List α)
    (hf : ∀ c ∈ l, f c = some (g c)) (m : Mat d K) :
    l.foldl (fun a c => matAdd a (f c)) (some m) =
      some fun i j => m i j + (l.map fun c => g c i j).sum := by
  induction l generalizing m with
  | nil => simp
  | cons c l ih =>
    rw [List.foldl_cons, hf c (by simp)]
    show l.foldl _ (some fun i j => m i j + g c i j) = _
    rw [ih (fun c hc => hf c (by simp [hc]))]
    simp only [List.map_cons, List.sum_cons, add_assoc]

/-- Average of the Fisher information over the samples of the prior taken at an `update` call. -/
def priorInfo (env : BEnv d K O E ω) (c : Smc K O ω × E) (i j : Fin d) : K :=
  let xs := (env.prior c.1.seed c.1.locs.length).1
  (xs.map fun x => env.fisher x c.2 i j).sum / (xs.length : K)

/-- Average over the particles and weights at that call. -/
def posteriorInfo (env : BEnv d K O E ω) (c : Smc K O ω × E) (i j : Fin d) : K :=
  (List.zipWith (fun w x => w * env.fisher x c.2 i j) c.1.weights c.1.locs).sum

/-- **C51, accumulation.**  From construction with a given initial matrix `m`, after every history of
public calls (updates, batches, resampling, resets, with or without exceptions), `current_bim` is `m`
plus the sum of the prior information of all `update` calls, and with tracking `adaptive_bim` is `m`
plus the sum of the posterior information.  There is one such call per recorded datum. -/
theorem C51_information_accumulates (cfg : SmcConfig K) (env : BEnv d K O E ω) (h0 h1 h : Heap d K)
    (s0 : Smc K O ω) (hs0 : s0.dataRecord = []) (a : Nat) (m : Mat d K) (ha : h0 a = some m)
    (adaptive : Bool) (fresh : Nat) (hfresh : a < fresh) (b0 b : Bcrb K O E ω)
    (hc : bConstruct env h0 s0 (some a) adaptive fresh = .ok (h1, b0)) (ops : List (Op O E))
    (hr : bRun cfg env ops h1 b0 = (h, b))
    (hne : ∀ c ∈ b.log, (env.prior c.1.seed c.1.locs.length).1 ≠ []) :
    b.log.length = b.smc.dataRecord.length ∧
    currentBim h b = some (fun i j => m i j + (b.log.map fun c => priorInfo env c i j).sum) ∧
    (adaptive = true → adaptiveBim h b =
      .ok (some fun i j => m i j + (b.log.map fun c => posteriorInfo env c i j).sum)) ∧
    (adaptive = false → adaptiveBim h b = .error .valueError) := by
  unfold bConstruct at hc
  by_cases hdiff : env.differentiable = true
  · rw [if_pos hdiff] at hc
    simp only at hc
    -- facts about the constructed object
    have hb0 : b0.smc = s0 ∧ b0.cur = a ∧ b0.log = [] ∧ h1 a = some m ∧
        (adaptive = true → b0.adapt = some (fresh + 1) ∧ h1 (fresh + 1) = some m) ∧
        (adaptive = false → b0.adapt = none) := by
      have hne : a ≠ fresh + 1 := by omega
      cases adaptive with
      | true =>
        simp only [if_true, Except.ok.injEq, Prod.mk.injEq] at hc
        obtain ⟨rfl, rfl⟩ := hc
        simp [Heap.set, ha, hne]
      | false =>
        simp only [Bool.false_eq_true, if_false, Except.ok.injEq, Prod.mk.injEq] at hc
        obtain ⟨rfl, rfl⟩ := hc
        simp [ha]
    obtain ⟨p1, p2, p3, p4, p5, p6⟩ := hb0
    have hsep : b0.adapt ≠ some b0.cur := by
      cases adaptive with
      | true => rw [(p5 rfl).1, p2]; simp; omega
      | false => rw [p6 rfl]; simp
    have hacc := bRun_accumulates cfg env ops h1 b0 hsep
    rw [hr] at hacc
    obtain ⟨q1, q2, calls, q3, q4, q5, q6, q7⟩ := hacc
    dsimp only at q1 q2 q3 q4 q5 q6 q7
    have hlog : b.log = calls := by rw [q3, p3]; simp
    refine ⟨?_, ?_, ?_, ?_⟩
    · rw [q4, p1, hs0, hlog]; simp
    · rw [currentBim, q1, q5, p2, p4, hlog]
      refine foldl_matAdd _ (priorInfo env) calls (fun c hcm => ?_) m
      have := hne c (by rw [hlog]; exact hcm)
      rw [bimUniform, if_neg (show (priorDraw env c.1).1 ≠ [] from this)]
      rfl
    · intro had
      rw [adaptiveBim, q2, (p5 had).1]
      simp only [Except.ok.injEq]
      rw [q6 _ (p5 had).1, (p5 had).2, hlog]
      exact foldl_matAdd _ (posteriorInfo env) calls (fun c hcm => rfl) m
    · intro had
      rw [adaptiveBim, q2, p6 had]
  · rw [if_neg hdiff] at hc; cases hc

/-- **C51, initial matrix.**  Without `initial_bim` the starting value is the average over the
particles of the outer product of the prior's log-density gradient with itself; the caller's arrays
(all addresses below `fresh`) are then never written. -/
theorem C51_default_initial (cfg : SmcConfig K) (env : BEnv d K O E ω) (h0 h1 : Heap d K)
    (s0 : Smc K O ω) (hl : s0.locs ≠ []) (adaptive : Bool) (fresh : Nat) (b0 : Bcrb K O E ω)
    (hc : bConstruct env h0 s0 none adaptive fresh = .ok (h1, b0)) :
    currentBim h1 b0 = some (fun i j =>
      (s0.locs.map fun x => env.gradLogPdf x i * env.gradLogPdf x j).sum / (s0.locs.length : K)) ∧
    (adaptive = true → adaptiveBim h1 b0 = .ok (currentBim h1 b0)) ∧
    ∀ ops a, a < fresh → (bRun cfg env ops h1 b0).1 a = h0 a := by
  unfold bConstruct at hc
  by_cases hdiff : env.differentiable = true
  · rw [if_pos hdiff] at hc
    simp only at hc
    cases adaptive with
    | true =>
      simp only [if_true, Except.ok.injEq, Prod.mk.injEq] at hc
      obtain ⟨rfl, rfl⟩ := hc
      refine ⟨by simp [currentBim, Heap.set, gradientBim, hl],
        fun _ => by simp [adaptiveBim, currentBim, Heap.set], ?_⟩
      intro ops a ha
      have hacc := bRun_accumulates cfg env ops
        ((h0.set fresh (gradientBim env s0.locs)).set (fresh + 1)
          ((h0.set fresh (gradientBim env s0.locs)) fresh))
        ⟨s0, fresh, some (fresh + 1), []⟩ (by simp)
      obtain ⟨-, -, -, -, -, -, -, q7⟩ := hacc
      rw [q7 a (by simp; omega) (by simp; omega)]
      have h1 : a ≠ fresh := by omega
      have h2 : a ≠ fresh + 1 := by omega
      simp [Heap.set, h1, h2]
    | false =>
      simp only [Bool.false_eq_true, if_false, Except.ok.injEq, Prod.mk.injEq] at hc
      obtain ⟨rfl, rfl⟩ := hc
      refine ⟨by simp [currentBim, Heap.set, gradientBim, hl], by simp, ?_⟩
      intro ops a ha
      have hacc := bRun_accumulates cfg env ops (h0.set fresh (gradientBim env s0.locs))
        ⟨s0, fresh, none, []⟩ (by simp)
      obtain ⟨-, -, -, -, -, -, -, q7⟩ := hacc
      rw [q7 a (by simp; omega) (by simp)]
      have h1 : a ≠ fresh := by omega
      simp [Heap.set, h1]
  · rw [if_neg hdiff] at hc; cases hc

/-- **C51, the caller's array is written.**  Constructed with the caller's array at address `a`, the
updater accumulates into that very array: its contents are `current_bim` after every history.  A
second updater built from the same array starts from, and adds to, what the first one accumulated. -/
theorem C51_initial_array_shared (cfg : SmcConfig K) (env : BEnv d K O E ω) (h0 h1 h2 : Heap d K)
    (s0 s1 : Smc K O ω) (a fresh fresh' : Nat) (hf : a < fresh) (hf' : a < fresh')
    (adaptive adaptive' : Bool) (b0 b1 : Bcrb K O E ω) (ops ops' : List (Op O E))
    (hc : bConstruct env h0 s0 (some a) adaptive fresh = .ok (h1, b0))
    (hc' : bConstruct env (bRun cfg env ops h1 b0).1 s1 (some a) adaptive' fresh' = .ok (h2, b1)) :
    let first := bRun cfg env ops h1 b0
    let second := bRun cfg env ops' h2 b1
    first.1 a = currentBim first.1 first.2 ∧
    currentBim h2 b1 = currentBim first.1 first.2 ∧
    second.1 a = currentBim second.1 first.2 ∧ second.1 a = currentBim second.1 second.2 := by
  intro first second
  have key : ∀ (h0 h1 : Heap d K) (s0 : Smc K O ω) (fresh : Nat) (adaptive : Bool)
      (b0 : Bcrb K O E ω), a < fresh →
      bConstruct env h0 s0 (some a) adaptive fresh = .ok (h1, b0) →
      b0.cur = a ∧ b0.adapt ≠ some b0.cur ∧ h1 a = h0 a := by
    intro h0 h1 s0 fresh adaptive b0 hf hc
    unfold bConstruct at hc
    by_cases hdiff : env.differentiable = true
    · rw [if_pos hdiff] at hc
      simp only at hc
      cases adaptive with
      | true =>
        simp only [if_true, Except.ok.injEq, Prod.mk.injEq] at hc
        obtain ⟨rfl, rfl⟩ := hc
        refine ⟨rfl, by simp; omega, ?_⟩
        have : a ≠ fresh + 1 := by omega
        simp [Heap.set, this]
      | false =>
        simp only [Bool.false_eq_true, if_false, Except.ok.injEq, Prod.mk.injEq] at hc
        obtain ⟨rfl, rfl⟩ := hc
        exact ⟨rfl, by simp, rfl⟩
    · rw [if_neg hdiff] at hc; cases hc
  obtain ⟨p1, p2, p3⟩ := key _ _ _ _ _ _ hf hc
  obtain ⟨q1, q2, q3⟩ := key _ _ _ _ _ _ hf' hc'
  have a1 := bRun_accumulates cfg env ops h1 b0 p2
  have a2 := bRun_accumulates cfg env ops' h2 b1 q2
  have e1 : first.2.cur = a := a1.1.trans p1
  have e2 : second.2.cur = a := a2.1.trans q1
  refine ⟨by rw [currentBim, e1], ?_, by rw [currentBim, e1], by rw [currentBim, e2]⟩
  rw [currentBim, currentBim, q1, e1, q3]

/-- **C51, failed updates count too.**  The information of an experiment is added even if the update
then raises. -/
theorem C51_failed_update_counts (cfg : SmcConfig K) (env : BEnv d K O E ω) (h : Heap d K)
    (b : Bcrb K O E ω) (hsep : b.adapt ≠ some b.cur) (m : Mat d K) (hm : currentBim h b = some m)
    (hne : (env.prior b.smc.seed b.smc.locs.length).1 ≠ []) (o : O) (e : E) (check : Bool)
    (err : PyErr) (_hfail : (bUpdate cfg env h b o e check).2.2 = .error err) :
    currentBim (bUpdate cfg env h b o e check).1 (bUpdate cfg env h b o e check).2.1 =
      some (fun i j => m i j + priorInfo env (b.smc, e) i j) := by
  obtain ⟨q1, -, calls, q3, -, q5, -⟩ := bUpdate_accumulates cfg env h b hsep o e check
  have hcalls : calls = [(b.smc, e)] := by
    have : (bUpdate cfg env h b o e check).2.1.log = b.log ++ [(b.smc, e)] := rfl
    rw [this] at q3
    exact (List.append_cancel_left q3).symm
  rw [currentBim, q1, q5, hcalls]
  rw [currentBim] at hm
  have hb : bimUniform env.fisher (priorDraw env b.smc).1 e = some (priorInfo env (b.smc, e)) := by
    rw [bimUniform, if_neg (show (priorDraw env b.smc).1 ≠ [] from hne)]; rfl
  simp only [List.foldl_cons, List.foldl_nil, hm, hb, matAdd]

/-- **C51, updating.**  Apart from the tracked matrices an update is that of `SMCUpdater`, with the same
outcome, experiment and `check_for_resample`, on the same state after the random numbers of the prior
samples were drawn; the other calls change neither matrix. -/
theorem C51_update_is_inherited (cfg : SmcConfig K) (env : BEnv d K O E ω) (h : Heap d K)
    (b : Bcrb K O E ω) (o : O) (e : E) (check : Bool) :
    ((bUpdate cfg env h b o e check).2.1.smc, (bUpdate cfg env h b o e check).2.2) =
      update cfg env.toEnv { b.smc with seed := (env.prior b.smc.seed b.smc.locs.length).2 } o e
        check ∧
    (let r := bStep cfg env h b .resample;
      r.1 = h ∧ (r.2.1.smc, r.2.2) = resample cfg env.toEnv b.smc) ∧
    ∀ n only re, let r := bStep cfg env h b (.reset n only re);
      r.1 = h ∧ (r.2.1.smc, r.2.2) = reset cfg env.toEnv b.smc n only re :=
  ⟨rfl, ⟨rfl, rfl⟩, fun _ _ _ => ⟨rfl, rfl⟩⟩

/-- **C51, differentiability.**  Construction raises `ValueError` exactly if the model is not
differentiable. -/
theorem C51_requires_differentiable (env : BEnv d K O E ω) (h : Heap d K) (s : Smc K O ω)
    (ib : Option Nat) (adaptive : Bool) (fresh : Nat) :
    bConstruct env h s ib adaptive fresh = .error .valueError ↔ env.differentiable = false := by
  unfold bConstruct
  cases env.differentiable with
  | false => simp
  | true =>
    cases ib <;> cases adaptive <;> simp

/-- **C51, options.**  Of the keyword options of `SMCUpdater` only `model`, `prior`, `n_particles`,
`resampler` and `resample_thresh` take effect; the others, and any misspelled name, are dropped
without an error.  The one name that is passed on although the base class does not know it,
`resampler_a`, raises `TypeError`. -/
theorem C51_options {V : Type} (kw : List (String × V)) :
    (∀ name v, name ∈ smcParams → ((name, v) ∈ bcrbKwargs kw ↔ (name, v) ∈ kw ∧
      name ∈ ["model", "prior", "n_particles", "resampler", "resample_thresh"])) ∧
    (bindKwargs smcParams (bcrbKwargs kw) = .error .typeError ↔ ∃ v, ("resampler_a", v) ∈ kw) := by
  constructor
  · intro name v hname
    simp only [bcrbKwargs, List.mem_filter, decide_eq_true_eq]
    refine and_congr_right fun _ => ?_
    simp only [smcParams, List.mem_cons, List.not_mem_nil, or_false] at hname ⊢
    rcases hname with rfl | rfl | rfl | rfl | rfl | rfl | rfl | rfl | rfl | rfl | rfl <;> decide
  · unfold bindKwargs
    constructor
    · intro h
      split at h
      · cases h
      · rename_i hall
        rw [List.all_eq_true] at hall
        push Not at hall
        obtain ⟨⟨n, v⟩, hm, hn⟩ := hall
        simp only [bcrbKwargs, List.mem_filter, decide_eq_true_eq] at hm hn
        obtain ⟨hm, hw⟩ := hm
        simp only [List.mem_cons, List.not_mem_nil, or_false] at hw
        rcases hw with rfl | rfl | rfl | rfl | rfl | rfl
        · exact ⟨v, hm⟩
        all_goals simp [smcParams] at hn
    · rintro ⟨v, hv⟩
      rw [if_neg]
      intro hall
      rw [List.all_eq_true] at hall
      have := hall ("resampler_a", v) (by
        simp [bcrbKwargs, hv])
      simp [smcParams] at this

/-- States that differ only in the random stream, by `R`. -/
def Spec.SameBut (R : ω → ω → Prop) (s t : Smc K O ω) : Prop :=
  ∃ r, s = { t with seed := r } ∧ R r t.seed

/-- Time step and resampler draw from a part of the random stream, on which streams related by `R`
agree; sampling the prior leaves that part alone. -/
structure Spec.OwnStream (env : BEnv d K O E ω) (R : ω → ω → Prop) : Prop where
  timestep : ∀ r r' l e, R r r' → (env.timestep r l e).1 = (env.timestep r' l e).1 ∧
    R (env.timestep r l e).2 (env.timestep r' l e).2
  resampler : ∀ r r' w l, R r r' → (env.resampler r w l).1 = (env.resampler r' w l).1 ∧
    R (env.resampler r w l).2 (env.resampler r' w l).2
  prior : ∀ r r' n, R r r' → R (env.prior r n).2 r'

open Spec in
theorem resample_same (cfg : SmcConfig K) {env : BEnv d K O E ω} {R : ω → ω → Prop}
    (hR : OwnStream env R) {s t : Smc K O ω} (h : SameBut R s t) :
    (resample cfg env.toEnv s).2 = (resample cfg env.toEnv t).2 ∧
    SameBut R (resample cfg env.toEnv s).1 (resample cfg env.toEnv t).1 := by
  obtain ⟨r, rfl, hr⟩ := h
  have hm : markResampled { t with seed := r } = { markResampled t with seed := r } := by
    unfold markResampled
    dsimp only
    split <;> rfl
  have hs : (markResampled t).seed = t.seed := by
    unfold markResampled
    dsimp only
    split <;> rfl
  unfold resample
  rw [hm]
  rw [← hs] at hr
  generalize markResampled t = t at hr
  obtain ⟨h1, h2⟩ := hR.resampler r t.seed t.weights t.locs hr
  unfold runResampler
  dsimp only
  rcases ha : env.resampler r t.weights t.locs with ⟨x, r1⟩
  rcases hb : env.resampler t.seed t.weights t.locs with ⟨y, r2⟩
  rw [ha, hb] at h1 h2
  dsimp only at h1 h2
  subst h1
  cases x with
  | error err => exact ⟨rfl, _, rfl, h2⟩
  | ok q =>
    obtain ⟨w, l⟩ := q
    dsimp only
    refine ⟨rfl, r1, ?_, ?_⟩
    · cases env.clearCacheRaises <;> cases t.divergences <;> rfl
    · cases env.clearCacheRaises <;> cases t.divergences <;> exact h2

open Spec in
theorem maybeResample_same (cfg : SmcConfig K) {env : BEnv d K O E ω} {R : ω → ω → Prop}
    (hR : OwnStream env R) {s t : Smc K O ω} (h : SameBut R s t) :
    (maybeResample cfg env.toEnv s).2 = (maybeResample cfg env.toEnv t).2 ∧
    SameBut R (maybeResample cfg env.toEnv s).1 (maybeResample cfg env.toEnv t).1 := by
  obtain ⟨r, rfl, hr⟩ := h
  unfold maybeResample
  dsimp only
  by_cases h1 : nEss t.weights ≤ ((10 : K) : WithTop K)
  · simp only [if_pos h1, Smc.nParticles, Smc.warn]
    split
    · exact resample_same cfg hR ⟨r, rfl, hr⟩
    · exact ⟨rfl, r, rfl, hr⟩
  · simp only [if_neg h1, Smc.nParticles]
    split
    · exact resample_same cfg hR ⟨r, rfl, hr⟩
    · exact ⟨rfl, r, rfl, hr⟩

open Spec in
theorem finishUpdate_same (cfg : SmcConfig K) {env : BEnv d K O E ω} {R : ω → ω → Prop}
    (hR : OwnStream env R) {s t : Smc K O ω} (h : SameBut R s t) (w : List K) (norm : K) (e : E)
    (check : Bool) :
    (finishUpdate cfg env.toEnv s w norm e check).2 = (finishUpdate cfg env.toEnv t w norm e check).2 ∧
    SameBut R (finishUpdate cfg env.toEnv s w norm e check).1
      (finishUpdate cfg env.toEnv t w norm e check).1 := by
  obtain ⟨r, rfl, hr⟩ := h
  obtain ⟨h1, h2⟩ := hR.timestep r t.seed t.locs e hr
  unfold finishUpdate
  dsimp only
  cases assignInto t.weights w with
  | error err => exact ⟨rfl, r, rfl, hr⟩
  | ok w' =>
    have hsame : ∀ x r1 y r2, x = y → R r1 r2 → SameBut R
        (if nEss w' ≤ t.minNEss then
          { t with weights := w', normRecord := t.normRecord ++ [norm], locs := x, seed := r1, minNEss := nEss w' }
          else { t with weights := w', normRecord := t.normRecord ++ [norm], locs := x, seed := r1 })
        (if nEss w' ≤ t.minNEss then
          { t with weights := w', normRecord := t.normRecord ++ [norm], locs := y, seed := r2, minNEss := nEss w' }
          else { t with weights := w', normRecord := t.normRecord ++ [norm], locs := y, seed := r2 }) := by
      rintro x r1 y r2 rfl h2
      split <;> exact ⟨r1, rfl, h2⟩
    have hsame := hsame _ _ _ _ h1 h2
    cases check with
    | false => exact ⟨rfl, hsame⟩
    | true => exact maybeResample_same cfg hR hsame

open Spec in
theorem update_same (cfg : SmcConfig K) (hp : cfg.policy ≠ "reset") {env : BEnv d K O E ω}
    {R : ω → ω → Prop} (hR : OwnStream env R) {s t : Smc K O ω} (h : SameBut R s t) (o : O) (e : E)
    (check : Bool) :
    (update cfg env.toEnv s o e check).2 = (update cfg env.toEnv t o e check).2 ∧
    SameBut R (update cfg env.toEnv s o e check).1 (update cfg env.toEnv t o e check).1 := by
  have happly : ∀ {s t : Smc K O ω} (_ : SameBut R s t) (w : List K) (norm : K),
      (applyUpdate cfg env.toEnv s w norm e check).2 = (applyUpdate cfg env.toEnv t w norm e check).2 ∧
      SameBut R (applyUpdate cfg env.toEnv s w norm e check).1
        (applyUpdate cfg env.toEnv t w norm e check).1 := by
    intro s t h w norm
    have hf := finishUpdate_same cfg hR h w norm e check
    unfold applyUpdate
    split
    · split
      · exact hf
      · split
        · exact ⟨rfl, h⟩
        · split
          · refine finishUpdate_same cfg hR ?_ w norm e check
            obtain ⟨r, rfl, hr⟩ := h
            exact ⟨r, rfl, hr⟩
          · split
            · exact ⟨rfl, h⟩
            · exact ⟨rfl, h⟩
    · exact hf
  have hrec : SameBut R (recordDatum s o) (recordDatum t o) := by
    obtain ⟨r, rfl, hr⟩ := h
    exact ⟨r, rfl, hr⟩
  unfold update
  dsimp only
  generalize recordDatum s o = s at hrec
  generalize recordDatum t o = t at hrec
  have hw : s.weights = t.weights ∧ s.locs = t.locs := by
    obtain ⟨r, rfl, hr⟩ := hrec
    exact ⟨rfl, rfl⟩
  rw [hw.1, hw.2]
  cases hypCell env.toEnv t.weights t.locs o e with
  | error err => exact ⟨rfl, hrec⟩
  | ok q =>
    obtain ⟨w, L, norm⟩ := q
    dsimp only
    split
    · exact happly hrec w norm
    · refine happly ?_ _ norm
      obtain ⟨r, rfl, hr⟩ := hrec
      exact ⟨r, rfl, hr⟩

open Spec in
theorem bUpdate_same (cfg : SmcConfig K) (hp : cfg.policy ≠ "reset") {env : BEnv d K O E ω}
    {R : ω → ω → Prop} (hR : OwnStream env R) (h : Heap d K) (b : Bcrb K O E ω) {t : Smc K O ω}
    (hb : SameBut R b.smc t) (o : O) (e : E) (check : Bool) :
    (bUpdate cfg env h b o e check).2.2 = (update cfg env.toEnv t o e check).2 ∧
    SameBut R (bUpdate cfg env h b o e check).2.1.smc (update cfg env.toEnv t o e check).1 := by
  refine update_same cfg hp hR (s := { b.smc with seed := (priorDraw env b.smc).2 }) ?_ o e check
  obtain ⟨r, hq, hr⟩ := hb
  refine ⟨(priorDraw env b.smc).2, by rw [hq], ?_⟩
  have : b.smc.seed = r := by rw [hq]
  unfold priorDraw
  rw [this]
  exact hR.prior _ _ _ hr

open Spec in
theorem bBatchLoop_same (cfg : SmcConfig K) (hp : cfg.policy ≠ "reset") {env : BEnv d K O E ω}
    {R : ω → ω → Prop} (hR : OwnStream env R) (interval : Int) (ds : List (O × E)) (idx : Nat)
    (h : Heap d K) (b : Bcrb K O E ω) (t : Smc K O ω) (hb : SameBut R b.smc t) :
    (bBatchLoop cfg env interval idx ds h b).2.2 = (batchLoop cfg env.toEnv interval idx ds t).2 ∧
    SameBut R (bBatchLoop cfg env interval idx ds h b).2.1.smc
      (batchLoop cfg env.toEnv interval idx ds t).1 := by
  induction ds generalizing idx h b t with
  | nil => exact ⟨rfl, hb⟩
  | cons p ds ih =>
    obtain ⟨o, e⟩ := p
    have hu := bUpdate_same cfg hp hR h b hb o e false
    rw [bBatchLoop, batchLoop]
    rcases hr : bUpdate cfg env h b o e false with ⟨h', b', x⟩
    rcases hq : update cfg env.toEnv t o e false with ⟨t', y⟩
    rw [hr, hq] at hu
    dsimp only at hu
    obtain ⟨rfl, hs⟩ := hu
    cases x with
    | error err => exact ⟨rfl, hs⟩
    | ok _ =>
      dsimp only
      split
      · exact ⟨rfl, hs⟩
      · split
        · have hm := maybeResample_same cfg hR hs
          rcases ha : maybeResample cfg env.toEnv b'.smc with ⟨s, x⟩
          rcases hc : maybeResample cfg env.toEnv t' with ⟨t'', y⟩
          rw [ha, hc] at hm
          dsimp only at hm
          obtain ⟨rfl, hs'⟩ := hm
          cases x with
          | error err => exact ⟨rfl, hs'⟩
          | ok _ => exact ih _ _ _ _ hs'
        · exact ih _ _ _ _ hs

open Spec in
/-- **C51, same inference.**  Tracking information changes nothing but the consumption of random
numbers: if time step and resampler draw from a stream of their own, every history of updates, batches
and resampling (policy not `reset`) leads to the state to which it leads a plain `SMCUpdater`, and every
next call has the same result or exception. -/
theorem C51_same_inference (cfg : SmcConfig K) (hp : cfg.policy ≠ "reset") (env : BEnv d K O E ω)
    (R : ω → ω → Prop) (hR : OwnStream env R) (h : Heap d K) (b : Bcrb K O E ω) (t : Smc K O ω)
    (hb : SameBut R b.smc t) (ops : List (Op O E)) (hops : ∀ op ∈ ops, ∀ n only rw, op ≠ .reset n only rw) :
    SameBut R (bRun cfg env ops h b).2.smc (run cfg env.toEnv ops t) ∧
    ∀ op, (∀ n only rw, op ≠ .reset n only rw) →
      (bStep cfg env (bRun cfg env ops h b).1 (bRun cfg env ops h b).2 op).2.2 =
        (step cfg env.toEnv (run cfg env.toEnv ops t) op).2 := by
  have hstep : ∀ (h : Heap d K) (b : Bcrb K O E ω) (t : Smc K O ω), SameBut R b.smc t →
      ∀ op : Op O E, (∀ n only rw, op ≠ .reset n only rw) →
      (bStep cfg env h b op).2.2 = (step cfg env.toEnv t op).2 ∧
      SameBut R (bStep cfg env h b op).2.1.smc (step cfg env.toEnv t op).1 := by
    intro h b t hb op hop
    cases op with
    | update o e check => exact bUpdate_same cfg hp hR h b hb o e check
    | batch os es interval =>
      rw [bStep, step, batchUpdate]
      split
      · exact ⟨rfl, hb⟩
      · exact bBatchLoop_same cfg hp hR interval _ 0 h b t hb
    | resample => exact resample_same cfg hR hb
    | reset n only rw => exact absurd rfl (hop n only rw)
  induction ops generalizing h b t with
  | nil => exact ⟨hb, fun op hop => (hstep h b t hb op hop).1⟩
  | cons op ops ih =>
    exact ih _ _ _ (hstep h b t hb op (hops op (by simp))).2 fun op' hop => hops op' (by simp [hop])

/-! ### A concrete tracker -/

namespace Demo

/-- The coin with a made-up Fisher information `x + 1`. -/
def coinBEnv : BEnv 1 ℚ Nat Unit Nat where
  toEnv := coinEnv
  fisher x _ := fun _ _ => x.headD 0 + 1
  gradLogPdf x := fun _ => x.headD 0
  differentiable := true

/-- The caller's matrix, at address 0. -/
def heap0 : Heap 1 ℚ := fun a => if a = 0 then some (fun _ _ => 5) else none

/-- A history with an update, a resampling, a batch and a reset: number of calls logged, current
matrix, the caller's matrix, and the adaptive matrix. -/
def bcrbRun : Option (Nat × Option ℚ × Option ℚ × Option ℚ) :=
  match bConstruct coinBEnv heap0 fresh (some 0) true 1 with
  | .ok (h, b) =>
    let r := bRun cfg coinBEnv [.update 0 () true, .resample, .batch [1, 0] [(), ()] 1,
      .reset none none true] h b
    some (r.2.log.length, (currentBim r.1 r.2).map (fun m => m 0 0), (r.1 0).map (fun m => m 0 0),
      match adaptiveBim r.1 r.2 with
      | .ok v => v.map fun m => m 0 0
      | .error _ => none)
  | .error _ => none

/-- Case for C51: prior information 3/2 for each of three updates on top of 5. -/
example : bcrbRun = some (3, some (19/2), some (19/2), some (5 + 3/2 + 3/2 + 17/12)) := by
  decide +kernel

/-- Case for C51: prior and resampler each with a stream of their own. -/
def streamBEnv : BEnv 1 ℚ Nat Unit (Nat × Nat) where
  likelihood := coinEnv.likelihood
  timestep r l _ := (l.map fun x => x.map (· + (r.2 : ℚ) / 100), (r.1, r.2 + 1))
  canon l := l
  clearCacheRaises := false
  prior r n := (List.replicate n [(r.1 : ℚ)], (r.1 + 1, r.2))
  resampler r w l := (.ok (w, l.map fun x => x.map (· + (r.2 : ℚ))), (r.1, r.2 + 3))
  kl := coinEnv.kl
  fisher x _ := fun _ _ => x.headD 0 + 1
  gradLogPdf x := fun _ => x.headD 0
  differentiable := true

example : Spec.OwnStream streamBEnv fun r r' => r.2 = r'.2 where
  timestep r r' l e h := by simp [streamBEnv, h]
  resampler r r' w l h := by simp [streamBEnv, h]
  prior r r' n h := h

end Demo

end QInfer
