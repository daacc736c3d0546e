import Verif.Props.Resample
import Mathlib.Probability.Independence.Integration
import Mathlib.Probability.Independence.InfinitePi
import Mathlib.Probability.ConditionalProbability
import Mathlib.Probability.Distributions.Uniform

/-!
# C104: the law of postselected samples

`PostselectedDistribution.sample` draws again where a sample is invalid.  What it returns is distributed
as independent draws of the underlying distribution conditioned on being valid, whatever `maxiters` is;
`maxiters` only decides how often it raises instead.
-/

namespace QInfer

open MeasureTheory ProbabilityTheory
open scoped ENNReal

namespace Spec

/-- A source of independent draws from `π`: asked for `m` rows it returns `m` independent draws and a
state from which the next rows come, independent of these and distributed as the state before. -/
structure IidSource {ω ρ : Type*} [MeasurableSpace ω] [MeasurableSpace ρ] (P : Measure ω) (π : Measure ρ)
    (draw : ω → (m : ℕ) → Fin m → ρ) (next : ω → ℕ → ω) : Prop where
  meas_draw : ∀ m, Measurable fun s => draw s m
  meas_next : ∀ m, Measurable fun s => next s m
  law : ∀ m, P.map (fun s => (draw s m, next s m)) = (Measure.pi fun _ : Fin m => π).prod P

end Spec

variable {ω ρ : Type*} [MeasurableSpace ω] [MeasurableSpace ρ]

/-- The underlying `sample` that reads from a source of draws. -/
def sourceSample (draw : ω → (m : ℕ) → Fin m → ρ) (next : ω → ℕ → ω) (s : ω) (m : ℕ) : List ρ × ω :=
  (List.ofFn (draw s m), next s m)

/-- The runs of the loop on the open indices `idxs` that fill all of them, each with a value in its set. -/
def Hit (draw : ω → (m : ℕ) → Fin m → ρ) (next : ω → ℕ → ω) (valid : ρ → Bool) (A : ℕ → Set ρ) :
    ℕ → List ℕ → Set ω
  | 0, idxs => {_s | idxs = []}
  | fuel + 1, idxs =>
    if idxs = [] then Set.univ else
      {s | (∀ j : Fin idxs.length, valid (draw s idxs.length j) = true →
          draw s idxs.length j ∈ A idxs[j]) ∧
        next s idxs.length ∈ Hit draw next valid A fuel
          (select idxs (((List.ofFn (draw s idxs.length)).map valid).map not))}

theorem hit_iff (draw : ω → (m : ℕ) → Fin m → ρ) (next : ω → ℕ → ω) (valid : ρ → Bool) (A : ℕ → Set ρ)
    (fuel : ℕ) (samples : List (Option ρ)) (idxs : List ℕ) (hnd : idxs.Nodup)
    (hin : ∀ i ∈ idxs, i < samples.length) (s : ω) :
    s ∈ Hit draw next valid A fuel idxs ↔
      (postLoop (sourceSample draw next) valid fuel samples idxs s).2.1 = [] ∧
      ∀ i ∈ idxs, ∃ x ∈ A i,
        (postLoop (sourceSample draw next) valid fuel samples idxs s).1[i]? = some (some x) := by
  induction fuel generalizing samples idxs s with
  | zero =>
    simp only [Hit, postLoop, Set.mem_setOf_eq]
    constructor
    · rintro rfl; simp
    · exact fun h => h.1
  | succ fuel ih =>
    by_cases he : idxs = []
    · subst he; simp [Hit, postLoop]
    set rows := List.ofFn (draw s idxs.length) with hrows
    have hlen : rows.length = idxs.length := by simp [hrows]
    set open' := select idxs ((rows.map valid).map not) with hopen
    have hsub : open'.Sublist idxs := select_sublist _ _
    have hnd' := hnd.sublist hsub
    have hin' : ∀ i ∈ open', i < (assignAt samples idxs (rows.map some)).length := fun i hi => by
      rw [assignAt_length]; exact hin i (hsub.subset hi)
    have hloop : postLoop (sourceSample draw next) valid (fuel + 1) samples idxs s =
        postLoop (sourceSample draw next) valid fuel (assignAt samples idxs (rows.map some)) open'
          (next s idxs.length) := by
      rw [postLoop, if_neg he]; rfl
    rw [hloop, Hit, if_neg he]
    simp only [Set.mem_setOf_eq]
    rw [← hrows, ← hopen, ih _ _ hnd' hin']
    have hmem : ∀ j : Fin idxs.length, (idxs[j], draw s idxs.length j) ∈ idxs.zip rows := fun j => by
      rw [List.mem_iff_getElem]
      exact ⟨j, by simp [hlen], by simp [hrows]⟩
    have hnot : ∀ j : Fin idxs.length, idxs[j] ∈ open' ↔ valid (draw s idxs.length j) = false := fun j => by
      rw [hopen, mem_select, List.map_map, mem_zip_map]
      constructor
      · rintro ⟨y, hy, hv⟩
        have := zip_unique hnd hy (hmem j)
        subst this
        simpa using hv
      · intro hv
        exact ⟨_, hmem j, by simp [hv]⟩
    have hkept : ∀ j : Fin idxs.length, valid (draw s idxs.length j) = true →
        (postLoop (sourceSample draw next) valid fuel (assignAt samples idxs (rows.map some)) open'
          (next s idxs.length)).1[(idxs[j] : ℕ)]? = some (some (draw s idxs.length j)) := fun j hv => by
      have h1 := (C21_accepted_unchanged (sourceSample draw next) valid fuel
        (assignAt samples idxs (rows.map some)) open' (next s idxs.length) idxs[j]
        (by rw [hnot j, hv]; simp)).1
      rw [h1]
      have := assignAt_mem samples idxs (rows.map some) hnd hin (idxs[j], some (draw s idxs.length j))
        (mem_zip_map.2 ⟨_, hmem j, rfl⟩)
      exact this
    constructor
    · rintro ⟨h1, h2, h3⟩
      refine ⟨h2, fun i hi => ?_⟩
      obtain ⟨j, hj, rfl⟩ := List.getElem_of_mem hi
      by_cases hv : valid (draw s idxs.length ⟨j, hj⟩) = true
      · exact ⟨_, h1 ⟨j, hj⟩ hv, hkept ⟨j, hj⟩ hv⟩
      · exact h3 _ ((hnot ⟨j, hj⟩).2 (by simpa using hv))
    · rintro ⟨h2, h3⟩
      refine ⟨fun j hv => ?_, h2, fun i hi => h3 i (hsub.subset hi)⟩
      obtain ⟨x, hx, he⟩ := h3 idxs[j] (List.getElem_mem _)
      rw [hkept j hv] at he
      simp only [Option.some.injEq] at he
      exact he ▸ hx

/-- The probability of filling an index within `m` rounds with a valid value in `B`. -/
noncomputable def fillProb (π : Measure ρ) (V : Set ρ) (m : ℕ) (B : Set ρ) : ℝ≥0∞ :=
  π (B ∩ V) * ∑ j ∈ Finset.range m, π Vᶜ ^ j

theorem fillProb_succ (π : Measure ρ) (V : Set ρ) (m : ℕ) (B : Set ρ) :
    fillProb π V (m + 1) B = π (B ∩ V) + π Vᶜ * fillProb π V m B := by
  unfold fillProb
  rw [Finset.sum_range_succ', mul_add, Finset.mul_sum, Finset.mul_sum, Finset.mul_sum, pow_zero, mul_one,
    add_comm]
  congr 1
  refine Finset.sum_congr rfl fun j _ => ?_
  rw [pow_succ]; ring

/-- The product over the open indices after a round. -/
theorem prod_select (c : ℕ → ℝ≥0∞) (valid : ρ → Bool) (idxs : List ℕ) (r : Fin idxs.length → ρ) :
    ((select idxs (((List.ofFn r).map valid).map not)).map c).prod =
      ∏ j : Fin idxs.length, if valid (r j) = true then 1 else c idxs[j] := by
  induction idxs with
  | nil => simp [select]
  | cons i idxs ih =>
    have h1 : List.ofFn r = r 0 :: List.ofFn fun j : Fin idxs.length => r j.succ := List.ofFn_succ
    rw [h1, List.map_cons, List.map_cons, select_cons]
    have h2 := ih fun j => r j.succ
    have h4 : (∏ j : Fin (i :: idxs).length, if valid (r j) = true then (1 : ℝ≥0∞) else c (i :: idxs)[j]) =
        (if valid (r 0) = true then 1 else c i) * ∏ j : Fin idxs.length,
          if valid (r j.succ) = true then (1 : ℝ≥0∞) else c (i :: idxs)[(j.succ : Fin (idxs.length + 1))] :=
      Fin.prod_univ_succ (n := idxs.length) _
    rw [h4]
    have h3 : (∏ j : Fin idxs.length, if valid (r j.succ) = true then (1 : ℝ≥0∞)
        else c (i :: idxs)[(j.succ : Fin (idxs.length + 1))]) =
        ∏ j : Fin idxs.length, if valid (r j.succ) = true then 1 else c idxs[j] := rfl
    rw [h3, ← h2]
    cases hv : valid (r 0) <;> simp

theorem measurableSet_hit {draw : ω → (m : ℕ) → Fin m → ρ} {next : ω → ℕ → ω}
    (hd : ∀ m, Measurable fun s => draw s m) (hn : ∀ m, Measurable fun s => next s m)
    (valid : ρ → Bool) (hV : MeasurableSet {x | valid x = true}) (A : ℕ → Set ρ)
    (hA : ∀ i, MeasurableSet (A i)) (fuel : ℕ) (idxs : List ℕ) :
    MeasurableSet (Hit draw next valid A fuel idxs) ∧
    MeasurableSet {q : (Fin idxs.length → ρ) × ω |
      (∀ j : Fin idxs.length, valid (q.1 j) = true → q.1 j ∈ A idxs[j]) ∧
        q.2 ∈ Hit draw next valid A fuel (select idxs (((List.ofFn q.1).map valid).map not))} := by
  have hvm : Measurable valid := by
    apply measurable_to_bool
    exact hV
  have step : ∀ fuel, (∀ idxs, MeasurableSet (Hit draw next valid A fuel idxs)) → ∀ idxs : List ℕ,
      MeasurableSet {q : (Fin idxs.length → ρ) × ω |
      (∀ j : Fin idxs.length, valid (q.1 j) = true → q.1 j ∈ A idxs[j]) ∧
        q.2 ∈ Hit draw next valid A fuel (select idxs (((List.ofFn q.1).map valid).map not))} := by
    intro fuel ih idxs
    have he : {q : (Fin idxs.length → ρ) × ω |
      (∀ j : Fin idxs.length, valid (q.1 j) = true → q.1 j ∈ A idxs[j]) ∧
        q.2 ∈ Hit draw next valid A fuel (select idxs (((List.ofFn q.1).map valid).map not))} =
      (⋂ j : Fin idxs.length, {q | valid (q.1 j) = true → q.1 j ∈ A idxs[j]}) ∩
      ⋃ b : Fin idxs.length → Bool, (⋂ j, {q | valid (q.1 j) = b j}) ∩
        {q | q.2 ∈ Hit draw next valid A fuel (select idxs ((List.ofFn b).map not))} := by
      ext q
      simp only [Set.mem_setOf_eq, Set.mem_inter_iff, Set.mem_iInter, Set.mem_iUnion, List.map_ofFn]
      refine and_congr_right fun _ => ?_
      constructor
      · exact fun h => ⟨fun j => valid (q.1 j), fun _ => rfl, h⟩
      · rintro ⟨b, hb, h⟩
        obtain rfl : b = fun j => valid (q.1 j) := funext fun j => (hb j).symm
        exact h
    rw [he]
    have hq : ∀ j : Fin idxs.length, Measurable fun q : (Fin idxs.length → ρ) × ω => q.1 j := fun j =>
      (measurable_pi_apply j).comp measurable_fst
    refine MeasurableSet.inter (MeasurableSet.iInter fun j => ?_)
      (MeasurableSet.iUnion fun b => MeasurableSet.inter (MeasurableSet.iInter fun j => ?_) ?_)
    · have : {q : (Fin idxs.length → ρ) × ω | valid (q.1 j) = true → q.1 j ∈ A idxs[j]} =
        (fun q : (Fin idxs.length → ρ) × ω => q.1 j) ⁻¹' ({x | valid x = true}ᶜ ∪ A idxs[j]) := by
        ext q; simp only [Set.mem_setOf_eq, Set.mem_preimage, Set.mem_union, Set.mem_compl_iff]; tauto
      rw [this]
      exact hq j (hV.compl.union (hA _))
    · exact (hvm.comp (hq j)) (measurableSet_singleton (b j))
    · exact measurable_snd (ih _)
  have hit : ∀ fuel idxs, MeasurableSet (Hit draw next valid A fuel idxs) := by
    intro fuel
    induction fuel with
    | zero => intro idxs; exact MeasurableSet.const _
    | succ fuel ih =>
      intro idxs
      rw [Hit]
      split
      · exact MeasurableSet.univ
      · exact ((hd _).prodMk (hn _)) (step fuel ih idxs)
  exact ⟨hit fuel idxs, step fuel (hit fuel) idxs⟩

theorem hit_prob {P : Measure ω} [IsProbabilityMeasure P] {π : Measure ρ} [IsProbabilityMeasure π]
    {draw : ω → (m : ℕ) → Fin m → ρ} {next : ω → ℕ → ω} (hs : Spec.IidSource P π draw next)
    (valid : ρ → Bool) (hV : MeasurableSet {x | valid x = true}) (A : ℕ → Set ρ)
    (hA : ∀ i, MeasurableSet (A i)) (fuel : ℕ) (idxs : List ℕ) :
    P (Hit draw next valid A fuel idxs) =
      (idxs.map fun i => fillProb π {x | valid x = true} fuel (A i)).prod := by
  induction fuel generalizing idxs with
  | zero =>
    cases idxs with
    | nil => simp [Hit]
    | cons i idxs => simp [Hit, fillProb]
  | succ fuel ih =>
    by_cases he : idxs = []
    · subst he; simp [Hit]
    set V : Set ρ := {x | valid x = true} with hVdef
    set c : ℕ → ℝ≥0∞ := fun i => fillProb π V fuel (A i) with hc
    have hm := (measurableSet_hit hs.meas_draw hs.meas_next valid hV A hA fuel idxs).2
    have h1 : P (Hit draw next valid A (fuel + 1) idxs) =
        ((Measure.pi fun _ : Fin idxs.length => π).prod P) {q : (Fin idxs.length → ρ) × ω |
          (∀ j : Fin idxs.length, valid (q.1 j) = true → q.1 j ∈ A idxs[j]) ∧
          q.2 ∈ Hit draw next valid A fuel (select idxs (((List.ofFn q.1).map valid).map not))} := by
      rw [← hs.law, Measure.map_apply ((hs.meas_draw _).prodMk (hs.meas_next _)) hm, Hit, if_neg he]
      rfl
    set h : Fin idxs.length → ρ → ℝ≥0∞ := fun j x =>
      if valid x = true then (A idxs[j]).indicator 1 x else c idxs[j] with hh
    have hmeas : ∀ j, Measurable (h j) := fun j =>
      Measurable.ite hV (measurable_one.indicator (hA _)) measurable_const
    rw [h1, Measure.prod_apply hm]
    have h2 : ∀ r : Fin idxs.length → ρ, P (Prod.mk r ⁻¹' {q : (Fin idxs.length → ρ) × ω |
          (∀ j : Fin idxs.length, valid (q.1 j) = true → q.1 j ∈ A idxs[j]) ∧
          q.2 ∈ Hit draw next valid A fuel (select idxs (((List.ofFn q.1).map valid).map not))}) =
        ∏ j, h j (r j) := by
      intro r
      by_cases hr : ∀ j : Fin idxs.length, valid (r j) = true → r j ∈ A idxs[j]
      · have : Prod.mk r ⁻¹' {q : (Fin idxs.length → ρ) × ω |
          (∀ j : Fin idxs.length, valid (q.1 j) = true → q.1 j ∈ A idxs[j]) ∧
          q.2 ∈ Hit draw next valid A fuel (select idxs (((List.ofFn q.1).map valid).map not))} =
          Hit draw next valid A fuel (select idxs (((List.ofFn r).map valid).map not)) := by
          ext s
          exact ⟨fun h => h.2, fun h => ⟨hr, h⟩⟩
        rw [this, ih, prod_select]
        refine Finset.prod_congr rfl fun j _ => ?_
        simp only [hh]
        by_cases hv : valid (r j) = true
        · rw [if_pos hv, if_pos hv, Set.indicator_of_mem (hr j hv)]; rfl
        · rw [if_neg hv, if_neg hv]
      · have : Prod.mk r ⁻¹' {q : (Fin idxs.length → ρ) × ω |
          (∀ j : Fin idxs.length, valid (q.1 j) = true → q.1 j ∈ A idxs[j]) ∧
          q.2 ∈ Hit draw next valid A fuel (select idxs (((List.ofFn q.1).map valid).map not))} = ∅ := by
          ext s
          exact ⟨fun h => hr h.1, fun h => h.elim⟩
        rw [this, measure_empty]
        push Not at hr
        obtain ⟨j, hv, hj⟩ := hr
        refine (Finset.prod_eq_zero (Finset.mem_univ j) ?_).symm
        simp only [hh]
        rw [if_pos hv, Set.indicator_of_notMem hj]
    simp only [h2]
    rw [lintegral_prod_eq_prod_lintegral_of_indepFun Finset.univ
      (fun (j : Fin idxs.length) (r : Fin idxs.length → ρ) => h j (r j))
      (iIndepFun_pi fun j => (hmeas j).aemeasurable) fun j => (hmeas j).comp (measurable_pi_apply j)]
    have h3 : ∀ j : Fin idxs.length, ∫⁻ r, h j (r j) ∂(Measure.pi fun _ : Fin idxs.length => π) =
        fillProb π V (fuel + 1) (A idxs[j]) := by
      intro j
      rw [(measurePreserving_eval (fun _ : Fin idxs.length => π) j).lintegral_comp (hmeas j),
        fillProb_succ]
      have : ∀ x, h j x = (A idxs[j] ∩ V).indicator 1 x + Vᶜ.indicator (fun _ => c idxs[j]) x := by
        intro x
        simp only [hh]
        by_cases hx : x ∈ V
        · rw [if_pos (show valid x = true from hx), Set.indicator_of_notMem (show x ∉ Vᶜ from fun h => h hx), add_zero]
          by_cases ha : x ∈ A idxs[j]
          · rw [Set.indicator_of_mem ha, Set.indicator_of_mem (show x ∈ A idxs[j] ∩ V from ⟨ha, hx⟩)]
          · rw [Set.indicator_of_notMem ha, Set.indicator_of_notMem fun h => ha h.1]
        · rw [if_neg (show ¬valid x = true from hx), Set.indicator_of_mem (show x ∈ Vᶜ from hx),
            Set.indicator_of_notMem fun h => hx h.2, zero_add]
      simp only [this]
      rw [lintegral_add_left (measurable_one.indicator ((hA _).inter hV)),
        lintegral_indicator_one ((hA _).inter hV), lintegral_indicator_const hV.compl, mul_comm (π Vᶜ)]
    simp only [h3]
    rw [← List.prod_ofFn]
    congr 1
    apply List.ext_getElem
    · simp
    · intro i h1 h2; simp

/-- The runs in which `sample(n)` returns, with row `i` in `A i` for every `i`. -/
def Returned (draw : ω → (m : ℕ) → Fin m → ρ) (next : ω → ℕ → ω) (valid : ρ → Bool) (maxiters n : ℕ)
    (A : Fin n → Set ρ) : Set ω :=
  {s | ∃ x : Fin n → ρ, (∀ i, x i ∈ A i) ∧
    (postSample (sourceSample draw next) valid maxiters n s).1 = .ok (List.ofFn fun i => some (x i))}

theorem returned_eq_hit (draw : ω → (m : ℕ) → Fin m → ρ) (next : ω → ℕ → ω) (valid : ρ → Bool)
    (maxiters n : ℕ) (A : Fin n → Set ρ) :
    Returned draw next valid maxiters n A =
      Hit draw next valid (fun i => if h : i < n then A ⟨i, h⟩ else Set.univ) maxiters (List.range n) := by
  ext s
  rw [hit_iff draw next valid _ maxiters (List.replicate n none) (List.range n) List.nodup_range
    (by simp) s]
  simp only [Returned, Set.mem_setOf_eq, postSample]
  have hlen : (postLoop (sourceSample draw next) valid maxiters (List.replicate n none) (List.range n) s).1.length = n := by
    have : ∀ (fuel : ℕ) (samples : List (Option ρ)) (idxs : List ℕ) (s : ω),
        (postLoop (sourceSample draw next) valid fuel samples idxs s).1.length = samples.length := by
      intro fuel
      induction fuel with
      | zero => intros; rfl
      | succ fuel ih =>
        intro samples idxs s
        rw [postLoop]
        split
        · rfl
        · rw [ih, assignAt_length]
    rw [this]; simp
  set R := postLoop (sourceSample draw next) valid maxiters (List.replicate n none) (List.range n) s
  constructor
  · rintro ⟨x, hx, h⟩
    split at h
    case isTrue h0 =>
      refine ⟨h0, fun i hi => ⟨x ⟨i, by simpa using hi⟩, ?_, ?_⟩⟩
      · have : i < n := by simpa using hi
        simp only [this, dif_pos]; exact hx _
      · have : R.1 = List.ofFn fun i => some (x i) := by simpa using h
        have hi' : i < n := by simpa using hi
        rw [this]; simp [hi']
    case isFalse => simp at h
  · rintro ⟨h0, h⟩
    have h' : ∀ i : Fin n, ∃ x ∈ A i, R.1[(i : ℕ)]? = some (some x) := fun i => by
      obtain ⟨x, hx, he⟩ := h i (by simp)
      refine ⟨x, ?_, he⟩
      simpa using hx
    choose x hx he using h'
    refine ⟨x, hx, ?_⟩
    rw [if_pos h0]
    simp only [Except.ok.injEq]
    apply List.ext_getElem?
    intro i
    by_cases hi : i < n
    · rw [he ⟨i, hi⟩]; simp [hi]
    · rw [List.getElem?_eq_none (by omega), List.getElem?_eq_none (by simp; omega)]

/-- The runs in which `sample(n)` returns an array in `S`. -/
def ReturnedIn (draw : ω → (m : ℕ) → Fin m → ρ) (next : ω → ℕ → ω) (valid : ρ → Bool) (maxiters n : ℕ)
    (S : Set (Fin n → ρ)) : Set ω :=
  {s | ∃ x ∈ S, (postSample (sourceSample draw next) valid maxiters n s).1 =
    .ok (List.ofFn fun i => some (x i))}

theorem returnedIn_pi (draw : ω → (m : ℕ) → Fin m → ρ) (next : ω → ℕ → ω) (valid : ρ → Bool)
    (maxiters n : ℕ) (A : Fin n → Set ρ) :
    ReturnedIn draw next valid maxiters n (Set.univ.pi A) = Returned draw next valid maxiters n A := by
  ext s
  simp [ReturnedIn, Returned]

theorem returnedIn_unique {draw : ω → (m : ℕ) → Fin m → ρ} {next : ω → ℕ → ω} {valid : ρ → Bool}
    {maxiters n : ℕ} {s : ω} {x y : Fin n → ρ}
    (hx : (postSample (sourceSample draw next) valid maxiters n s).1 = .ok (List.ofFn fun i => some (x i)))
    (hy : (postSample (sourceSample draw next) valid maxiters n s).1 = .ok (List.ofFn fun i => some (y i))) :
    x = y := by
  rw [hx] at hy
  have := List.ofFn_injective (Except.ok.inj hy)
  funext i
  exact Option.some.inj (congrFun this i)

theorem geom_fill (π : Measure ρ) [IsProbabilityMeasure π] (V : Set ρ) (hV : MeasurableSet V) (m : ℕ) :
    π V * ∑ j ∈ Finset.range m, π Vᶜ ^ j + π Vᶜ ^ m = 1 := by
  induction m with
  | zero => simp
  | succ m ih =>
    rw [Finset.sum_range_succ, mul_add, add_assoc, pow_succ', ← add_mul, measure_add_measure_compl hV,
      measure_univ, one_mul, ih]

section law

variable {P : Measure ω} [IsProbabilityMeasure P] {π : Measure ρ} [IsProbabilityMeasure π]
  {draw : ω → (m : ℕ) → Fin m → ρ} {next : ω → ℕ → ω}

theorem returned_prob (hs : Spec.IidSource P π draw next) (valid : ρ → Bool)
    (hV : MeasurableSet {x | valid x = true}) (maxiters n : ℕ) (A : Fin n → Set ρ)
    (hA : ∀ i, MeasurableSet (A i)) :
    MeasurableSet (Returned draw next valid maxiters n A) ∧
    P (Returned draw next valid maxiters n A) =
      ∏ i, fillProb π {x | valid x = true} maxiters (A i) := by
  have hA' : ∀ i : ℕ, MeasurableSet (if h : i < n then A ⟨i, h⟩ else Set.univ) := fun i => by
    split
    · exact hA _
    · exact MeasurableSet.univ
  rw [returned_eq_hit]
  refine ⟨(measurableSet_hit hs.meas_draw hs.meas_next valid hV _ hA' _ _).1, ?_⟩
  rw [hit_prob hs valid hV _ hA', ← List.prod_ofFn]
  congr 1
  apply List.ext_getElem
  · simp
  · intro i h1 h2
    have : i < n := by simpa using h1
    simp [this]

/-- **C104, raising.**  `sample(n)` raises `RuntimeError` unless every one of the `n` rows becomes valid
within `maxiters` draws: with probability `1 - (1 - q ^ maxiters) ^ n`, `q` the probability that a draw
is invalid. -/
theorem C104_raises (hs : Spec.IidSource P π draw next) (valid : ρ → Bool)
    (hV : MeasurableSet {x | valid x = true}) (maxiters n : ℕ) :
    P {s | (postSample (sourceSample draw next) valid maxiters n s).1 = .error .runtimeError} =
      1 - (1 - π {x | valid x = false} ^ maxiters) ^ n ∧
    P (ReturnedIn draw next valid maxiters n Set.univ) = (1 - π {x | valid x = false} ^ maxiters) ^ n := by
  have hc : {x | valid x = false} = {x | valid x = true}ᶜ := by ext x; simp
  have h1 := returned_prob hs valid hV maxiters n (fun _ => Set.univ) fun _ => MeasurableSet.univ
  rw [← returnedIn_pi, Set.pi_univ] at h1
  have h2 : P (ReturnedIn draw next valid maxiters n Set.univ) =
      (1 - π {x | valid x = false} ^ maxiters) ^ n := by
    rw [h1.2, Finset.prod_const, Finset.card_univ, Fintype.card_fin, hc]
    congr 1
    rw [fillProb, Set.univ_inter]
    exact ENNReal.eq_sub_of_add_eq (ENNReal.pow_ne_top (measure_ne_top π _)) (geom_fill π _ hV maxiters)
  refine ⟨?_, h2⟩
  have h3 : {s | (postSample (sourceSample draw next) valid maxiters n s).1 = .error .runtimeError} =
      (ReturnedIn draw next valid maxiters n Set.univ)ᶜ := by
    ext s
    simp only [Set.mem_setOf_eq, Set.mem_compl_iff, ReturnedIn, Set.mem_univ, true_and, not_exists]
    constructor
    · intro h x hx
      rw [h] at hx; cases hx
    · intro h
      cases hr : (postSample (sourceSample draw next) valid maxiters n s).1 with
      | error e =>
        have : ∀ e, (postSample (sourceSample draw next) valid maxiters n s).1 = .error e →
            e = .runtimeError := by
          intro e he
          simp only [postSample] at he
          split at he
          · cases he
          · exact (Except.error.inj he).symm
        rw [this e hr]
      | ok rows =>
        obtain ⟨xs, rfl, hxs, -⟩ := C21_samples_valid (sourceSample draw next) valid
          (fun r m => by simp [sourceSample]) maxiters n s rows hr
        subst hxs
        exact absurd (by rw [hr]; congr 1; apply List.ext_getElem <;> simp) (h fun i => xs[i])
  rw [h3, prob_compl_eq_one_sub h1.1, h2]

/-- **C104.**  Given that `sample(n)` returns, the array it returns is distributed as `n` independent
draws from the underlying distribution conditioned on being valid; this does not depend on `maxiters`. -/
theorem C104_law (hs : Spec.IidSource P π draw next) (valid : ρ → Bool)
    (hV : MeasurableSet {x | valid x = true}) (h0 : π {x | valid x = true} ≠ 0) (maxiters n : ℕ)
    (S : Set (Fin n → ρ)) (hS : MeasurableSet S) :
    P (ReturnedIn draw next valid maxiters n S) =
      P (ReturnedIn draw next valid maxiters n Set.univ) *
        (Measure.pi fun _ : Fin n => π[|{x | valid x = true}]) S := by
  have hprob : IsProbabilityMeasure (π[|{x | valid x = true}]) := cond_isProbabilityMeasure h0
  suffices h : MeasurableSet (ReturnedIn draw next valid maxiters n S) ∧
      P (ReturnedIn draw next valid maxiters n S) =
      P (ReturnedIn draw next valid maxiters n Set.univ) *
        (Measure.pi fun _ : Fin n => π[|{x | valid x = true}]) S from h.2
  have huniv := returned_prob hs valid hV maxiters n (fun _ => Set.univ) fun _ => MeasurableSet.univ
  rw [← returnedIn_pi, Set.pi_univ] at huniv
  have hsub : ∀ S T, S ⊆ T → ReturnedIn draw next valid maxiters n S ⊆
      ReturnedIn draw next valid maxiters n T := fun S T h s hs => by
    obtain ⟨x, hx, he⟩ := hs
    exact ⟨x, h hx, he⟩
  refine MeasurableSpace.induction_on_inter (C := fun S _ =>
    MeasurableSet (ReturnedIn draw next valid maxiters n S) ∧
      P (ReturnedIn draw next valid maxiters n S) =
      P (ReturnedIn draw next valid maxiters n Set.univ) *
        (Measure.pi fun _ : Fin n => π[|{x | valid x = true}]) S)
    generateFrom_pi.symm isPiSystem_pi ?_ ?_ ?_ ?_ S hS
  · show _ ∧ _
    have : ReturnedIn draw next valid maxiters n (∅ : Set (Fin n → ρ)) = ∅ := by
      ext s; simp [ReturnedIn]
    rw [this]; simp
  · intro t ht
    obtain ⟨A, hA, rfl⟩ := ht
    have hA' : ∀ i, MeasurableSet (A i) := fun i => hA i (Set.mem_univ i)
    have h1 := returned_prob hs valid hV maxiters n A hA'
    rw [returnedIn_pi]
    refine ⟨h1.1, ?_⟩
    rw [h1.2, huniv.2, Measure.pi_pi, ← Finset.prod_mul_distrib]
    refine Finset.prod_congr rfl fun i _ => ?_
    rw [fillProb, fillProb, Set.univ_inter, cond_apply hV, Set.inter_comm {x | valid x = true}]
    have : π {x | valid x = true} * (π {x | valid x = true})⁻¹ = 1 :=
      ENNReal.mul_inv_cancel h0 (measure_ne_top _ _)
    calc _ = (π {x | valid x = true} * (π {x | valid x = true})⁻¹) * (π (A i ∩ {x | valid x = true}) *
          ∑ j ∈ Finset.range maxiters, π {x | valid x = true}ᶜ ^ j) := by rw [this, one_mul]
      _ = _ := by ring
  · intro t ht ih
    have he : ReturnedIn draw next valid maxiters n tᶜ =
        ReturnedIn draw next valid maxiters n Set.univ \ ReturnedIn draw next valid maxiters n t := by
      ext s
      constructor
      · rintro ⟨x, hx, h⟩
        exact ⟨⟨x, trivial, h⟩, fun ⟨y, hy, h'⟩ => hx (returnedIn_unique h h' ▸ hy)⟩
      · rintro ⟨⟨x, -, h⟩, h'⟩
        exact ⟨x, fun hx => h' ⟨x, hx, h⟩, h⟩
    rw [he]
    refine ⟨huniv.1.diff ih.1, ?_⟩
    rw [measure_diff (hsub _ _ (Set.subset_univ _)) ih.1.nullMeasurableSet (measure_ne_top _ _), ih.2,
      prob_compl_eq_one_sub ht, ENNReal.mul_sub fun _ _ => measure_ne_top _ _, mul_one]
  · intro f hd hf ih
    have he : ReturnedIn draw next valid maxiters n (⋃ i, f i) =
        ⋃ i, ReturnedIn draw next valid maxiters n (f i) := by
      ext s
      simp only [ReturnedIn, Set.mem_setOf_eq, Set.mem_iUnion]
      constructor
      · rintro ⟨x, ⟨i, hi⟩, h⟩; exact ⟨i, x, hi, h⟩
      · rintro ⟨i, x, hi, h⟩; exact ⟨x, ⟨i, hi⟩, h⟩
    have hdis : Pairwise (Function.onFun Disjoint fun i => ReturnedIn draw next valid maxiters n (f i)) := by
      intro i j hij
      rw [Function.onFun, Set.disjoint_left]
      rintro s ⟨x, hx, h⟩ ⟨y, hy, h'⟩
      exact Set.disjoint_left.1 (hd hij) hx (returnedIn_unique h h' ▸ hy)
    rw [he]
    refine ⟨MeasurableSet.iUnion fun i => (ih i).1, ?_⟩
    rw [measure_iUnion hdis fun i => (ih i).1, measure_iUnion hd hf, ← ENNReal.tsum_mul_left]
    exact tsum_congr fun i => (ih i).2

end law

/-! ## A source of independent draws -/

/-- Reading a sequence of independent draws one after the other is a source of independent draws. -/
theorem C104_stream (π : Measure ρ) [IsProbabilityMeasure π] :
    Spec.IidSource (Measure.infinitePi fun _ : ℕ => π) π (fun v m (j : Fin m) => v j)
      (fun v m i => v (m + i)) where
  meas_draw m := by fun_prop
  meas_next m := by fun_prop
  law m := by
    set P := Measure.infinitePi fun _ : ℕ => π with hP
    let comb : (Fin m → ρ) × (ℕ → ρ) → ℕ → ρ := fun q i =>
      if h : i < m then q.1 ⟨i, h⟩ else q.2 (i - m)
    have hcomb : Measurable comb := by
      refine measurable_pi_lambda _ fun i => ?_
      by_cases h : i < m
      · simp only [comb, h, dif_pos]; fun_prop
      · simp only [comb, h, dif_neg, not_false_eq_true]; fun_prop
    have key : ((Measure.pi fun _ : Fin m => π).prod P).map comb = P := by
      refine Measure.eq_infinitePi (μ := fun _ : ℕ => π) fun s t ht => ?_
      have hst : MeasurableSet (Set.pi (s : Set ℕ) t) := MeasurableSet.pi s.countable_toSet fun i _ => ht i
      rw [Measure.map_apply hcomb hst]
      have he : comb ⁻¹' Set.pi (s : Set ℕ) t =
          (Set.univ.pi fun j : Fin m => if (j : ℕ) ∈ s then t j else Set.univ) ×ˢ
          (Set.pi ((s.filter fun i => m ≤ i).image fun i => i - m : Finset ℕ) fun i => t (m + i)) := by
        ext q
        simp only [Set.mem_preimage, Set.mem_pi, Finset.mem_coe, Set.mem_prod, Set.mem_univ, true_imp_iff,
          Finset.mem_image, Finset.mem_filter, comb]
        constructor
        · intro h
          refine ⟨fun j => ?_, ?_⟩
          · split
            · next hj => simpa using h j hj
            · trivial
          · rintro i ⟨k, ⟨hk, hmk⟩, rfl⟩
            have := h k hk
            rw [dif_neg (by omega)] at this
            rwa [show m + (k - m) = k by omega]
        · rintro ⟨h1, h2⟩ i hi
          split
          · next him =>
            have := h1 ⟨i, him⟩
            rwa [if_pos hi] at this
          · next him =>
            have := h2 (i - m) ⟨i, ⟨hi, by omega⟩, rfl⟩
            rwa [show m + (i - m) = i by omega] at this
      rw [he, Measure.prod_prod, Measure.pi_pi, hP, Measure.infinitePi_pi _ fun i _ => ht _]
      rw [Finset.prod_image (by
        intro a ha b hb hab
        simp only [Finset.coe_filter, Set.mem_ofPred_eq] at ha hb
        have : a - m = b - m := hab
        omega)]
      rw [← Finset.prod_filter_mul_prod_filter_not s (fun i => m ≤ i), mul_comm]
      congr 1
      · refine Finset.prod_congr rfl fun i hi => ?_
        rw [show m + (i - m) = i by have := (Finset.mem_filter.1 hi).2; omega]
      · have : ∀ j : Fin m, π (if (j : ℕ) ∈ s then t j else Set.univ) =
            if (j : ℕ) ∈ s then π (t j) else 1 := fun j => by split <;> simp
        simp only [this]
        rw [Fin.prod_univ_eq_prod_range (fun j => if j ∈ s then π (t j) else 1) m, ← Finset.prod_filter]
        refine Finset.prod_congr ?_ fun _ _ => rfl
        ext i
        simp only [Finset.mem_filter, Finset.mem_range]
        constructor
        · rintro ⟨a, b⟩; exact ⟨b, by omega⟩
        · rintro ⟨a, b⟩; exact ⟨by omega, a⟩
    conv_lhs => rw [← key]
    rw [Measure.map_map (by fun_prop) hcomb]
    have : (fun s : ℕ → ρ => ((fun j : Fin m => s j), fun i => s (m + i))) ∘ comb = id := by
      funext q
      refine Prod.ext ?_ ?_
      · funext j; simp [comb]
      · funext i
        simp only [Function.comp, comb, id]
        rw [dif_neg (by omega), Nat.add_sub_cancel_left]
    rw [this, Measure.map_id]

/-- Case for C104: draws from four equally likely values, one of them invalid.  With two rounds a row
fails with probability 1/16, so `sample(3)` returns with probability `(15/16)³`; the array `(0, 0, 0)` then
has probability `1/27`. -/
example :
    let π := (PMF.uniformOfFintype (Fin 4)).toMeasure
    let P := Measure.infinitePi fun _ : ℕ => π
    let ret := ReturnedIn (fun (v : ℕ → Fin 4) m (j : Fin m) => v j) (fun v m i => v (m + i))
      (fun x => decide (x ≠ 3)) 2 3
    P (ret Set.univ) = (1 - (4⁻¹ : ℝ≥0∞) ^ 2) ^ 3 ∧ P (ret {0}) = P (ret Set.univ) * (3⁻¹) ^ 3 := by
  intro π P ret
  have hf : π {x : Fin 4 | decide (x ≠ 3) = false} = 4⁻¹ := by
    rw [show {x : Fin 4 | decide (x ≠ 3) = false} = {3} by ext x; simp,
      PMF.toMeasure_apply_singleton _ _ (measurableSet_singleton _)]
    simp
  have ht : π {x : Fin 4 | decide (x ≠ 3) = true} = 3 * 4⁻¹ := by
    rw [PMF.toMeasure_uniformOfFintype_apply _ (MeasurableSet.of_discrete)]
    have : Fintype.card ↥{x : Fin 4 | decide (x ≠ 3) = true} = 3 := by
      simp; decide
    rw [this]
    simp [ENNReal.div_eq_inv_mul, mul_comm]
  have h0 : π {x : Fin 4 | decide (x ≠ 3) = true} ≠ 0 := by rw [ht]; simp
  refine ⟨?_, ?_⟩
  · rw [(C104_raises (C104_stream π) (fun x => decide (x ≠ 3)) MeasurableSet.of_discrete 2 3).2, hf]
  · have := C104_law (C104_stream π) (fun x => decide (x ≠ 3)) MeasurableSet.of_discrete h0 2 3 {0}
      (measurableSet_singleton _)
    rw [this]
    congr 1
    have hs : ({0} : Set (Fin 3 → Fin 4)) = Set.univ.pi fun _ => {0} := by
      rw [Set.univ_pi_singleton]; rfl
    have hp : IsProbabilityMeasure (π[|{x : Fin 4 | decide (x ≠ 3) = true}]) := cond_isProbabilityMeasure h0
    rw [hs, Measure.pi_pi, Finset.prod_const, Finset.card_univ, Fintype.card_fin,
      cond_apply MeasurableSet.of_discrete, ht]
    have h1 : {x : Fin 4 | decide (x ≠ 3) = true} ∩ {0} = {0} := by
      ext x; simp +contextual
    have h2 : π ({0} : Set (Fin 4)) = 4⁻¹ := by
      rw [PMF.toMeasure_apply_singleton _ _ (measurableSet_singleton _)]; simp
    rw [h1, h2, ENNReal.mul_inv (by simp) (by simp), inv_inv, mul_assoc, ENNReal.mul_inv_cancel (by simp) (by simp),
      mul_one]

end QInfer
