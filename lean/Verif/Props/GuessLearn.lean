import Verif.Props.OwnChoice
import Verif.Props.Heur
import Verif.Props.ResampleNoise

/-!
# C148: the particle guess heuristic finds the truth

`PGH` draws two particles from the updater and designs the experiment from them.  As long as two particles
keep weight it goes on choosing that pair, so it never stops at a cloud that still holds a wrong particle.
-/

namespace QInfer

open Spec Filter Topology MeasureTheory ProbabilityTheory Function

variable {Ω : Type*} {O E R : Type} [MeasurableSpace Ω] [MeasurableSpace O] [MeasurableSpace E]

section

variable [Fintype O] [Fintype E] [MeasurableSingletonClass O] [MeasurableSingletonClass E]
  {P : Measure Ω} [IsProbabilityMeasure P] {D : ℕ → Ω → O × E}

/-- An experiment whose chance given the data before stays away from zero is repeated for ever. -/
theorem chosen_often (hD : ∀ t, Measurable (D t)) (e : E) (p : ∀ t, (Fin t → O × E) → ℝ)
    (hp : ∀ t (h : Fin t → O × E), p t h * P.real {v | ∀ i : Fin t, D i v = h i} ≤
      P.real {v | (∀ i : Fin t, D i v = h i) ∧ (D t v).2 = e}) :
    ∀ᵐ v ∂P, (∃ c > 0, ∀ᶠ t in atTop, c ≤ p t fun i => D i v) → ∃ᶠ t in atTop, (D t v).2 = e := by
  classical
  have hs2 : ∀ t, MeasurableSet {v | (D t v).2 = e} := fun t =>
    (measurable_snd.comp (hD t)) (measurableSet_singleton e)
  have hpm : ∀ t (c : ℝ), MeasurableSet {v | c ≤ p t fun i => D i v} := fun t c =>
    measurableSet_le measurable_const
      ((measurable_of_finite (p t)).comp (measurable_pi_lambda _ fun i => hD i))
  -- one step
  have hstep : ∀ t (c : ℝ) (A : Set (Fin t → O × E)), (∀ h ∈ A, c ≤ p t h) →
      P.real {v | (fun i : Fin t => D i v) ∈ A ∧ (D t v).2 ≠ e} ≤
        (1 - c) * P.real {v | (fun i : Fin t => D i v) ∈ A} := by
    intro t c A hA
    have hsplit : ∀ B : Set Ω, MeasurableSet B → P.real ({v | (fun i : Fin t => D i v) ∈ A} ∩ B) =
        ∑ h ∈ Finset.univ.filter (· ∈ A), P.real ({v | ∀ i : Fin t, D i v = h i} ∩ B) := by
      intro B hB
      have hu : {v | (fun i : Fin t => D i v) ∈ A} ∩ B =
          ⋃ h ∈ (Finset.univ.filter fun h : Fin t → O × E => h ∈ A), {v | ∀ i : Fin t, D i v = h i} ∩ B := by
        ext v
        simp only [Set.mem_inter_iff, Finset.mem_filter, Finset.mem_univ, true_and, Set.mem_iUnion,
          Set.mem_ofPred_eq, exists_prop]
        constructor
        · exact fun hv => ⟨_, hv.1, fun i => rfl, hv.2⟩
        · rintro ⟨h, hA, hh, hB⟩
          exact ⟨by rwa [show (fun i : Fin t => D i v) = h from funext hh], hB⟩
      rw [hu, measureReal_biUnion_finset]
      · intro h _ h' _ hne
        refine Set.disjoint_left.2 fun v hv hv' => hne (funext fun i => ?_)
        exact (hv.1 i).symm.trans (hv'.1 i)
      · exact fun h _ => (hist_meas hD t h).inter hB
    have e1 : {v | (fun i : Fin t => D i v) ∈ A ∧ (D t v).2 ≠ e} =
        {v | (fun i : Fin t => D i v) ∈ A} ∩ {v | (D t v).2 = e}ᶜ := by ext v; rfl
    have e2 : {v | (fun i : Fin t => D i v) ∈ A} = {v | (fun i : Fin t => D i v) ∈ A} ∩ Set.univ := by simp
    rw [e1, hsplit _ (hs2 t).compl]
    conv_rhs => rw [e2, hsplit _ MeasurableSet.univ, Finset.mul_sum]
    refine Finset.sum_le_sum fun h hh => ?_
    have hA' := hA h (Finset.mem_filter.1 hh).2
    have h1 := measureReal_inter_add_diff (μ := P) (s := {v | ∀ i : Fin t, D i v = h i}) (hs2 t)
    have h2 := hp t h
    rw [Set.ofPred_and] at h2
    rw [Set.inter_univ, ← Set.diff_eq]
    have h3 : c * P.real {v | ∀ i : Fin t, D i v = h i} ≤ p t h * P.real {v | ∀ i : Fin t, D i v = h i} :=
      mul_le_mul_of_nonneg_right hA' measureReal_nonneg
    linarith
  have hnull : ∀ (k T : ℕ), P {v | ∀ t, T ≤ t → 1 / ((k : ℝ) + 1) ≤ (p t fun i => D i v) ∧ (D t v).2 ≠ e} = 0 := by
    intro k T
    obtain ⟨c, hc⟩ : ∃ c : ℝ, c = 1 / ((k : ℝ) + 1) := ⟨_, rfl⟩
    rw [← hc]
    have hc0 : 0 < c := by rw [hc]; positivity
    have hc1 : c ≤ 1 := by
      rw [hc, div_le_one (by positivity)]; linarith [(Nat.cast_nonneg k : (0 : ℝ) ≤ k)]
    have hdec : ∀ m, P.real {v | ∀ t, T ≤ t → t < T + m → c ≤ (p t fun i => D i v) ∧ (D t v).2 ≠ e} ≤
        (1 - c) ^ m := by
      intro m
      induction m with
      | zero => simpa using measureReal_le_one
      | succ m ih =>
        have hsub : {v | ∀ t, T ≤ t → t < T + (m + 1) → c ≤ (p t fun i => D i v) ∧ (D t v).2 ≠ e} ⊆
            {v | (fun i : Fin (T + m) => D i v) ∈ {h : Fin (T + m) → O × E | c ≤ p (T + m) h ∧
              ∀ t, T ≤ t → ∀ ht : t < T + m, c ≤ (p t fun i => h ⟨i, i.2.trans ht⟩) ∧ (h ⟨t, ht⟩).2 ≠ e} ∧
                (D (T + m) v).2 ≠ e} := by
          intro v hv
          refine ⟨⟨(hv (T + m) (by omega) (by omega)).1, fun t h1 h2 => hv t h1 (by omega)⟩,
            (hv (T + m) (by omega) (by omega)).2⟩
        have hsub2 : {v | (fun i : Fin (T + m) => D i v) ∈ {h : Fin (T + m) → O × E | c ≤ p (T + m) h ∧
              ∀ t, T ≤ t → ∀ ht : t < T + m, c ≤ (p t fun i => h ⟨i, i.2.trans ht⟩) ∧ (h ⟨t, ht⟩).2 ≠ e}} ⊆
            {v | ∀ t, T ≤ t → t < T + m → c ≤ (p t fun i => D i v) ∧ (D t v).2 ≠ e} :=
          fun v hv t h1 h2 => hv.2 t h1 h2
        calc _ ≤ _ := measureReal_mono hsub
          _ ≤ _ := hstep (T + m) c _ fun h hh => hh.1
          _ ≤ (1 - c) * (1 - c) ^ m :=
            mul_le_mul_of_nonneg_left ((measureReal_mono hsub2).trans ih) (by linarith)
          _ = _ := by ring
    have h0 : P.real {v | ∀ t, T ≤ t → c ≤ (p t fun i => D i v) ∧ (D t v).2 ≠ e} ≤ 0 := by
      refine ge_of_tendsto' (tendsto_pow_atTop_nhds_zero_of_lt_one (by linarith : (0:ℝ) ≤ 1 - c) (by linarith))
        fun m => ?_
      have hsub : {v | ∀ t, T ≤ t → c ≤ (p t fun i => D i v) ∧ (D t v).2 ≠ e} ⊆
          {v | ∀ t, T ≤ t → t < T + m → c ≤ (p t fun i => D i v) ∧ (D t v).2 ≠ e} :=
        fun v hv t h1 _ => hv t h1
      exact (measureReal_mono hsub).trans (hdec m)
    exact (measureReal_eq_zero_iff).1 (le_antisymm h0 measureReal_nonneg)
  have hall : ∀ᵐ v ∂P, ∀ k T : ℕ,
      ¬∀ t, T ≤ t → 1 / ((k : ℝ) + 1) ≤ (p t fun i => D i v) ∧ (D t v).2 ≠ e := by
    rw [ae_all_iff]
    intro k
    rw [ae_all_iff]
    intro T
    rw [ae_iff]
    simpa only [not_not] using hnull k T
  filter_upwards [hall] with v hv ⟨c, hc, hev⟩
  by_contra hno
  rw [not_frequently] at hno
  obtain ⟨k, hk⟩ := exists_nat_one_div_lt hc
  obtain ⟨T, hT⟩ := eventually_atTop.1 (hev.and hno)
  exact hv k T fun t ht => ⟨hk.le.trans (hT t ht).1, (hT t ht).2⟩

end

section

variable [Fintype O] [Fintype E] [MeasurableSingletonClass O] [MeasurableSingletonClass E]
  {P : Measure Ω} [IsProbabilityMeasure P] {D : ℕ → Ω → O × E}
  {n : ℕ} {cfg : SmcConfig ℝ} {env : Env ℝ O E R} {check : Bool} {w : Fin n → ℝ}
  {x : Fin n → List ℝ} {s : Smc ℝ O R}

/-- **C148, pairs.**  Suppose that for every other particle `j` there is an experiment that tells `j` from
the truth and is chosen with a chance of at least a fixed multiple of the product of the two weights.  Then
with probability one the weight of the truth tends to one and every estimated mean to its true value. -/
theorem C148_pairs (h : Resting cfg env check w x s) (i : Fin n) (hwi : 0 < w i)
    (hD : AdaptiveData P env.likelihood (x i) D) (hone : ∀ k e, ∑ o, env.likelihood o (x k) e = 1)
    (κ : ℝ) (hκ : 0 < κ) (pair : Fin n → E)
    (htell : ∀ j, j ≠ i → ∃ o, env.likelihood o (x j) (pair j) ≠ env.likelihood o (x i) (pair j))
    (hpair : ∀ t (d : Fin t → O × E) (j : Fin n), j ≠ i → (feed cfg env check (List.ofFn d) s).2 = .ok () →
      κ * ((feed cfg env check (List.ofFn d) s).1.weights.getD j 0 *
          (feed cfg env check (List.ofFn d) s).1.weights.getD i 0) * P.real {v | ∀ r : Fin t, D r v = d r} ≤
        P.real {v | (∀ r : Fin t, D r v = d r) ∧ (D t v).2 = pair j}) :
    ∀ᵐ v ∂P, (∀ t, (feed cfg env check (firstData D t v) s).2 = .ok ()) →
      Tendsto (fun t => (feed cfg env check (firstData D t v) s).1.weights.getD i 0) atTop (𝓝 1) ∧
        ∀ f : List ℝ → ℝ, Tendsto (fun t => cloudMean f (feed cfg env check (firstData D t v) s).1) atTop
          (𝓝 (f (x i))) := by
  classical
  have hoften : ∀ᵐ v ∂P, ∀ j, j ≠ i → (∃ c > 0, ∀ᶠ t in atTop, c ≤
      if (feed cfg env check (List.ofFn fun r : Fin t => D r v) s).2 = .ok () then
        κ * ((feed cfg env check (List.ofFn fun r : Fin t => D r v) s).1.weights.getD j 0 *
          (feed cfg env check (List.ofFn fun r : Fin t => D r v) s).1.weights.getD i 0) else 0) →
        ∃ᶠ t in atTop, (D t v).2 = pair j := by
    rw [ae_all_iff]
    intro j
    by_cases hj : j = i
    · exact ae_of_all _ fun v hji => absurd hj hji
    · filter_upwards [chosen_often hD.meas (pair j) (fun t d =>
        if (feed cfg env check (List.ofFn d) s).2 = .ok () then
          κ * ((feed cfg env check (List.ofFn d) s).1.weights.getD j 0 *
            (feed cfg env check (List.ofFn d) s).1.weights.getD i 0) else 0) (fun t d => by
          by_cases hok : (feed cfg env check (List.ofFn d) s).2 = .ok ()
          · rw [if_pos hok]; exact hpair t d j hj hok
          · rw [if_neg hok, zero_mul]; exact measureReal_nonneg)] with v hv _ using hv
  filter_upwards [C147_limits h i hwi hD hone, hoften] with v hv hof hok
  obtain ⟨W, hWi, hsum, hw, hne, hf⟩ := hv hok
  have hW0 : ∀ l, 0 ≤ W l := fun l => by
    refine ge_of_tendsto' (hw l) fun t => ?_
    rw [(h.weight D t v (hok t)).1]
    simp only [List.getD_eq_getElem?_getD, List.getElem?_ofFn, Fin.is_lt, dite_true, Option.getD_some]
    exact div_nonneg (mul_nonneg (h.nonneg _) (Finset.prod_nonneg fun r _ => h.good.like_nonneg _ _ _))
      (Finset.sum_nonneg fun k _ => mul_nonneg (h.nonneg _)
        (Finset.prod_nonneg fun r _ => h.good.like_nonneg _ _ _))
  have h0 : ∀ j, j ≠ i → W j = 0 := fun j hj => by
    by_contra hW
    have hWj : 0 < W j := lt_of_le_of_ne (hW0 j) (Ne.symm hW)
    have hlim := ((hw j).mul (hw i)).const_mul κ
    have hpos : 0 < κ * (W j * W i) := mul_pos hκ (mul_pos hWj hWi)
    have hinf := hof j hj ⟨κ * (W j * W i) / 2, by positivity, by
      filter_upwards [hlim.eventually (lt_mem_nhds (by linarith : κ * (W j * W i) / 2 < κ * (W j * W i)))]
        with t ht
      have hok' := hok t
      rw [firstData] at hok' ht
      rw [if_pos hok']
      exact ht.le⟩
    obtain ⟨o, ho⟩ := htell j hj
    exact ho (hne j hW (pair j) hinf o)
  have hi : W i = 1 := by
    rw [← hsum, Finset.sum_eq_single i (fun j _ hj => h0 j hj) (by simp)]
  refine ⟨hi ▸ hw i, fun f => ?_⟩
  have := hf f
  rwa [Finset.sum_eq_single i (fun j _ hj => by rw [h0 j hj, zero_mul]) (by simp), hi, one_mul] at this

end

/-! ### PGH -/

section

variable {V F : Type} [DecidableEq F] {n : ℕ}

/-- Two uniform variates for every attempt. -/
noncomputable def Spec.attempts : Measure (ℕ → ℝ × ℝ) :=
  Measure.infinitePi fun _ : ℕ => (volume.restrict (Set.Ico (0 : ℝ) 1)).prod (volume.restrict (Set.Ico (0 : ℝ) 1))

instance ico_prob : IsProbabilityMeasure (volume.restrict (Set.Ico (0 : ℝ) 1)) := ⟨by simp⟩

instance : IsProbabilityMeasure attempts := by unfold attempts; infer_instance

open Classical in
/-- The experiment that `PGH` returns, among experiments with records `record`; another one if it raises. -/
noncomputable def Spec.guess (p : Pgh ℝ V F) (Q : List ℝ) (junk : F → V) (record : E → F → V) (fallback : E)
    (s : Smc ℝ O R) (us : ℕ → ℝ × ℝ) : E :=
  match pghCall p Q s.weights s.locs us junk with
  | .ok r => if h : ∃ e, record e = r then h.choose else fallback
  | .error _ => fallback

theorem sampleIdx_measurable (w : List ℝ) : Measurable (sampleIdx w) := by
  apply Monotone.measurable
  intro u v h
  exact sampleIdx_mono _ h

theorem pghLoop_succ (Q w : List ℝ) (locs : List (List ℝ)) (us : ℕ → ℝ × ℝ) (m k : ℕ)
    (last : Option (List ℝ × List ℝ)) : pghLoop Q w locs us (m + 1) k last =
      match locs[sampleIdx w (us k).1]?, locs[sampleIdx w (us k).2]? with
      | some a, some b => if 0 < modelDistance Q a b then .ok (some (a, b)) else
          pghLoop Q w locs us m (k + 1) (some (a, b))
      | _, _ => .error .indexError := by
  rw [pghLoop]
  simp only [particleSample, List.mapM_cons, List.mapM_nil]
  rcases locs[sampleIdx w (us k).1]? with _ | a
  · rfl
  · rcases locs[sampleIdx w (us k).2]? with _ | b
    · rfl
    · rfl

theorem pghLoop_measurable (Q w : List ℝ) (locs : List (List ℝ)) (m k : ℕ) (last : Option (List ℝ × List ℝ)) :
    Measurable[_, ⊤] fun us : ℕ → ℝ × ℝ => pghLoop Q w locs us m k last := by
  induction m generalizing k last with
  | zero => simp only [pghLoop]; exact @measurable_const _ _ ⊤ _ _
  | succ m ih =>
    let _ : MeasurableSpace (Except PyErr (Option (List ℝ × List ℝ))) := ⊤
    have hidx : Measurable fun us : ℕ → ℝ × ℝ => (sampleIdx w (us k).1, sampleIdx w (us k).2) :=
      ((sampleIdx_measurable w).comp (measurable_fst.comp (measurable_pi_apply k))).prodMk
        ((sampleIdx_measurable w).comp (measurable_snd.comp (measurable_pi_apply k)))
    obtain ⟨g, hg⟩ : ∃ g : Option (List ℝ) → Option (List ℝ) → (ℕ → ℝ × ℝ) →
        Except PyErr (Option (List ℝ × List ℝ)), g = fun a b us => match a, b with
      | some a, some b => if 0 < modelDistance Q a b then .ok (some (a, b)) else
          pghLoop Q w locs us m (k + 1) (some (a, b))
      | _, _ => .error .indexError := ⟨_, rfl⟩
    have hgm : ∀ a b, Measurable (g a b) := by
      intro a b
      rw [hg]
      rcases a with _ | a
      · exact measurable_const
      · rcases b with _ | b
        · exact measurable_const
        · by_cases hd : 0 < modelDistance Q a b
          · simp only [if_pos hd]; exact measurable_const
          · simp only [if_neg hd]; exact ih _ _
    have hfun : Measurable fun q : (ℕ × ℕ) × (ℕ → ℝ × ℝ) => g locs[q.1.1]? locs[q.1.2]? q.2 :=
      measurable_from_prod_countable_right fun q => hgm locs[q.1]? locs[q.2]?
    have heq : (fun us : ℕ → ℝ × ℝ => pghLoop Q w locs us (m + 1) k last) =
        (fun q : (ℕ × ℕ) × (ℕ → ℝ × ℝ) => g locs[q.1.1]? locs[q.1.2]? q.2) ∘
          fun us => ((sampleIdx w (us k).1, sampleIdx w (us k).2), us) := by
      funext us
      rw [pghLoop_succ, hg]
      rfl
    rw [heq]
    exact hfun.comp (hidx.prodMk measurable_id)

theorem guess_measurable (p : Pgh ℝ V F) (Q : List ℝ) (junk : F → V) (record : E → F → V) (fallback : E)
    (s : Smc ℝ O R) : Measurable (guess p Q junk record fallback s) := by
  let _ : MeasurableSpace (Except PyErr (Option (List ℝ × List ℝ))) := ⊤
  have hfac : FactorsThrough (guess p Q junk record fallback s)
      fun us => pghLoop Q s.weights s.locs us p.maxiters.toNat 0 none := by
    intro us us' h
    have h' : pghLoop Q s.weights s.locs us p.maxiters.toNat 0 none =
      pghLoop Q s.weights s.locs us' p.maxiters.toNat 0 none := h
    simp only [guess, pghCall, h']
  rw [← (show extend (fun us => pghLoop Q s.weights s.locs us p.maxiters.toNat 0 none)
      (guess p Q junk record fallback s) (fun _ => fallback) ∘
        (fun us => pghLoop Q s.weights s.locs us p.maxiters.toNat 0 none) =
      guess p Q junk record fallback s from funext fun us => hfac.extend_apply _ us)]
  exact measurable_from_top.comp (pghLoop_measurable _ _ _ _ _ _)

omit [MeasurableSpace E] [MeasurableSpace O] in
/-- **C148, the chance of a pair.**  `PGH` chooses the experiment made from particles `j` and `k` with a
chance of at least the product of their weights. -/
theorem C148_chance (p : Pgh ℝ V F) (Q : List ℝ) (junk : F → V) (record : E → F → V)
    (hinj : Injective record) (fallback : E) (hm : 0 < p.maxiters)
    (hfields : p.invField ∈ p.fields ∧ p.tField ∈ p.fields ∧ ∀ q ∈ p.other, q.1 ∈ p.fields)
    (w : Fin n → ℝ) (hw : ∀ i, 0 ≤ w i) (hs : ∑ i, w i = 1) (x : Fin n → List ℝ) (s : Smc ℝ O R)
    (hws : s.weights = List.ofFn w) (hxs : s.locs = List.ofFn x) (j k : Fin n)
    (hd : 0 < modelDistance Q (x j) (x k)) (e : E)
    (he : record e = Spec.pghRecord p (modelDistance Q (x j) (x k)) (x j) junk) :
    w j * w k ≤ attempts.real {us | guess p Q junk record fallback s us = e} := by
  classical
  have hsub : {us : ℕ → ℝ × ℝ | us 0 ∈ {u | sampleIdx (List.ofFn w) u = j} ×ˢ {u | sampleIdx (List.ofFn w) u = k}} ⊆
      {us | guess p Q junk record fallback s us = e} := by
    intro us hus
    obtain ⟨h1, h2⟩ := hus
    have h1' : sampleIdx (List.ofFn w) (us 0).1 = j := h1
    have h2' : sampleIdx (List.ofFn w) (us 0).2 = k := h2
    obtain ⟨m, hmm⟩ : ∃ m, p.maxiters.toNat = m + 1 := ⟨p.maxiters.toNat - 1, by omega⟩
    have hsample : particleSample s.weights s.locs [(us 0).1, (us 0).2] = .ok [x j, x k] := by
      rw [hws, hxs]
      simp only [particleSample, List.mapM_cons, List.mapM_nil, h1', h2', List.getElem?_ofFn, Fin.is_lt, dite_true]
      rfl
    have hcall : pghCall p Q s.weights s.locs us junk = .ok (record e) := by
      rw [pghCall, hmm, pghLoop, hsample]
      dsimp only
      rw [if_pos hd]
      dsimp only
      rw [if_neg hd.ne', pghRecord_eq, setFields_ok, he]
      · rfl
      · intro q hq
        simp only [List.mem_cons] at hq
        rcases hq with rfl | rfl | hq
        · exact hfields.1
        · exact hfields.2.1
        · exact hfields.2.2 q hq
    show guess p Q junk record fallback s us = e
    have hex : ∃ e', record e' = record e := ⟨e, rfl⟩
    rw [guess, hcall]
    dsimp only
    rw [dif_pos hex]
    exact hinj hex.choose_spec
  refine le_trans (le_of_eq ?_) (measureReal_mono hsub)
  have hidx : ∀ j : Fin n, MeasurableSet {u | sampleIdx (List.ofFn w) u = j} := fun j =>
    sampleIdx_measurable _ (measurableSet_singleton _)
  have hlaw : ∀ j : Fin n, (volume.restrict (Set.Ico (0 : ℝ) 1)).real {u | sampleIdx (List.ofFn w) u = j} = w j := by
    intro j
    rw [measureReal_restrict_apply (hidx j), measureReal_def, Set.inter_comm]
    have := C105_parent_law w hw hs j
    rw [show Set.Ico (0 : ℝ) 1 ∩ {u | sampleIdx (List.ofFn w) u = j} =
      {u ∈ Set.Ico (0 : ℝ) 1 | sampleIdx (List.ofFn w) u = j} from rfl, this, ENNReal.toReal_ofReal (hw j)]
  have hmap := (measurePreserving_eval_infinitePi (fun _ : ℕ =>
    (volume.restrict (Set.Ico (0 : ℝ) 1)).prod (volume.restrict (Set.Ico (0 : ℝ) 1))) 0).measureReal_preimage
      ((hidx j).prod (hidx k)).nullMeasurableSet
  rw [measureReal_prod_prod, hlaw, hlaw] at hmap
  exact hmap.symm

end

section

variable [Fintype O] [Fintype E] [MeasurableSingletonClass O] [MeasurableSingletonClass E]
  {U' : Type*} [MeasurableSpace U'] {V F : Type} [DecidableEq F]
  {n : ℕ} {cfg : SmcConfig ℝ} {env : Env ℝ O E R} {check : Bool} {w : Fin n → ℝ}
  {x : Fin n → List ℝ} {s : Smc ℝ O R}

/-- **C148.**  An updater whose experiments are chosen by `PGH`, with outcomes from particle `i`: if the
experiment made from every other particle and `i` tells the two apart, the weight of `i` tends to one with
probability one, and every estimated mean to its true value. -/
theorem C148_learns (h : Resting cfg env check w x s) (i : Fin n) (hwi : 0 < w i)
    (hone : ∀ k e, ∑ o, env.likelihood o (x k) e = 1)
    (p : Pgh ℝ V F) (Q : List ℝ) (junk : F → V) (record : E → F → V) (hinj : Injective record) (fallback : E)
    (hm : 0 < p.maxiters)
    (hfields : p.invField ∈ p.fields ∧ p.tField ∈ p.fields ∧ ∀ q ∈ p.other, q.1 ∈ p.fields)
    (pair : Fin n → E) (hd : ∀ j, j ≠ i → 0 < modelDistance Q (x j) (x i))
    (hrec : ∀ j, j ≠ i → record (pair j) = Spec.pghRecord p (modelDistance Q (x j) (x i)) (x j) junk)
    (htell : ∀ j, j ≠ i → ∃ o, env.likelihood o (x j) (pair j) ≠ env.likelihood o (x i) (pair j))
    (out : E → U' → O) (hout : ∀ e, Measurable (out e)) {ν' : Measure U'} [IsProbabilityMeasure ν']
    (hl : ∀ e o, ν'.real {u | out e u = o} = env.likelihood o (x i) e) :
    ∀ᵐ v ∂(Measure.infinitePi fun _ : ℕ => attempts.prod ν'),
      (∀ t, (feed cfg env check (firstData (played (closedLoop cfg env check s
        (guess p Q junk record fallback) out)) t v) s).2 = .ok ()) →
      Tendsto (fun t => (feed cfg env check (firstData (played (closedLoop cfg env check s
        (guess p Q junk record fallback) out)) t v) s).1.weights.getD i 0) atTop (𝓝 1) ∧
      ∀ f : List ℝ → ℝ, Tendsto (fun t => cloudMean f (feed cfg env check (firstData (played
        (closedLoop cfg env check s (guess p Q junk record fallback) out)) t v) s).1) atTop (𝓝 (f (x i))) := by
  classical
  have hloop := C147_loop (cfg := cfg) (env := env) (check := check) (s := s) (ν := attempts) (ν' := ν')
    (guess p Q junk record fallback) (fun s => guess_measurable p Q junk record fallback s) out hout (x i) hl
  refine C148_pairs h i hwi hloop hone 1 one_pos pair htell fun t d j hj hok => ?_
  obtain ⟨f, hf⟩ : ∃ f, f = closedLoop cfg env check s (guess p Q junk record fallback) out := ⟨_, rfl⟩
  rw [← hf]
  have hfm : ∀ h, Measurable (f h) := fun h => by
    rw [hf]
    have hg := guess_measurable p Q junk record fallback (feed cfg env check h s).1
    refine Measurable.prodMk ?_ (hg.comp measurable_fst)
    have : Measurable fun q : E × U' => out q.1 q.2 := measurable_from_prod_countable_right fun e => hout e
    exact this.comp ((hg.comp measurable_fst).prodMk measurable_snd)
  have h1 : {v | ∀ r : Fin t, played f r v = d r} = {v | play f t v = List.ofFn d} := by
    ext v
    simp only [Set.mem_ofPred_eq, hist_iff]
  have h2 : {v | (∀ r : Fin t, played f r v = d r) ∧ (played f t v).2 = pair j} =
      {v | play f t v = List.ofFn d ∧ v t ∈ {u | (f (List.ofFn d) u).2 = pair j}} := by
    ext v
    simp only [Set.mem_ofPred_eq, hist_iff]
    refine and_congr_right fun hh => ?_
    rw [played, hh]
  rw [h1, h2, play_indep hfm t (List.ofFn d) {u | (f (List.ofFn d) u).2 = pair j}
    ((measurable_snd.comp (hfm _)) (measurableSet_singleton _)), mul_comm]
  refine mul_le_mul_of_nonneg_left ?_ measureReal_nonneg
  rw [one_mul]
  have hev : {u | (f (List.ofFn d) u).2 = pair j} =
      {us | guess p Q junk record fallback (feed cfg env check (List.ofFn d) s).1 us = pair j} ×ˢ
        (Set.univ : Set U') := by
    ext u
    simp [hf, closedLoop]
  rw [hev, measureReal_prod_prod, probReal_univ, mul_one]
  obtain ⟨h3, h4, h5, -⟩ := (feed_paths cfg env h.good check h.off h.policy h.thresh.1 h.thresh.2
    (List.ofFn d) w (fun i _ => x i) h.nonneg h.sum s h.weights h.locs
    (moves_static env h.static _ _ x)).2 hok
  have hc := C148_chance p Q junk record hinj fallback hm hfields _
    (fun l => div_nonneg (mul_nonneg (h.nonneg l) (pathLike_nonneg env.likelihood h.good.like_nonneg (List.ofFn d) fun _ => x l)) h5.le)
    (by rw [← Finset.sum_div, div_self h5.ne']) x _ h3 h4 j i (hd j hj) (pair j) (hrec j hj)
  refine le_trans (le_of_eq ?_) hc
  rw [h3]
  simp only [List.getD_eq_getElem?_getD, List.getElem?_ofFn, Fin.is_lt, dite_true, Option.getD_some]

end

/-! ### A case: three frequencies, undone by the guess -/

noncomputable def freq (i : Fin 3) : ℝ := ![0, 1, 3] i

/-- The records for pairs of frequencies: the frequency that is undone and the time. -/
noncomputable def freqRecord (e : Fin 3 × Fin 3) (f : Bool) : ℝ :=
  if f then freq e.1 else 1 / |freq e.1 - freq e.2|

theorem freqRecord_inj : Injective freqRecord := by
  intro a b hab
  have h1 := congrFun hab true
  have h2 := congrFun hab false
  simp only [freqRecord, if_true, Bool.false_eq_true, if_false] at h1 h2
  obtain ⟨a1, a2⟩ := a
  obtain ⟨b1, b2⟩ := b
  have e1 : a1 = b1 := by
    fin_cases a1 <;> fin_cases b1 <;> first | rfl | (exfalso; revert h1; norm_num [freq])
  subst e1
  have e2 : a2 = b2 := by
    fin_cases a1 <;> fin_cases a2 <;> fin_cases b2 <;>
      first | rfl | (exfalso; revert h2; norm_num [freq, abs_of_pos, abs_of_neg])
  rw [e2]

/-- `cos²` of half the phase that is left after undoing. -/
noncomputable def freqChance (x : List ℝ) (e : Fin 3 × Fin 3) : unitInterval :=
  ⟨Real.cos ((x.getD 0 0 - freqRecord e true) * freqRecord e false / 2) ^ 2, sq_nonneg _, Real.cos_sq_le_one _⟩

noncomputable def freqPgh : Pgh ℝ ℝ Bool where
  fields := [true, false]
  invField := true
  tField := false
  invFunc x := x.getD 0 0
  tFunc t := t
  maxiters := 10
  other := []

theorem freq_ne (i j : Fin 3) (hj : j ≠ i) : freq j - freq i ≠ 0 := by
  fin_cases j <;> fin_cases i <;> first | (exact absurd rfl hj) | norm_num [freq]

theorem freq_dist (i j : Fin 3) : modelDistance [1] [freq j] [freq i] = |freq j - freq i| := by
  simp [modelDistance]

theorem freq_record (i j : Fin 3) : freqRecord (j, i) =
    Spec.pghRecord freqPgh (modelDistance [1] [freq j] [freq i]) [freq j] fun _ => 0 := by
  funext f
  rw [freq_dist]
  cases f <;> simp [freqRecord, Spec.pghRecord, freqPgh, Spec.assigned]

theorem freq_tell (xs : List (List ℝ)) (i j : Fin 3) (hj : j ≠ i) :
    (softEnv freqChance xs).likelihood true [freq j] (j, i) ≠
      (softEnv freqChance xs).likelihood true [freq i] (j, i) := by
  have hne := freq_ne i j hj
  have h1 : Real.cos (1 / 2) ^ 2 < 1 := by
    have := Real.sin_sq_add_cos_sq (1 / 2)
    have hs : 0 < Real.sin (1 / 2) := Real.sin_pos_of_pos_of_lt_pi (by norm_num) (by linarith [Real.pi_gt_three])
    nlinarith
  have h2 : Real.cos ((freq i - freq j) * (1 / |freq j - freq i|) / 2) ^ 2 = Real.cos (1 / 2) ^ 2 := by
    rcases lt_or_gt_of_ne hne with hlt | hgt
    · rw [abs_of_neg hlt]
      have : (freq i - freq j) * (1 / -(freq j - freq i)) / 2 = 1 / 2 := by
        have := hlt.ne
        rw [neg_sub]
        have h3 : freq i - freq j ≠ 0 := by intro h4; apply this; linarith
        field_simp
      rw [this]
    · rw [abs_of_pos hgt]
      have : (freq i - freq j) * (1 / (freq j - freq i)) / 2 = -(1 / 2) := by
        have := hgt.ne'
        field_simp
        ring
      rw [this, Real.cos_neg]
  simp only [softEnv, freqChance, if_true, List.getD_cons_zero, freqRecord, Bool.false_eq_true, if_false]
  rw [h2]
  simp only [sub_self, zero_mul, zero_div, Real.cos_zero]
  intro h3
  linarith

/-- Case for C148: `PGH` finds which of three frequencies is the true one. -/
example (i : Fin 3) : ∀ᵐ v ∂(Measure.infinitePi fun _ : ℕ => attempts.prod (volume : Measure unitInterval)),
    Tendsto (fun t => (feed phaseCfg (softEnv freqChance (List.ofFn fun i => [freq i])) true
        (firstData (played (closedLoop phaseCfg (softEnv freqChance (List.ofFn fun i => [freq i])) true
          (construct phaseCfg (softEnv freqChance (List.ofFn fun i => [freq i])) 3 false ()).1
          (guess freqPgh [1] (fun _ => 0) freqRecord (0, 0)) (softOut freqChance [freq i]))) t v)
        (construct phaseCfg (softEnv freqChance (List.ofFn fun i => [freq i])) 3 false ()).1).1.weights.getD i 0)
      atTop (𝓝 1) := by
  have hl := C148_learns (soft_resting true freqChance fun i => [freq i]) i (by norm_num)
    (fun k e => soft_sum _ _ _ e) freqPgh [1] (fun _ => 0) freqRecord freqRecord_inj (0, 0)
    (by norm_num [freqPgh]) (by simp [freqPgh]) (fun j => (j, i))
    (fun j hj => by rw [freq_dist]; exact abs_pos.2 (freq_ne i j hj))
    (fun j _ => freq_record i j) (fun j hj => ⟨true, freq_tell _ i j hj⟩)
    (softOut freqChance [freq i]) (softOut_meas _ _) (ν' := volume) (fun e o => softOut_law _ _ _ e o)
  filter_upwards [hl] with v hv
  exact (hv fun t => soft_accepted _ _ _ _).1

end QInfer
