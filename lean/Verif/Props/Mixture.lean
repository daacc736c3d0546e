import Verif.Props.GuessLearn

/-!
# C151: mixing heuristics does not stop learning

`EnsembleHeuristic` passes the call to one of its members, chosen at random.  If one member with a positive
probability would find the truth by itself, so does the ensemble, whatever the others do.
-/

namespace QInfer

open Spec Filter Topology MeasureTheory ProbabilityTheory Function

variable {O E R U : Type} [MeasurableSpace O] [MeasurableSpace E] [MeasurableSpace U]

section

variable [Fintype O] [Fintype E] [MeasurableSingletonClass O] [MeasurableSingletonClass E]
  {U' : Type*} [MeasurableSpace U']
  {n : ℕ} {cfg : SmcConfig ℝ} {env : Env ℝ O E R} {check : Bool} {w : Fin n → ℝ}
  {x : Fin n → List ℝ} {s : Smc ℝ O R}

/-- **C151, any heuristic.**  Suppose that whatever the weights are, the heuristic chooses an experiment that
tells particle `j` from the truth with a chance of at least a fixed multiple of the product of the weights of
the two.  Then an updater that uses it finds the truth. -/
theorem C151_heuristics (h : Resting cfg env check w x s) (i : Fin n) (hwi : 0 < w i)
    (hone : ∀ k e, ∑ o, env.likelihood o (x k) e = 1)
    (heur : Smc ℝ O R → U → E) (hheur : ∀ s, Measurable (heur s)) {ν : Measure U} [IsProbabilityMeasure ν]
    (κ : ℝ) (hκ : 0 < κ) (pair : Fin n → E)
    (htell : ∀ j, j ≠ i → ∃ o, env.likelihood o (x j) (pair j) ≠ env.likelihood o (x i) (pair j))
    (hchance : ∀ (s' : Smc ℝ O R) (w' : Fin n → ℝ), (∀ k, 0 ≤ w' k) → ∑ k, w' k = 1 →
      s'.weights = List.ofFn w' → s'.locs = List.ofFn x → ∀ j, j ≠ i →
      κ * (w' j * w' i) ≤ ν.real {u | heur s' u = pair j})
    (out : E → U' → O) (hout : ∀ e, Measurable (out e)) {ν' : Measure U'} [IsProbabilityMeasure ν']
    (hl : ∀ e o, ν'.real {u | out e u = o} = env.likelihood o (x i) e) :
    ∀ᵐ v ∂(Measure.infinitePi fun _ : ℕ => ν.prod ν'),
      (∀ t, (feed cfg env check (firstData (played (closedLoop cfg env check s heur out)) t v) s).2 = .ok ()) →
      Tendsto (fun t => (feed cfg env check (firstData (played (closedLoop cfg env check s
        heur out)) t v) s).1.weights.getD i 0) atTop (𝓝 1) ∧
      ∀ f : List ℝ → ℝ, Tendsto (fun t => cloudMean f (feed cfg env check (firstData (played
        (closedLoop cfg env check s heur out)) t v) s).1) atTop (𝓝 (f (x i))) := by
  classical
  have hloop := C147_loop (cfg := cfg) (env := env) (check := check) (s := s) (ν := ν) (ν' := ν')
    heur hheur out hout (x i) hl
  refine C148_pairs h i hwi hloop hone κ hκ pair htell fun t d j hj hok => ?_
  obtain ⟨f, hf⟩ : ∃ f, f = closedLoop cfg env check s heur out := ⟨_, rfl⟩
  rw [← hf]
  have hfm : ∀ h, Measurable (f h) := fun h => by
    rw [hf]
    have hg := hheur (feed cfg env check h s).1
    refine Measurable.prodMk ?_ (hg.comp measurable_fst)
    have : Measurable fun q : E × U' => out q.1 q.2 := measurable_from_prod_countable_right fun e => hout e
    exact this.comp ((hg.comp measurable_fst).prodMk measurable_snd)
  have h1 : {v | ∀ r : Fin t, played f r v = d r} = {v | play f t v = List.ofFn d} := by
    ext v
    simp only [Set.mem_ofPred_eq, hist_iff]
  have h2 : {v | (∀ r : Fin t, played f r v = d r) ∧ (played f t v).2 = pair j} =
      {v | play f t v = List.ofFn d ∧ v t ∈ {u | (f (List.ofFn d) u).2 = pair j}} := by
    ext v
    simp only [Set.mem_ofPred_eq, hist_iff]
    refine and_congr_right fun hh => ?_
    rw [played, hh]
  rw [h1, h2, play_indep hfm t (List.ofFn d) {u | (f (List.ofFn d) u).2 = pair j}
    ((measurable_snd.comp (hfm _)) (measurableSet_singleton _)), mul_comm]
  refine mul_le_mul_of_nonneg_left ?_ measureReal_nonneg
  have hev : {u | (f (List.ofFn d) u).2 = pair j} =
      {us | heur (feed cfg env check (List.ofFn d) s).1 us = pair j} ×ˢ (Set.univ : Set U') := by
    ext u
    simp [hf, closedLoop]
  rw [hev, measureReal_prod_prod, probReal_univ, mul_one]
  obtain ⟨h3, h4, h5, -⟩ := (feed_paths cfg env h.good check h.off h.policy h.thresh.1 h.thresh.2
    (List.ofFn d) w (fun i _ => x i) h.nonneg h.sum s h.weights h.locs
    (moves_static env h.static _ _ x)).2 hok
  have hc := hchance _ _
    (fun l => div_nonneg (mul_nonneg (h.nonneg l)
      (pathLike_nonneg env.likelihood h.good.like_nonneg (List.ofFn d) fun _ => x l)) h5.le)
    (by rw [← Finset.sum_div, div_self h5.ne']) h3 h4 j hj
  refine le_trans (le_of_eq ?_) hc
  rw [h3]
  simp only [List.getD_eq_getElem?_getD, List.getElem?_ofFn, Fin.is_lt, dite_true, Option.getD_some]

end

/-! ### Ensembles -/

/-- The experiment of an `EnsembleHeuristic`: the first variate chooses the member, the second is for the
member itself; another experiment if the choice raises. -/
noncomputable def Spec.mixed (atol : ℝ) (ens : List ((Smc ℝ O R → U → E) × ℝ)) (fallback : E) (s : Smc ℝ O R)
    (u : ℝ × U) : E :=
  match ensembleCall atol ens u.1 with
  | .ok member => member s u.2
  | .error _ => fallback

theorem searchsorted_measurable (a : List ℝ) : Measurable (searchsortedRight a) := by
  apply Monotone.measurable
  intro u v huv
  unfold searchsortedRight
  induction a with
  | nil => exact le_rfl
  | cons y a ih =>
    by_cases h1 : y ≤ u
    · have h2 : y ≤ v := h1.trans huv
      simpa [h1, h2] using ih
    · simp [h1]

theorem mixed_measurable (atol : ℝ) (ens : List ((Smc ℝ O R → U → E) × ℝ))
    (hm : ∀ q ∈ ens, ∀ s, Measurable (q.1 s)) (fallback : E) (s : Smc ℝ O R) :
    Measurable (mixed atol ens fallback s) := by
  obtain ⟨G, hG⟩ : ∃ G : ℕ × U → E, ∀ k u, G (k, u) = match ens[k]? with
      | some q => q.1 s u
      | none => fallback := ⟨fun p => match ens[p.1]? with
      | some q => q.1 s p.2
      | none => fallback, fun _ _ => rfl⟩
  have hGm : Measurable G := by
    refine measurable_from_prod_countable_right fun k => ?_
    have e : (fun u => G (k, u)) = fun u => match ens[k]? with
      | some q => q.1 s u
      | none => fallback := funext fun u => hG k u
    rw [e]
    rcases hk : ens[k]? with _ | q
    · exact measurable_const
    · exact hm q (List.mem_of_getElem? hk) s
  by_cases hbad : ∃ e, ∀ u, npChoice atol ens.length (ens.map Prod.snd) u = .error e
  · obtain ⟨e, he⟩ := hbad
    have : mixed atol ens fallback s = fun _ => fallback := by
      funext u
      simp only [mixed, ensembleCall, List.length_map, he]
    rw [this]
    exact measurable_const
  · have hgood : ∀ u, npChoice atol ens.length (ens.map Prod.snd) u =
        .ok (searchsortedRight ((cumsum (ens.map Prod.snd)).map (· / (ens.map Prod.snd).sum)) u) := by
      intro u
      unfold npChoice at hbad ⊢
      split_ifs at hbad ⊢ with h1 h2 h3 h4
      · exact absurd ⟨_, fun _ => rfl⟩ hbad
      · exact absurd ⟨_, fun _ => rfl⟩ hbad
      · exact absurd ⟨_, fun _ => rfl⟩ hbad
      · exact absurd ⟨_, fun _ => rfl⟩ hbad
      · rfl
    have : mixed atol ens fallback s = G ∘ fun u =>
        (searchsortedRight ((cumsum (ens.map Prod.snd)).map (· / (ens.map Prod.snd).sum)) u.1, u.2) := by
      funext u
      simp only [mixed, ensembleCall, List.length_map, hgood, comp_apply, hG, List.getElem?_map]
      rcases ens[searchsortedRight ((cumsum (ens.map Prod.snd)).map (· / (ens.map Prod.snd).sum)) u.1]? with _ | q
      · rfl
      · rfl
    rw [this]
    exact hGm.comp (((searchsorted_measurable _).comp measurable_fst).prodMk measurable_snd)

/-- **C151, the chance of an experiment.**  An ensemble chooses an experiment with at least the chance of any
of its members, times the probability of that member. -/
theorem C151_chance (atol : ℝ) (ens : List ((Smc ℝ O R → U → E) × ℝ)) (fallback : E)
    (hp : ∀ q ∈ ens, 0 ≤ q.2) (hs : (ens.map Prod.snd).sum = 1) (ha : 0 ≤ atol)
    (m : ℕ) (hm : m < ens.length) {ν : Measure U} [IsProbabilityMeasure ν] (s : Smc ℝ O R) (e : E) :
    ens[m].2 * ν.real {u | ens[m].1 s u = e} ≤
      ((volume.restrict (Set.Ico (0 : ℝ) 1)).prod ν).real {u | mixed atol ens fallback s u = e} := by
  obtain ⟨a, haa⟩ : ∃ a, a = ((ens.map Prod.snd).take m).sum := ⟨_, rfl⟩
  have hnn : ∀ y ∈ ens.map Prod.snd, 0 ≤ y := fun y hy => by
    obtain ⟨q, hq, rfl⟩ := List.mem_map.1 hy
    exact hp q hq
  have hmono : ∀ k l, k ≤ l → ((ens.map Prod.snd).take k).sum ≤ ((ens.map Prod.snd).take l).sum := by
    intro k l hkl
    obtain ⟨d, rfl⟩ := Nat.exists_eq_add_of_le hkl
    rw [List.take_add, List.sum_append]
    exact le_add_of_nonneg_right (List.sum_nonneg fun y hy =>
      hnn y (List.mem_of_mem_drop (List.mem_of_mem_take hy)))
  have hstep : ∀ k (hk : k < ens.length), ((ens.map Prod.snd).take (k + 1)).sum =
      ((ens.map Prod.snd).take k).sum + ens[k].2 := by
    intro k hk
    rw [List.take_add_one, List.sum_append, List.getElem?_map, List.getElem?_eq_getElem hk]
    simp
  have ha0 : 0 ≤ a := by rw [haa]; simpa using hmono 0 m (Nat.zero_le m)
  have ha1 : a + ens[m].2 ≤ 1 := by
    rw [haa, ← hstep m hm, ← hs]
    have := hmono (m + 1) ens.length hm
    rwa [List.take_of_length_le (l := ens.map Prod.snd) (i := ens.length) (by simp)] at this
  have hsub : Set.Ico a (a + ens[m].2) ×ˢ {u | ens[m].1 s u = e} ⊆ {u | mixed atol ens fallback s u = e} := by
    rintro ⟨u, u'⟩ ⟨hu, hu'⟩
    obtain ⟨k, hk, hcall, hlo, hhi, -⟩ := C62_chosen atol ens (by rintro rfl; simp at hm) hp
      (by rw [hs]; exact one_pos) (by rw [hs]; simpa using ha) u (ha0.trans hu.1) (hu.2.trans_le ha1)
    rw [hs, div_one] at hlo hhi
    have hkm : k = m := by
      rcases lt_trichotomy k m with h | h | h
      · have := hmono (k + 1) m h
        rw [hstep k hk, ← haa] at this
        exact absurd hu.1 (not_le.2 (hhi.trans_le this))
      · exact h
      · have := hmono (m + 1) k h
        rw [hstep m hm, ← haa] at this
        exact absurd hu.2 (not_lt.2 (this.trans hlo))
    subst hkm
    show mixed atol ens fallback s (u, u') = e
    simp only [mixed, hcall]
    exact hu'
  refine le_trans (le_of_eq ?_) (measureReal_mono hsub)
  rw [measureReal_prod_prod]
  congr 1
  rw [measureReal_restrict_apply measurableSet_Ico, Set.inter_eq_left.2, Real.volume_real_Ico_of_le]
  · ring
  · exact le_add_of_nonneg_right (hp _ (List.getElem_mem hm))
  · exact Set.Ico_subset_Ico ha0 ha1

section

variable [Fintype O] [Fintype E] [MeasurableSingletonClass O] [MeasurableSingletonClass E]
  {U' : Type*} [MeasurableSpace U']
  {n : ℕ} {cfg : SmcConfig ℝ} {env : Env ℝ O E R} {check : Bool} {w : Fin n → ℝ}
  {x : Fin n → List ℝ} {s : Smc ℝ O R}

/-- **C151.**  An ensemble that contains `PGH` with a positive probability finds the true particle wherever
`PGH` would, whatever the other members are. -/
theorem C151_learns {V F : Type} [DecidableEq F] (h : Resting cfg env check w x s) (i : Fin n) (hwi : 0 < w i)
    (hone : ∀ k e, ∑ o, env.likelihood o (x k) e = 1)
    (p : Pgh ℝ V F) (Q : List ℝ) (junk : F → V) (record : E → F → V) (hinj : Injective record) (fallback : E)
    (hm : 0 < p.maxiters)
    (hfields : p.invField ∈ p.fields ∧ p.tField ∈ p.fields ∧ ∀ q ∈ p.other, q.1 ∈ p.fields)
    (pair : Fin n → E) (hd : ∀ j, j ≠ i → 0 < modelDistance Q (x j) (x i))
    (hrec : ∀ j, j ≠ i → record (pair j) = Spec.pghRecord p (modelDistance Q (x j) (x i)) (x j) junk)
    (htell : ∀ j, j ≠ i → ∃ o, env.likelihood o (x j) (pair j) ≠ env.likelihood o (x i) (pair j))
    (atol : ℝ) (ha : 0 ≤ atol) (ens : List ((Smc ℝ O R → (ℕ → ℝ × ℝ) → E) × ℝ))
    (hens : ∀ q ∈ ens, 0 ≤ q.2 ∧ ∀ s, Measurable (q.1 s)) (hs : (ens.map Prod.snd).sum = 1)
    (m : ℕ) (hmem : ∃ c > 0, ens[m]? = some (guess p Q junk record fallback, c))
    (out : E → U' → O) (hout : ∀ e, Measurable (out e)) {ν' : Measure U'} [IsProbabilityMeasure ν']
    (hl : ∀ e o, ν'.real {u | out e u = o} = env.likelihood o (x i) e) :
    ∀ᵐ v ∂(Measure.infinitePi fun _ : ℕ => ((volume.restrict (Set.Ico (0 : ℝ) 1)).prod attempts).prod ν'),
      (∀ t, (feed cfg env check (firstData (played (closedLoop cfg env check s
        (mixed atol ens fallback) out)) t v) s).2 = .ok ()) →
      Tendsto (fun t => (feed cfg env check (firstData (played (closedLoop cfg env check s
        (mixed atol ens fallback) out)) t v) s).1.weights.getD i 0) atTop (𝓝 1) ∧
      ∀ f : List ℝ → ℝ, Tendsto (fun t => cloudMean f (feed cfg env check (firstData (played
        (closedLoop cfg env check s (mixed atol ens fallback) out)) t v) s).1) atTop (𝓝 (f (x i))) := by
  obtain ⟨c, hc, hmem⟩ := hmem
  obtain ⟨hml, hget⟩ := List.getElem?_eq_some_iff.1 hmem
  refine C151_heuristics h i hwi hone (mixed atol ens fallback)
    (fun s => mixed_measurable atol ens (fun q hq => (hens q hq).2) fallback s) c hc pair htell
    (fun s' w' hw' hs' hws hxs j hj => ?_) out hout hl
  have h1 := C151_chance atol ens fallback (fun q hq => (hens q hq).1) hs ha m hml (ν := attempts) s' (pair j)
  have h2 := C148_chance p Q junk record hinj fallback hm hfields w' hw' hs' x s' hws hxs j i (hd j hj) (pair j)
    (hrec j hj)
  rw [hget] at h1
  exact (mul_le_mul_of_nonneg_left h2 hc.le).trans h1

end

/-- Case for C151: `PGH` once in a hundred calls, and a heuristic that always asks the same useless question
otherwise. -/
example (i : Fin 3) : ∀ᵐ v ∂(Measure.infinitePi fun _ : ℕ =>
      ((volume.restrict (Set.Ico (0 : ℝ) 1)).prod attempts).prod (volume : Measure unitInterval)),
    Tendsto (fun t => (feed phaseCfg (softEnv freqChance (List.ofFn fun i => [freq i])) true
        (firstData (played (closedLoop phaseCfg (softEnv freqChance (List.ofFn fun i => [freq i])) true
          (construct phaseCfg (softEnv freqChance (List.ofFn fun i => [freq i])) 3 false ()).1
          (mixed (1 / 10 ^ 8) [(fun _ _ => (0, 0), 99 / 100),
            (guess freqPgh [1] (fun _ => 0) freqRecord (0, 0), 1 / 100)] (0, 0))
          (softOut freqChance [freq i]))) t v)
        (construct phaseCfg (softEnv freqChance (List.ofFn fun i => [freq i])) 3 false ()).1).1.weights.getD i 0)
      atTop (𝓝 1) := by
  have hl := C151_learns (soft_resting true freqChance fun i => [freq i]) i (by norm_num)
    (fun k e => soft_sum _ _ _ e) freqPgh [1] (fun _ => 0) freqRecord freqRecord_inj (0, 0)
    (by norm_num [freqPgh]) (by simp [freqPgh]) (fun j => (j, i))
    (fun j hj => by rw [freq_dist]; exact abs_pos.2 (freq_ne i j hj))
    (fun j _ => freq_record i j) (fun j hj => ⟨true, freq_tell _ i j hj⟩)
    (1 / 10 ^ 8) (by norm_num) [(fun _ _ => (0, 0), 99 / 100),
      (guess freqPgh [1] (fun _ => 0) freqRecord (0, 0), 1 / 100)]
    (by
      intro q hq
      simp only [List.mem_cons, List.not_mem_nil, or_false] at hq
      rcases hq with rfl | rfl
      · exact ⟨by norm_num, fun _ => measurable_const⟩
      · exact ⟨by norm_num, fun s => guess_measurable _ _ _ _ _ s⟩)
    (by norm_num) 1 ⟨1 / 100, by norm_num, rfl⟩
    (softOut freqChance [freq i]) (softOut_meas _ _) (ν' := volume) (fun e o => softOut_law _ _ _ e o)
  filter_upwards [hl] with v hv
  exact (hv fun t => soft_accepted _ _ _ _).1

end QInfer
