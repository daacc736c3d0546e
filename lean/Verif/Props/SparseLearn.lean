import Verif.Props.Schedule
import Verif.Lemmas.Spread

/-!
# C150: growing times tell almost all frequencies apart

`ExpSparseHeuristic` with any base above one, and every other schedule whose times grow without bound, finds
the true one of almost all choices of frequencies, so of frequencies drawn from a prior with a density.
-/

namespace QInfer

open Spec Filter Topology MeasureTheory ProbabilityTheory Function

theorem precession_cos (ω T : ℝ) : precessionPr0 ω T = (1 + Real.cos (ω * T)) / 2 := by
  have : precessionPr0 ω T = Real.cos (ω * T / 2) ^ 2 := by
    simp only [precessionPr0, inversionPr0, sub_zero]
    congr 2
    ring
  rw [this, Real.cos_sq]
  ring_nf

theorem not_summable_of_spread {T : ℕ → ℝ} {ω ω' : ℝ}
    (h : ∀ m, ∃ t, m ≤ t ∧ 1 / 4 < (Real.cos (ω * T t) - Real.cos (ω' * T t)) ^ 2) :
    ¬Summable fun t => (precessionPr0 ω (T t) - precessionPr0 ω' (T t)) ^ 2 := by
  intro hs
  have h1 := hs.tendsto_atTop_zero.eventually (gt_mem_nhds (show (0 : ℝ) < 1 / 16 by norm_num))
  obtain ⟨m, hm⟩ := eventually_atTop.1 h1
  obtain ⟨t, ht, hlt⟩ := h m
  have h2 := hm t ht
  rw [precession_cos, precession_cos] at h2
  nlinarith

/-- **C150, almost every frequency.**  Along times that grow without bound, the squared differences between
the precession probabilities of a given frequency and of almost every other one add up to infinity. -/
theorem C150_frequencies (T : ℕ → ℝ) (hT : Tendsto T atTop atTop) (ω : ℝ) :
    ∀ᵐ ω' : ℝ, ¬Summable fun t => (precessionPr0 ω (T t) - precessionPr0 ω' (T t)) ^ 2 := by
  filter_upwards [cos_spread T (fun t => Real.cos (ω * T t)) hT fun t => Real.abs_cos_le_one _] with ω' h
  exact not_summable_of_spread h

/-- **C150, drawn frequencies.**  If two independent frequencies are drawn, one of them from a law with a
density, the same holds with probability one. -/
theorem C150_drawn {Ω : Type*} [MeasurableSpace Ω] {Q : Measure Ω} [IsProbabilityMeasure Q] {F G : Ω → ℝ}
    (hF : Measurable F) (hG : Measurable G) (hind : IndepFun F G Q) (hac : Q.map G ≪ volume)
    (T : ℕ → ℝ) (hT : Tendsto T atTop atTop) :
    ∀ᵐ u ∂Q, ¬Summable fun t => (precessionPr0 (F u) (T t) - precessionPr0 (G u) (T t)) ^ 2 := by
  have hS : MeasurableSet {p : ℝ × ℝ | ∀ m, ∃ t, m ≤ t ∧
      1 / 4 < (Real.cos (p.1 * T t) - Real.cos (p.2 * T t)) ^ 2} := by
    have : {p : ℝ × ℝ | ∀ m, ∃ t, m ≤ t ∧ 1 / 4 < (Real.cos (p.1 * T t) - Real.cos (p.2 * T t)) ^ 2} =
        ⋂ m : ℕ, ⋃ t : ℕ, ⋃ _ : m ≤ t, {p | 1 / 4 < (Real.cos (p.1 * T t) - Real.cos (p.2 * T t)) ^ 2} := by
      ext p
      simp only [Set.mem_ofPred_eq, Set.mem_iInter, Set.mem_iUnion, exists_prop]
    rw [this]
    refine MeasurableSet.iInter fun m => MeasurableSet.iUnion fun t => MeasurableSet.iUnion fun _ => ?_
    exact (isOpen_lt continuous_const (by fun_prop)).measurableSet
  have := Measure.isProbabilityMeasure_map (μ := Q) hF.aemeasurable
  have := Measure.isProbabilityMeasure_map (μ := Q) hG.aemeasurable
  have hprod := (indepFun_iff_map_prod_eq_prod_map_map hF.aemeasurable hG.aemeasurable).1 hind
  have h1 : ∀ᵐ p ∂(Q.map F).prod (Q.map G), ∀ m, ∃ t, m ≤ t ∧
      1 / 4 < (Real.cos (p.1 * T t) - Real.cos (p.2 * T t)) ^ 2 := by
    rw [Measure.ae_prod_iff_ae_ae hS]
    exact ae_of_all _ fun ω => hac.ae_le
      (cos_spread T (fun t => Real.cos (ω * T t)) hT fun t => Real.abs_cos_le_one _)
  rw [← hprod] at h1
  filter_upwards [ae_of_ae_map (hF.prodMk hG).aemeasurable h1] with u hu
  exact not_summable_of_spread hu

/-- **C150.**  Frequencies of the particles are drawn independently from laws with densities.  With
probability one over this draw, precession data of one of them, also through noise that keeps a share of the
signal, at times that grow without bound, teach the updater which one: the weight of the truth tends to one
and every estimated mean to its true value with probability one over the data. -/
theorem C150_learnt {Ω Ω' : Type*} {O E R : Type} [MeasurableSpace Ω] [MeasurableSpace Ω'] [MeasurableSpace O]
    [Fintype O] [MeasurableSingletonClass O] [MeasurableSpace E] {Q : Measure Ω} [IsProbabilityMeasure Q]
    {n : ℕ} (F : Fin n → Ω → ℝ) (hF : ∀ k, Measurable (F k)) (hind : ∀ j k, j ≠ k → IndepFun (F j) (F k) Q)
    (hac : ∀ k, Q.map (F k) ≪ volume) (T : ℕ → ℝ) (hT : Tendsto T atTop atTop)
    (cfg : SmcConfig ℝ) (env : Ω → Env ℝ O E R) (check : Bool) (w : Fin n → ℝ) (x : Ω → Fin n → List ℝ)
    (s : Ω → Smc ℝ O R) (h : ∀ u, Resting cfg (env u) check w (x u) (s u)) (sched : ℕ → E)
    (hone : ∀ u k e, ∑ o, (env u).likelihood o (x u k) e = 1) (o : O) (c₀ c : ℝ) (hc : c ≠ 0)
    (hL : ∀ u k t, (env u).likelihood o (x u k) (sched t) = c₀ + c * precessionPr0 (F k u) (T t)) :
    ∀ᵐ u ∂Q, ∀ i, 0 < w i → ∀ (P : Measure Ω') [IsProbabilityMeasure P] (X : ℕ → Ω' → O),
      ScheduledData P (env u).likelihood (x u i) sched X →
      ∀ᵐ v ∂P, (∀ t, (feed cfg (env u) check (firstData (withSchedule sched X) t v) (s u)).2 = .ok ()) →
        Tendsto (fun t => (feed cfg (env u) check (firstData (withSchedule sched X) t v) (s u)).1.weights.getD i 0)
          atTop (𝓝 1) ∧
        ∀ f : List ℝ → ℝ, Tendsto (fun t => cloudMean f
          (feed cfg (env u) check (firstData (withSchedule sched X) t v) (s u)).1) atTop (𝓝 (f (x u i))) := by
  have hall : ∀ᵐ u ∂Q, ∀ i j, j ≠ i →
      ¬Summable fun t => (precessionPr0 (F i u) (T t) - precessionPr0 (F j u) (T t)) ^ 2 := by
    rw [ae_all_iff]
    intro i
    rw [ae_all_iff]
    intro j
    by_cases hj : j = i
    · exact ae_of_all _ fun u hne => absurd hj hne
    · filter_upwards [C150_drawn (hF i) (hF j) (hind i j (Ne.symm hj)) (hac j) T hT] with u hu _ using hu
  filter_upwards [hall] with u hu i hwi P hP X hX
  refine C149_learnt (h u) i hwi hX (hone u) fun j hj hs => hu i j hj ?_
  have h1 := squares_summable (h u).good.like_nonneg _ _ (hone u i) (hone u j) sched o hs
  refine (h1.mul_left (c ^ 2)⁻¹).congr fun t => ?_
  rw [hL, hL]
  field_simp
  ring

/-- **C150, ExpSparseHeuristic.**  With a positive scale and a base above one, such as the default 9/8, its
times grow without bound. -/
theorem C150_sparse_times {V F : Type} [DecidableEq F] (hs : ExpSparse ℝ V F) (hf : hs.tField = none)
    (hscale : 0 < hs.scale) (hbase : 1 < hs.base) (ofTime : ℝ → V) (junk : F → V) :
    ∃ T : ℕ → ℝ, (∀ t, expSparseCall hs ofTime t junk = .ok (.scalar (T t))) ∧ Tendsto T atTop atTop := by
  refine ⟨fun t => hs.scale * hs.base ^ t, fun t => ?_, ?_⟩
  · rw [expSparseCall, hf]
  · exact (tendsto_pow_atTop_atTop_of_one_lt hbase).const_mul_atTop hscale

/-! ### A case: three frequencies drawn uniformly -/

noncomputable def drawnLocs (u : Fin 3 → unitInterval) (k : Fin 3) : List ℝ := [(u k : ℝ)]

noncomputable def sparseTimes (t : ℕ) : ℝ := 1 * (9 / 8) ^ t

theorem unit_ac : (volume : Measure unitInterval).map ((↑) : unitInterval → ℝ) ≪ volume := by
  have h : (volume : Measure unitInterval).map ((↑) : unitInterval → ℝ) = volume.restrict unitInterval := by
    exact map_comap_subtype_coe measurableSet_Icc _
  rw [h]
  exact Measure.absolutelyContinuous_of_le Measure.restrict_le_self

/-- Case for C150: three frequencies drawn uniformly, the default times of the heuristic, noisy outcomes, any
of the three as the truth. -/
example : ∀ᵐ u ∂(volume : Measure (Fin 3 → unitInterval)), ∀ i : Fin 3,
    ∀ᵐ v ∂(Measure.infinitePi fun _ : ℕ => (volume : Measure unitInterval)),
    Tendsto (fun t => (feed phaseCfg (softEnv waveChance (List.ofFn (drawnLocs u))) true
        (firstData (withSchedule sparseTimes fun t v =>
          softOut waveChance (drawnLocs u i) (sparseTimes t) (v t)) t v)
        (construct phaseCfg (softEnv waveChance (List.ofFn (drawnLocs u))) 3 false ()).1).1.weights.getD i 0)
      atTop (𝓝 1) := by
  have hT : Tendsto sparseTimes atTop atTop :=
    (tendsto_pow_atTop_atTop_of_one_lt (by norm_num : (1 : ℝ) < 9 / 8)).const_mul_atTop one_pos
  have hmeas : ∀ k : Fin 3, Measurable fun u : Fin 3 → unitInterval => (u k : ℝ) := fun k => by fun_prop
  have hind : iIndepFun (fun k (u : Fin 3 → unitInterval) => (u k : ℝ)) volume :=
    iIndepFun_pi (μ := fun _ : Fin 3 => (volume : Measure unitInterval)) (X := fun _ (y : unitInterval) => (y : ℝ))
      fun _ => measurable_subtype_coe.aemeasurable
  have h := C150_learnt (Ω' := ℕ → unitInterval) (Q := (volume : Measure (Fin 3 → unitInterval)))
    (fun k u => (u k : ℝ)) hmeas (fun j k hjk => hind.indepFun hjk)
    (fun k => by
      have e : (volume : Measure (Fin 3 → unitInterval)).map (fun u => (u k : ℝ)) =
          (volume : Measure unitInterval).map ((↑) : unitInterval → ℝ) := by
        have := (measurePreserving_eval (fun _ : Fin 3 => (volume : Measure unitInterval)) k).map_eq
        rw [← this, Measure.map_map measurable_subtype_coe (measurable_pi_apply k)]
        rfl
      rw [e]
      exact unit_ac)
    sparseTimes hT phaseCfg (fun u => softEnv waveChance (List.ofFn (drawnLocs u))) true (fun _ => 1 / 3) drawnLocs
    (fun u => (construct phaseCfg (softEnv waveChance (List.ofFn (drawnLocs u))) 3 false ()).1)
    (fun u => soft_resting true waveChance (drawnLocs u)) sparseTimes (fun u k e => soft_sum _ _ _ e) true
    (1 / 4) (1 / 2) (by norm_num) (fun u k t => by
      simp only [softEnv, waveChance, drawnLocs, if_true, List.getD_cons_zero]
      ring)
  filter_upwards [h] with u hu i
  have hdata : ScheduledData (Measure.infinitePi fun _ : ℕ => (volume : Measure unitInterval))
      (softEnv waveChance (List.ofFn (drawnLocs u))).likelihood (drawnLocs u i) sparseTimes
      (fun t v => softOut waveChance (drawnLocs u i) (sparseTimes t) (v t)) := by
    refine C149_independent (fun t => (softOut_meas _ _ _).comp (measurable_pi_apply t)) ?_ fun t o => ?_
    · exact iIndepFun_infinitePi (P := fun _ : ℕ => (volume : Measure unitInterval))
        (X := fun t y => softOut waveChance (drawnLocs u i) (sparseTimes t) y) fun t => softOut_meas _ _ _
    · have h1 := (measurePreserving_eval_infinitePi
        (fun _ : ℕ => (volume : Measure unitInterval)) t).measureReal_preimage
        ((softOut_meas waveChance (drawnLocs u i) (sparseTimes t)) (measurableSet_singleton o)).nullMeasurableSet
      rw [← softOut_law waveChance (List.ofFn (drawnLocs u)) (drawnLocs u i) (sparseTimes t) o]
      exact h1
  filter_upwards [hu i (by norm_num) _ _ hdata] with v hv
  exact (hv fun t => soft_accepted _ _ _ _).1

end QInfer
