import Verif.Props.Mixture
import Verif.Props.InfoComplete

/-!
# C152: the best of k measurements finds the state

`BestOfKMetaheuristic` draws `k` experiments from a base heuristic and keeps the one of largest variance.  As
all candidates may happen to be the same experiment, none is ever given up, so what the base heuristic would
find is found.
-/

namespace QInfer

open Spec Filter Topology MeasureTheory ProbabilityTheory Function

variable {O E R U F V : Type} [MeasurableSpace O] [MeasurableSpace E] [MeasurableSpace U] [DecidableEq F]

open Classical in
/-- The experiment that `BestOfKMetaheuristic` returns on an updater of `n` particles and `d` parameters, for
the `k` variates of the base heuristic; `record` and `final` are the records of experiments before and after
the other fields are set. -/
noncomputable def Spec.bestOf (n : ℕ) {d k : ℕ} (fields : List F) (meas : (F → V) → Fin d → ℝ)
    (other : List (F × V)) (record final : E → F → V) (fallback : E) (base : U → E) (s : Smc ℝ O R)
    (us : Fin k → U) : E :=
  match bestOfK fields meas other (fun i : Fin n => s.weights.getD i 0)
      (fun (i : Fin n) a => (s.locs.getD i []).getD a 0) (List.ofFn fun a => record (base (us a))) with
  | .ok r => if h : ∃ e, final e = r then h.choose else fallback
  | .error _ => fallback

omit [MeasurableSpace O] in
theorem bestOf_measurable [Fintype E] [MeasurableSingletonClass E] (n : ℕ) {d k : ℕ} (fields : List F)
    (meas : (F → V) → Fin d → ℝ) (other : List (F × V)) (record final : E → F → V) (fallback : E)
    (base : U → E) (hbase : Measurable base) (s : Smc ℝ O R) :
    Measurable (bestOf n (k := k) fields meas other record final fallback base s) := by
  classical
  have h1 : Measurable fun (us : Fin k → U) (a : Fin k) => base (us a) :=
    measurable_pi_lambda _ fun a => hbase.comp (measurable_pi_apply a)
  have h2 : bestOf n (k := k) fields meas other record final fallback base s =
      bestOf n (k := k) fields meas other record final fallback id s ∘ fun us a => base (us a) := rfl
  rw [h2]
  exact (measurable_of_finite _).comp h1

omit [MeasurableSpace O] in
/-- **C152, the chance of an experiment.**  If the base heuristic chooses an experiment with a chance of at
least `p`, the best of `k` draws is that experiment with a chance of at least `p ^ k`. -/
theorem C152_chance [MeasurableSingletonClass E] {n d k : ℕ} (hk : k ≠ 0) (fields : List F)
    (meas : (F → V) → Fin d → ℝ) (other : List (F × V)) (hother : ∀ q ∈ other, q.1 ∈ fields)
    (record final : E → F → V) (hinj : Injective final) (hfinal : ∀ e, final e = Spec.assigned other (record e))
    (fallback : E) (base : U → E) {ν : Measure U} [IsProbabilityMeasure ν] (e : E) (p : ℝ) (hp : 0 ≤ p)
    (he : p ≤ ν.real {u | base u = e}) (s : Smc ℝ O R) (w : Fin n → ℝ) (hw : ∑ i, w i = 1)
    (hws : s.weights = List.ofFn w) :
    p ^ k ≤ (Measure.pi fun _ : Fin k => ν).real
      {us | bestOf n fields meas other record final fallback base s us = e} := by
  classical
  have hsub : Set.pi Set.univ (fun _ : Fin k => {u | base u = e}) ⊆
      {us | bestOf n fields meas other record final fallback base s us = e} := by
    intro us hus
    have hall : ∀ a, base (us a) = e := fun a => hus a (Set.mem_univ a)
    have hw' : (fun i : Fin n => s.weights.getD i 0) = w := by
      funext i
      rw [hws]
      simp
    obtain ⟨a, ha, hr, -⟩ := (C63_best_candidate fields meas other hother w hw
      (fun (i : Fin n) a => (s.locs.getD i []).getD a 0) (List.ofFn fun a => record (base (us a)))).2
      (by
        intro h
        have := congrArg List.length h
        rw [List.length_ofFn] at this
        exact hk this)
    have hex : ∃ e', final e' = final e := ⟨e, rfl⟩
    show bestOf n fields meas other record final fallback base s us = e
    rw [bestOf, hw', hr]
    simp only [List.getElem_ofFn, hall, ← hfinal]
    rw [dif_pos hex]
    exact hinj hex.choose_spec
  refine le_trans ?_ (measureReal_mono hsub)
  rw [measureReal_def, Measure.pi_pi, ENNReal.toReal_prod]
  simp only [Finset.prod_const, Finset.card_univ, Fintype.card_fin]
  exact pow_le_pow_left₀ hp he k

section

variable [Fintype O] [Fintype E] [MeasurableSingletonClass O] [MeasurableSingletonClass E]
  {U' : Type*} [MeasurableSpace U']
  {n : ℕ} {cfg : SmcConfig ℝ} {env : Env ℝ O E R} {check : Bool} {w : Fin n → ℝ}
  {x : Fin n → List ℝ} {s : Smc ℝ O R}

/-- **C152.**  Suppose that every other particle is told from the truth by some experiment that the base
heuristic has a positive chance to choose.  Then an updater that uses the best of `k` of its experiments finds
the truth. -/
theorem C152_learns (h : Resting cfg env check w x s) (i : Fin n) (hwi : 0 < w i)
    (hone : ∀ k e, ∑ o, env.likelihood o (x k) e = 1) {d k : ℕ} (hk : k ≠ 0) (fields : List F)
    (meas : (F → V) → Fin d → ℝ) (other : List (F × V)) (hother : ∀ q ∈ other, q.1 ∈ fields)
    (record final : E → F → V) (hinj : Injective final) (hfinal : ∀ e, final e = Spec.assigned other (record e))
    (fallback : E) (base : U → E) (hbase : Measurable base) {ν : Measure U} [IsProbabilityMeasure ν]
    (htell : ∀ j, j ≠ i → ∃ e o, 0 < ν.real {u | base u = e} ∧
      env.likelihood o (x j) e ≠ env.likelihood o (x i) e)
    (out : E → U' → O) (hout : ∀ e, Measurable (out e)) {ν' : Measure U'} [IsProbabilityMeasure ν']
    (hl : ∀ e o, ν'.real {u | out e u = o} = env.likelihood o (x i) e) :
    ∀ᵐ v ∂(Measure.infinitePi fun _ : ℕ => (Measure.pi fun _ : Fin k => ν).prod ν'),
      (∀ t, (feed cfg env check (firstData (played (closedLoop cfg env check s
        (bestOf n fields meas other record final fallback base) out)) t v) s).2 = .ok ()) →
      Tendsto (fun t => (feed cfg env check (firstData (played (closedLoop cfg env check s
        (bestOf n fields meas other record final fallback base) out)) t v) s).1.weights.getD i 0) atTop (𝓝 1) ∧
      ∀ f : List ℝ → ℝ, Tendsto (fun t => cloudMean f (feed cfg env check (firstData (played
        (closedLoop cfg env check s (bestOf n fields meas other record final fallback base) out)) t v) s).1)
          atTop (𝓝 (f (x i))) := by
  classical
  have htell' : ∀ j, ∃ e, j ≠ i → 0 < ν.real {u | base u = e} ∧
      ∃ o, env.likelihood o (x j) e ≠ env.likelihood o (x i) e := fun j => by
    by_cases hj : j = i
    · exact ⟨fallback, fun hne => absurd hj hne⟩
    · obtain ⟨e, o, h1, h2⟩ := htell j hj
      exact ⟨e, fun _ => ⟨h1, o, h2⟩⟩
  choose pair hpair using htell'
  -- a common lower bound of the chances
  obtain ⟨p, hp, hple⟩ : ∃ p : ℝ, 0 < p ∧ ∀ j, j ≠ i → p ≤ ν.real {u | base u = pair j} := by
    by_cases hex : (Finset.univ.erase i).Nonempty
    · obtain ⟨j, hj, hmin⟩ := Finset.exists_min_image (Finset.univ.erase i)
        (fun j => ν.real {u | base u = pair j}) hex
      exact ⟨_, (hpair j (Finset.ne_of_mem_erase hj)).1, fun l hl =>
        hmin l (Finset.mem_erase.2 ⟨hl, Finset.mem_univ l⟩)⟩
    · exact ⟨1, one_pos, fun j hj => absurd ⟨j, Finset.mem_erase.2 ⟨hj, Finset.mem_univ j⟩⟩ hex⟩
  refine C151_heuristics h i hwi hone (bestOf n fields meas other record final fallback base)
    (fun s => bestOf_measurable n fields meas other record final fallback base hbase s) (p ^ k) (pow_pos hp k) pair
    (fun j hj => (hpair j hj).2) (fun s' w' hw' hs' hws hxs j hj => ?_) out hout hl
  have h1 : ∀ l, w' l ≤ 1 := fun l => by
    rw [← hs']
    exact Finset.single_le_sum (fun l _ => hw' l) (Finset.mem_univ l)
  refine le_trans ?_ (C152_chance hk fields meas other hother record final hinj hfinal fallback base (pair j) p hp.le
    (hple j hj) s' w' hs' hws)
  exact mul_le_of_le_one_right (pow_pos hp k).le (mul_le_one₀ (h1 j) (hw' i) (h1 i))

end

/-! ### States -/

section

variable {n m : ℕ} {cfg : SmcConfig ℝ} {env : Env ℝ (Fin 2) (Fin m) R} {check : Bool} {w : Fin n → ℝ}
  {x : Fin n → List ℝ} {s : Smc ℝ (Fin 2) R} {b : TomoBasis} {U' : Type*} [MeasurableSpace U']

/-- **C152, states.**  The particles are different states and the measurements of the base heuristic determine
every state, each having a positive chance, as those of `RandomPauliHeuristic` (C140).  Then the best of `k`
of them, chosen by the updater's own covariance, finds the true state. -/
theorem C152_states (h : Resting cfg env check w x s) (hb : Spec.IsTomoBasis b.side b.data)
    (effect : Fin m → List ℝ) (hm : ∀ e, (effect e).length = b.data.length) (hdet : Spec.Determines b effect)
    (hx : ∀ i, Spec.IsState b (x i)) (hxinj : Function.Injective x)
    (hL : ∀ (o : Fin 2) i e, ∃ l, tomoLikelihood (.array [(o.val : ℤ)]) (fun _ : Fin 1 => x i) effect = .ok [l] ∧
      env.likelihood o (x i) e = l 0 e)
    (i : Fin n) (hwi : 0 < w i) {d k : ℕ} (hk : k ≠ 0) (fields : List F)
    (meas : (F → V) → Fin d → ℝ) (other : List (F × V)) (hother : ∀ q ∈ other, q.1 ∈ fields)
    (record final : Fin m → F → V) (hinj : Injective final)
    (hfinal : ∀ e, final e = Spec.assigned other (record e)) (fallback : Fin m) (base : U → Fin m)
    (hbase : Measurable base) {ν : Measure U} [IsProbabilityMeasure ν] (hpos : ∀ e, 0 < ν.real {u | base u = e})
    (out : Fin m → U' → Fin 2) (hout : ∀ e, Measurable (out e)) {ν' : Measure U'} [IsProbabilityMeasure ν']
    (hl : ∀ e o, ν'.real {u | out e u = o} = env.likelihood o (x i) e) :
    ∀ᵐ v ∂(Measure.infinitePi fun _ : ℕ => (Measure.pi fun _ : Fin k => ν).prod ν'),
      (∀ t, (feed cfg env check (firstData (played (closedLoop cfg env check s
        (bestOf n fields meas other record final fallback base) out)) t v) s).2 = .ok ()) →
      Tendsto (fun t => (feed cfg env check (firstData (played (closedLoop cfg env check s
        (bestOf n fields meas other record final fallback base) out)) t v) s).1.weights.getD i 0) atTop (𝓝 1) := by
  have hlike : ∀ (o : Fin 2) k e, env.likelihood o (x k) e =
      if o = 0 then 1 - max 0 (min 1 (Matrix.trace (Spec.op b.side b.data (effect e) * Spec.op b.side b.data (x k))).re)
      else max 0 (min 1 (Matrix.trace (Spec.op b.side b.data (effect e) * Spec.op b.side b.data (x k))).re) := by
    intro o k e
    obtain ⟨l, h1, h2⟩ := hL o k e
    obtain ⟨L, h3, h4⟩ := C41_likelihood hb [(o.val : ℤ)] (by simp) (fun _ : Fin 1 => x k) effect
      (fun _ => (hx k).1) hm
    rw [h1] at h3
    obtain rfl := Except.ok.inj h3
    obtain ⟨l', _, h5, -, h6⟩ := List.forall₂_cons_left_iff.mp h4
    obtain rfl := (List.cons.inj h6).1
    rw [h2, (h5 0 e).1]
    fin_cases o <;> simp
  have hone : ∀ k e, ∑ o, env.likelihood o (x k) e = 1 := by
    intro k e
    rw [Fin.sum_univ_two, hlike, hlike]
    simp
  have := C152_learns h i hwi hone hk fields meas other hother record final hinj hfinal fallback base hbase
    (ν := ν) (fun j hj => by
      by_contra hc
      push Not at hc
      refine hj (hxinj (hdet _ _ (hx j) (hx i)
        (sameStatistics_of_clip hb _ _ effect (hx j).1 (hx i).1 hm fun e => ?_)))
      have := hc e 1 (hpos e)
      rw [hlike, hlike] at this
      simpa using this) out hout hl
  filter_upwards [this] with v hv hok
  exact (hv hok).1

end

/-- Case for C152: the completely mixed qubit, told from a polarised one by the best of three measurements,
each drawn from three. -/
example : ∀ᵐ v ∂(Measure.infinitePi fun _ : ℕ =>
      (Measure.pi fun _ : Fin 3 => (PMF.uniformOfFintype (Fin 3)).toMeasure).prod
        (PMF.uniformOfFintype (Fin 2)).toMeasure),
    Tendsto (fun t => (feed phaseCfg (bitEnv (List.ofFn bitStates)) true
        (firstData (played (closedLoop phaseCfg (bitEnv (List.ofFn bitStates)) true
          (construct phaseCfg (bitEnv (List.ofFn bitStates)) 2 false ()).1
          (bestOf 2 (d := 4) (k := 3) [()] (fun r a => (r ()).getD a 0) [] (fun e _ => bitMeas e)
            (fun e _ => bitMeas e) 0 id) fun _ u => u)) t v)
        (construct phaseCfg (bitEnv (List.ofFn bitStates)) 2 false ()).1).1.weights.getD 0 0)
      atTop (𝓝 1) := by
  obtain ⟨B, h3, hm, hdet, hst⟩ := bit_determined
  have hinj : Injective fun (e : Fin 3) (_ : Unit) => bitMeas e := by
    intro e e' h
    have h1 : bitMeas e = bitMeas e' := congrFun h ()
    fin_cases e <;> fin_cases e' <;> first | rfl | (exfalso; revert h1; simp [bitMeas])
  have hl := C152_states (bit_resting true) h3 bitMeas hm hdet hst bit_injective
    (fun o i e => (bit_like o i e _).1) 0 (by norm_num) (d := 4) (k := 3) (by norm_num) [()]
    (fun (r : Unit → List ℝ) a => (r ()).getD a 0) [] (by simp) (fun e _ => bitMeas e) (fun e _ => bitMeas e) hinj
    (fun e => rfl) 0 (base := id) measurable_id (ν := (PMF.uniformOfFintype (Fin 3)).toMeasure)
    (fun e => by simp [measureReal_def])
    (fun _ u => u) (fun _ => measurable_id) (ν' := (PMF.uniformOfFintype (Fin 2)).toMeasure)
    (fun e o => by
      rw [(bit_like o 0 e _).2]
      simp [measureReal_def])
  filter_upwards [hl] with v hv
  exact hv fun t => bit_accepted _

end QInfer
