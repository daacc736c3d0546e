import Verif.Lemmas.Products

/-!
Products of functions of successive data and of all data before, whose factors have conditional mean at most
one; and the distance of two distributions from their affinity.
-/

namespace QInfer

open Filter Topology MeasureTheory ProbabilityTheory Function

variable {Ω S : Type*} [MeasurableSpace Ω] [MeasurableSpace S] [Fintype S] [MeasurableSingletonClass S]
  {P : Measure Ω} [IsProbabilityMeasure P] {X : ℕ → Ω → S}

theorem past_int (hX : ∀ t, Measurable (X t)) (φ : ∀ t, (Fin t → S) → S → ℝ) (hφ : ∀ t h d, 0 ≤ φ t h d) (t : ℕ) :
    Integrable (fun v => ∏ r ∈ Finset.range t, φ r (fun i => X i v) (X r v)) P := by
  classical
  refine bounded_int (Finset.measurable_prod _ fun r _ => ?_)
    (∏ r ∈ Finset.range t, ∑ q : (Fin r → S) × S, φ r q.1 q.2) fun v => ?_
  · exact (measurable_of_finite fun q : (Fin r → S) × S => φ r q.1 q.2).comp
      ((measurable_pi_lambda _ fun i : Fin r => hX i).prodMk (hX r))
  rw [abs_of_nonneg (Finset.prod_nonneg fun r _ => hφ _ _ _)]
  exact Finset.prod_le_prod (fun r _ => hφ _ _ _) fun r _ =>
    Finset.single_le_sum (f := fun q : (Fin r → S) × S => φ r q.1 q.2) (fun q _ => hφ r _ _)
      (Finset.mem_univ ((fun i : Fin r => X i v), X r v))

/-- The mean of such a product is at most one. -/
theorem past_mean (hX : ∀ t, Measurable (X t)) (φ : ∀ t, (Fin t → S) → S → ℝ) (hφ : ∀ t h d, 0 ≤ φ t h d)
    (h1 : ∀ t h, ∑ d, φ t h d * P.real {v | (∀ i : Fin t, X i v = h i) ∧ X t v = d} ≤
      P.real {v | ∀ i : Fin t, X i v = h i}) (t : ℕ) :
    ∫ v, ∏ r ∈ Finset.range t, φ r (fun i => X i v) (X r v) ∂P ≤ 1 := by
  classical
  induction t with
  | zero => simp
  | succ t ih =>
    refine le_trans ?_ ih
    have hs : ∀ f : Ω → ℝ, Integrable f P → ∫ v, f v ∂P =
        ∑ h : Fin t → S, ∫ v in {v | ∀ i : Fin t, X i v = h i}, f v ∂P := fun f hf => by
      have := products_split hX f hf t Set.univ
      simpa using this
    rw [hs _ (past_int hX φ hφ (t + 1)), hs _ (past_int hX φ hφ t)]
    refine Finset.sum_le_sum fun h _ => ?_
    have hm := cell_meas hX t h
    by_cases hne : ∃ v₀, ∀ i : Fin t, X i v₀ = h i
    · obtain ⟨v₀, hv₀⟩ := hne
      obtain ⟨c, hc⟩ : ∃ c, c = ∏ r ∈ Finset.range t, φ r (fun i => X i v₀) (X r v₀) := ⟨_, rfl⟩
      have hc0 : 0 ≤ c := by rw [hc]; exact Finset.prod_nonneg fun r _ => hφ _ _ _
      have e0 : ∀ v ∈ {v | ∀ i : Fin t, X i v = h i},
          ∏ r ∈ Finset.range t, φ r (fun i => X i v) (X r v) = c := fun v hv => by
        rw [hc]
        refine Finset.prod_congr rfl fun r hr => ?_
        have hr' := Finset.mem_range.1 hr
        have ha : ∀ r, r < t → X r v = X r v₀ := fun r hr => (hv ⟨r, hr⟩).trans (hv₀ ⟨r, hr⟩).symm
        rw [ha r hr']
        congr 1
        funext i
        exact ha i (i.2.trans hr')
      have e1 : ∀ v ∈ {v | ∀ i : Fin t, X i v = h i},
          ∏ r ∈ Finset.range (t + 1), φ r (fun i => X i v) (X r v) = c *
            ∏ r ∈ Finset.range (t + 1), (fun r d => if r = t then φ t h d else 1) r (X r v) := fun v hv => by
        have hh : (fun i : Fin t => X i v) = h := funext hv
        rw [Finset.prod_range_succ, e0 v hv, hh, Finset.prod_range_succ, Finset.prod_eq_one, one_mul]
        · simp
        · intro r hr
          simp [(Finset.mem_range.1 hr).ne]
      rw [setIntegral_congr_fun hm e1, integral_const_mul,
        (products_cell hX (fun r d => if r = t then φ t h d else 1) t h).1, setIntegral_congr_fun hm e0,
        setIntegral_const, smul_eq_mul, mul_comm (P.real _)]
      refine mul_le_mul_of_nonneg_left ?_ hc0
      rw [Finset.prod_eq_one (fun i _ => by simp [i.2.ne]), one_mul]
      simpa using h1 t h
    · have : {v | ∀ i : Fin t, X i v = h i} = ∅ := by
        ext v
        simp only [Set.mem_ofPred_eq, Set.mem_empty_iff_false, iff_false]
        exact fun hv => hne ⟨v, hv⟩
      rw [this]
      simp

variable {O : Type*} [Fintype O]

/-- Two distributions of affinity near one are near each other. -/
theorem affinity_near (p q : O → ℝ) (hp : ∀ o, 0 ≤ p o) (hq : ∀ o, 0 ≤ q o) (hp1 : ∑ o, p o = 1)
    (hq1 : ∑ o, q o = 1) (o : O) : (p o - q o) ^ 2 ≤ 8 * (1 - ∑ o, √(p o * q o)) := by
  have hle1 : ∀ r : O → ℝ, (∀ o, 0 ≤ r o) → ∑ o, r o = 1 → r o ≤ 1 := fun r hr hr1 => by
    rw [← hr1]
    exact Finset.single_le_sum (f := r) (fun o _ => hr o) (Finset.mem_univ o)
  have key : 2 * ∑ o, √(p o * q o) = 2 - ∑ o, (√(p o) - √(q o)) ^ 2 := by
    have : ∀ o, (√(p o) - √(q o)) ^ 2 = p o + q o - 2 * √(p o * q o) := by
      intro o
      rw [Real.sqrt_mul (hp o), sub_sq, Real.sq_sqrt (hp o), Real.sq_sqrt (hq o)]
      ring
    simp_rw [this]
    rw [Finset.sum_sub_distrib, Finset.sum_add_distrib, hp1, hq1, ← Finset.mul_sum]
    ring
  have h1 := Finset.single_le_sum (f := fun o => (√(p o) - √(q o)) ^ 2)
      (fun o _ => sq_nonneg _) (Finset.mem_univ o)
  have ha := Real.sq_sqrt (hp o)
  have hb := Real.sq_sqrt (hq o)
  have ha0 := Real.sqrt_nonneg (p o)
  have hb0 := Real.sqrt_nonneg (q o)
  have ha1 : √(p o) ≤ 1 := Real.sqrt_le_one.2 (hle1 p hp hp1)
  have hb1 : √(q o) ≤ 1 := Real.sqrt_le_one.2 (hle1 q hq hq1)
  obtain ⟨a, haa⟩ : ∃ a, a = √(p o) := ⟨_, rfl⟩
  obtain ⟨b, hbb⟩ : ∃ b, b = √(q o) := ⟨_, rfl⟩
  rw [← haa] at ha ha0 ha1 h1
  rw [← hbb] at hb hb0 hb1 h1
  have h2 : (p o - q o) ^ 2 = (a - b) ^ 2 * (a + b) ^ 2 := by rw [← ha, ← hb]; ring
  have h3 : (a + b) ^ 2 ≤ 4 := by nlinarith
  have h4 : (a - b) ^ 2 * (a + b) ^ 2 ≤ (a - b) ^ 2 * 4 := mul_le_mul_of_nonneg_left h3 (sq_nonneg _)
  rw [h2]
  linarith

/-- The affinity of two distributions is at most one. -/
theorem affinity_one (p q : O → ℝ) (hp : ∀ o, 0 ≤ p o) (hq : ∀ o, 0 ≤ q o) (hp1 : ∑ o, p o = 1)
    (hq1 : ∑ o, q o = 1) : ∑ o, √(p o * q o) ≤ 1 := by
  by_cases hO : Nonempty O
  · have := affinity_near p q hp hq hp1 hq1 hO.some
    nlinarith [sq_nonneg (p hO.some - q hO.some)]
  · have : IsEmpty O := not_nonempty_iff.1 hO
    simp at hp1

end QInfer
