import Verif.Props.ResampleNoise

/-!
# C114: what resampling does to predictions

How far the Liu-West resampler moves a particle from its parent, and what this does to the averages
`est_meanfn` and the predicted probabilities.
-/

namespace QInfer

open MeasureTheory ProbabilityTheory

section drift

variable {Ω : Type*} [MeasurableSpace Ω] {P : Measure Ω} [IsProbabilityMeasure P] {n N d : ℕ}
  {κ : Measure (Fin d → ℝ)} {U : Fin n → Ω → ℝ} {Z : Fin n → Ω → Fin d → ℝ}

/-- The squared distance of two parameter vectors. -/
noncomputable def Spec.distSq (y y' : Fin d → ℝ) : ℝ := ∑ k, (y k - y' k) ^ 2

/-- The total variance of a cloud. -/
noncomputable def Spec.totalVar (w : Fin N → ℝ) (x : Fin N → Fin d → ℝ) : ℝ := ∑ i, w i * Spec.distSq (x i) (pmean w x)

theorem totalVar_eq (w : Fin N → ℝ) (hs : ∑ i, w i = 1) (x : Fin N → Fin d → ℝ) :
    Spec.totalVar w x = ∑ k, pcov w x k k := by
  unfold Spec.totalVar Spec.distSq pcov
  simp only [Finset.mul_sum]
  rw [Finset.sum_comm]
  refine Finset.sum_congr rfl fun k _ => ?_
  have : ∀ i, w i * (x i k - pmean w x k) ^ 2 =
      w i * x i k * x i k - 2 * pmean w x k * (w i * x i k) + pmean w x k ^ 2 * w i := fun i => by ring
  simp only [this, Finset.sum_add_distrib, Finset.sum_sub_distrib, ← Finset.mul_sum, hs]
  have : ∑ i, w i * x i k = pmean w x k := rfl
  rw [this]
  ring

theorem totalVar_nonneg (w : Fin N → ℝ) (hw : ∀ i, 0 ≤ w i) (x : Fin N → Fin d → ℝ) : 0 ≤ Spec.totalVar w x :=
  Finset.sum_nonneg fun i _ => mul_nonneg (hw i) (Finset.sum_nonneg fun k _ => sq_nonneg _)

/-- A single new particle: integrability and moments of its displacement. -/
theorem lw_displacement (hr : LwRandom P κ U Z) (hκ : UnitKernel κ) (w : Fin N → ℝ)
    (hw : ∀ i, 0 ≤ w i) (hs : ∑ i, w i = 1) (x : Fin N → Fin d → ℝ) (a h : ℝ)
    (S : Matrix (Fin d) (Fin d) ℝ) (hS : S * S.transpose = pcov w x) (i : Fin n) (k l : Fin d) :
    let X := fun v => newLoc w (pos_of_sum hs) x a h S (U i v) (Z i v)
    let p := fun v => x (parent w (pos_of_sum hs) (U i v))
    Integrable (fun v => (X v k - p v k) * (X v l - p v l)) P ∧
    ∫ v, (X v k - p v k) * (X v l - p v l) ∂P = ((1 - a) ^ 2 + h ^ 2) * pcov w x k l := by
  intro X p
  have := hκ.prob
  have hmeasl : ∀ j k, Measurable fun z : Fin d → ℝ => lwLocation (a - 1) h (pmean w x) S x j z k := fun j k => by
    unfold lwLocation; fun_prop
  have h1 := hr.expect w hw hs (fun j z => (lwLocation (a - 1) h (pmean w x) S x j z k - pmean w x k) *
    (lwLocation (a - 1) h (pmean w x) S x j z l - pmean w x l))
    (fun j => ((hmeasl j k).sub_const _).mul ((hmeasl j l).sub_const _))
    (fun j => integrable_lwLocation_mul w x (a - 1) h S hκ j k l) i
  have hd : ∀ v k, lwLocation (a - 1) h (pmean w x) S x (parent w (pos_of_sum hs) (U i v)) (Z i v) k - pmean w x k =
      X v k - p v k := fun v k => by
    simp only [X, p, newLoc, lwLocation]; ring
  simp only [hd] at h1
  refine ⟨h1.1, h1.2.trans ?_⟩
  rw [(C20_cov_scaled w hs x (a - 1) h S hS κ hκ k l).1]
  ring

/-- A single new particle: integrability and moments of its deviation from the mean. -/
theorem lw_deviation (hr : LwRandom P κ U Z) (hκ : UnitKernel κ) (w : Fin N → ℝ)
    (hw : ∀ i, 0 ≤ w i) (hs : ∑ i, w i = 1) (x : Fin N → Fin d → ℝ) (a h : ℝ)
    (S : Matrix (Fin d) (Fin d) ℝ) (hS : S * S.transpose = pcov w x) (i : Fin n) (k l : Fin d) :
    let X := fun v => newLoc w (pos_of_sum hs) x a h S (U i v) (Z i v)
    (Integrable (fun v => X v k) P ∧ ∫ v, X v k ∂P = pmean w x k) ∧
    Integrable (fun v => (X v k - pmean w x k) * (X v l - pmean w x l)) P ∧
    ∫ v, (X v k - pmean w x k) * (X v l - pmean w x l) ∂P = (a ^ 2 + h ^ 2) * pcov w x k l := by
  intro X
  have := hκ.prob
  have hmeasl : ∀ j k, Measurable fun z : Fin d → ℝ => lwLocation a h (pmean w x) S x j z k := fun j k => by
    unfold lwLocation; fun_prop
  have h0 := hr.expect w hw hs (fun j z => lwLocation a h (pmean w x) S x j z k) (fun j => hmeasl j k)
      (fun j => integrable_lwLocation w x a h S hκ j k) i
  have h1 := hr.expect w hw hs (fun j z => (lwLocation a h (pmean w x) S x j z k - pmean w x k) *
    (lwLocation a h (pmean w x) S x j z l - pmean w x l))
    (fun j => ((hmeasl j k).sub_const _).mul ((hmeasl j l).sub_const _))
    (fun j => integrable_lwLocation_mul w x a h S hκ j k l) i
  exact ⟨⟨h0.1, h0.2.trans (C20_mean_preserved w hs x a h S κ hκ k)⟩, h1.1,
    h1.2.trans (C20_cov_scaled w hs x a h S hS κ hκ k l).1⟩

/-- **C114, distance.**  The mean squared distance of a new particle from its parent is
`((1 - a)² + h²)` times the total variance of the cloud: `2 (1 - a)` times with the default `h`. -/
theorem C114_distance (hr : LwRandom P κ U Z) (hκ : UnitKernel κ) (w : Fin N → ℝ)
    (hw : ∀ i, 0 ≤ w i) (hs : ∑ i, w i = 1) (x : Fin N → Fin d → ℝ) (a h : ℝ)
    (S : Matrix (Fin d) (Fin d) ℝ) (hS : S * S.transpose = pcov w x) (i : Fin n) :
    ∫ v, Spec.distSq (newLoc w (pos_of_sum hs) x a h S (U i v) (Z i v)) (x (parent w (pos_of_sum hs) (U i v))) ∂P =
      ((1 - a) ^ 2 + h ^ 2) * Spec.totalVar w x ∧
    (a ^ 2 + h ^ 2 = 1 → ((1 - a) ^ 2 + h ^ 2) * Spec.totalVar w x = 2 * (1 - a) * Spec.totalVar w x) := by
  constructor
  · unfold Spec.distSq
    simp only [sq (_ - x _ _)]
    rw [integral_finsetSum _ fun k _ => (lw_displacement hr hκ w hw hs x a h S hS i k k).1, totalVar_eq w hs,
      Finset.mul_sum]
    exact Finset.sum_congr rfl fun k _ => (lw_displacement hr hκ w hw hs x a h S hS i k k).2
  · intro hah
    congr 1
    linear_combination hah

/-- The expectation of a polynomial of second degree from the first two moments. -/
theorem second_degree_expect (Y : Fin d → Ω → ℝ) (w : Fin N → ℝ) (hs : ∑ i, w i = 1) (x : Fin N → Fin d → ℝ) (s : ℝ)
    (h1 : ∀ k, Integrable (Y k) P ∧ ∫ v, Y k v ∂P = pmean w x k)
    (h2 : ∀ k l, Integrable (fun v => (Y k v - pmean w x k) * (Y l v - pmean w x l)) P ∧
      ∫ v, (Y k v - pmean w x k) * (Y l v - pmean w x l) ∂P = s * pcov w x k l)
    (c : ℝ) (b : Fin d → ℝ) (Q : Matrix (Fin d) (Fin d) ℝ) (hQ : s = 1 ∨ Q = 0) :
    Integrable (fun v => c + ∑ k, b k * Y k v + ∑ k, ∑ l, Q k l * (Y k v * Y l v)) P ∧
    ∫ v, c + ∑ k, b k * Y k v + ∑ k, ∑ l, Q k l * (Y k v * Y l v) ∂P =
      ∑ j, w j * (c + ∑ k, b k * x j k + ∑ k, ∑ l, Q k l * (x j k * x j l)) := by
  have hprod : ∀ k l, Integrable (fun v => Y k v * Y l v) P ∧
      Q k l * ∫ v, Y k v * Y l v ∂P = ∑ j, w j * (Q k l * (x j k * x j l)) := by
    intro k l
    have he : (fun v => Y k v * Y l v) = fun v => (Y k v - pmean w x k) * (Y l v - pmean w x l) +
        (pmean w x l * Y k v + (pmean w x k * Y l v - pmean w x k * pmean w x l)) := by
      funext v; ring
    rw [he]
    have i2 : Integrable (fun v => pmean w x k * Y l v - pmean w x k * pmean w x l) P :=
      ((h1 l).1.const_mul (pmean w x k)).sub (integrable_const (pmean w x k * pmean w x l))
    have i1 : Integrable (fun v => pmean w x l * Y k v + (pmean w x k * Y l v - pmean w x k * pmean w x l)) P :=
      ((h1 k).1.const_mul (pmean w x l)).add i2
    refine ⟨(h2 k l).1.add i1, ?_⟩
    rw [integral_add (h2 k l).1 i1, integral_add ((h1 k).1.const_mul _) i2,
      integral_sub ((h1 l).1.const_mul _) (integrable_const _),
      (h2 k l).2, integral_const_mul, integral_const_mul, (h1 k).2, (h1 l).2, integral_const]
    rcases hQ with hQ | hQ
    · rw [hQ, one_mul]
      have : ∑ j, w j * (Q k l * (x j k * x j l)) = Q k l * ∑ j, w j * x j k * x j l := by
        rw [Finset.mul_sum]
        exact Finset.sum_congr rfl fun j _ => by ring
      rw [this]
      congr 1
      unfold pcov
      simp only [probReal_univ, one_smul]
      ring
    · simp [hQ]
  have j0 : Integrable (fun _ : Ω => c) P := integrable_const c
  have j1 : Integrable (fun v => ∑ k, b k * Y k v) P :=
    integrable_finsetSum _ fun k _ => (h1 k).1.const_mul _
  have j2 : Integrable (fun v => ∑ k, ∑ l, Q k l * (Y k v * Y l v)) P :=
    integrable_finsetSum _ fun k _ => integrable_finsetSum _ fun l _ => (hprod k l).1.const_mul _
  have j01 : Integrable (fun v => c + ∑ k, b k * Y k v) P := j0.add j1
  refine ⟨j01.add j2, ?_⟩
  have e3 : ∫ v, ∑ k, ∑ l, Q k l * (Y k v * Y l v) ∂P = ∑ k, ∫ v, ∑ l, Q k l * (Y k v * Y l v) ∂P :=
    integral_finsetSum _ fun k _ => integrable_finsetSum _ fun l _ => (hprod k l).1.const_mul _
  rw [integral_add j01 j2, integral_add j0 j1, integral_finsetSum _ fun k _ => (h1 k).1.const_mul _, e3]
  have e2 : ∀ k, ∫ v, ∑ l, Q k l * (Y k v * Y l v) ∂P = ∑ l, ∑ j, w j * (Q k l * (x j k * x j l)) := fun k => by
    rw [integral_finsetSum _ fun l _ => (hprod k l).1.const_mul _]
    exact Finset.sum_congr rfl fun l _ => by rw [integral_const_mul, (hprod k l).2]
  simp only [e2, integral_const_mul, (h1 _).2, integral_const]
  simp only [mul_add, Finset.sum_add_distrib, ← Finset.sum_mul, hs]
  congr 1
  · congr 1
    · simp
    · simp only [Finset.mul_sum, pmean]
      rw [Finset.sum_comm]
      exact Finset.sum_congr rfl fun j _ => Finset.sum_congr rfl fun k _ => by ring
  · simp only [Finset.mul_sum]
    rw [Finset.sum_comm (s := (Finset.univ : Finset (Fin N)))]
    exact Finset.sum_congr rfl fun k _ => Finset.sum_comm

/-- **C114, polynomials of second degree.**  With the default `h` the average of every function
`c + b·y + yᵀ Q y` over the new cloud has the old average as its expectation; for `Q = 0` this holds for all
`a` and `h`.  In particular a likelihood that is linear in the parameters predicts on average what it
predicted before. -/
theorem C114_second_degree (hr : LwRandom P κ U Z) (hκ : UnitKernel κ) (w : Fin N → ℝ)
    (hw : ∀ i, 0 ≤ w i) (hs : ∑ i, w i = 1) (x : Fin N → Fin d → ℝ) (a h : ℝ)
    (S : Matrix (Fin d) (Fin d) ℝ) (hS : S * S.transpose = pcov w x) (hn : n ≠ 0)
    (c : ℝ) (b : Fin d → ℝ) (Q : Matrix (Fin d) (Fin d) ℝ) (hah : a ^ 2 + h ^ 2 = 1 ∨ Q = 0)
    (f : (Fin d → ℝ) → ℝ) (hf : ∀ y, f y = c + ∑ k, b k * y k + ∑ k, ∑ l, Q k l * (y k * y l)) :
    ∫ v, pmeanFn (fun _ => 1 / (n : ℝ)) (fun i => newLoc w (pos_of_sum hs) x a h S (U i v) (Z i v)) f ∂P =
      pmeanFn w x f := by
  have hn' : (n : ℝ) ≠ 0 := Nat.cast_ne_zero.2 hn
  have hone : ∀ i, Integrable (fun v => f (newLoc w (pos_of_sum hs) x a h S (U i v) (Z i v))) P ∧
      ∫ v, f (newLoc w (pos_of_sum hs) x a h S (U i v) (Z i v)) ∂P = ∑ j, w j * f (x j) := by
    intro i
    simp only [hf]
    exact second_degree_expect (fun k v => newLoc w (pos_of_sum hs) x a h S (U i v) (Z i v) k) w hs x _
      (fun k => (lw_deviation hr hκ w hw hs x a h S hS i k k).1)
      (fun k l => (lw_deviation hr hκ w hw hs x a h S hS i k l).2) c b Q hah
  unfold pmeanFn
  rw [integral_finsetSum _ fun i _ => (hone i).1.const_mul _]
  simp only [integral_const_mul, (hone _).2, Finset.sum_const, Finset.card_univ, Fintype.card_fin, nsmul_eq_mul]
  field_simp

theorem sq_integral_le {g : Ω → ℝ} (hg : MemLp g 2 P) : (∫ v, g v ∂P) ^ 2 ≤ ∫ v, g v ^ 2 ∂P := by
  have h1 := variance_nonneg g P
  rw [variance_eq_sub hg] at h1
  simpa using h1

/-- The squared error of an average of independent variables with common bounds. -/
theorem average_error (hn : n ≠ 0) (F : Fin n → Ω → ℝ) (hF : ∀ i, MemLp (F i) 2 P) (t B V : ℝ) (m : ℝ)
    (hm : ∀ i, ∫ v, F i v ∂P = m) (hB : (m - t) ^ 2 ≤ B) (hV : ∀ i, variance (F i) P ≤ V)
    (hind : Pairwise fun i j => F i ⟂ᵢ[P] F j) :
    ∫ v, ∑ i, 1 / (n : ℝ) * F i v ∂P = m ∧ ∫ v, (∑ i, 1 / (n : ℝ) * F i v - t) ^ 2 ∂P ≤ B + V / n := by
  have hn' : (0 : ℝ) < n := Nat.cast_pos.2 (Nat.pos_of_ne_zero hn)
  have hmean : ∫ v, ∑ i, 1 / (n : ℝ) * F i v ∂P = m := by
    rw [integral_finsetSum _ fun i _ => ((hF i).integrable (by norm_num)).const_mul _]
    simp only [integral_const_mul, hm, Finset.sum_const, Finset.card_univ, Fintype.card_fin, nsmul_eq_mul]
    field_simp
  refine ⟨hmean, ?_⟩
  have hA : MemLp (fun v => ∑ i, 1 / (n : ℝ) * F i v) 2 P := memLp_finsetSum _ fun i _ => (hF i).const_mul _
  have hAt : MemLp (fun v => ∑ i, 1 / (n : ℝ) * F i v - t) 2 P := hA.sub (memLp_const t)
  have h1 : variance (fun v => ∑ i, 1 / (n : ℝ) * F i v - t) P =
      ∫ v, (∑ i, 1 / (n : ℝ) * F i v - t) ^ 2 ∂P - (m - t) ^ 2 := by
    have h2 := variance_eq_sub hAt
    have h3 : ∫ v, (∑ i, 1 / (n : ℝ) * F i v - t) ∂P = m - t := by
      rw [integral_sub (hA.integrable (by norm_num)) (integrable_const t), hmean, integral_const]
      simp
    rw [h3] at h2
    exact h2
  have h4 : variance (fun v => ∑ i, 1 / (n : ℝ) * F i v - t) P = (1 / (n : ℝ)) ^ 2 * ∑ i, variance (F i) P := by
    have e1 : (fun v => ∑ i, 1 / (n : ℝ) * F i v - t) = fun v => (fun v => 1 / (n : ℝ) * (∑ i, F i) v) v - t := by
      funext v
      simp [Finset.mul_sum]
    rw [e1, variance_sub_const (by
      exact ((memLp_finsetSum' Finset.univ fun i _ => hF i).const_mul _).aestronglyMeasurable) t,
      variance_const_mul, IndepFun.variance_sum (fun i _ => hF i) fun i _ j _ hij => hind hij]
  have h5 : (1 / (n : ℝ)) ^ 2 * ∑ i, variance (F i) P ≤ V / n := by
    have : ∑ i, variance (F i) P ≤ n * V := by
      refine (Finset.sum_le_sum fun i _ => hV i).trans ?_
      simp
    calc (1 / (n : ℝ)) ^ 2 * ∑ i, variance (F i) P ≤ (1 / (n : ℝ)) ^ 2 * (n * V) :=
          mul_le_mul_of_nonneg_left this (by positivity)
      _ = V / n := by field_simp
  linarith

/-- The error of an average over independent particles that lie near their parents. -/
theorem smooth_average (hn : n ≠ 0) (X p : Fin n → Ω → Fin d → ℝ) (hXm : ∀ i, Measurable (X i))
    (hpm : ∀ i, Measurable (p i)) (μ : Fin d → ℝ) (V W t : ℝ)
    (hdist : ∀ i, Integrable (fun v => Spec.distSq (X i v) μ) P ∧ ∫ v, Spec.distSq (X i v) μ ∂P = V)
    (hdisp : ∀ i, Integrable (fun v => Spec.distSq (X i v) (p i v)) P ∧ ∫ v, Spec.distSq (X i v) (p i v) ∂P = W)
    (f : (Fin d → ℝ) → ℝ) (hf : Measurable f) (L : ℝ)
    (hL : ∀ y y', (f y - f y') ^ 2 ≤ L ^ 2 * Spec.distSq y y')
    (hpar : ∀ i, Integrable (fun v => f (p i v)) P ∧ ∫ v, f (p i v) ∂P = t)
    (hlaw : ∀ i j, P.map (X i) = P.map (X j)) (hindX : Pairwise fun i j => X i ⟂ᵢ[P] X j) :
    (∫ v, ∑ i, 1 / (n : ℝ) * f (X i v) ∂P - t) ^ 2 ≤ L ^ 2 * W ∧
    ∫ v, (∑ i, 1 / (n : ℝ) * f (X i v) - t) ^ 2 ∂P ≤ L ^ 2 * W + L ^ 2 * V / n := by
  have hdom : ∀ (g D : Ω → ℝ), Measurable g → Integrable D P → (∀ v, g v ^ 2 ≤ L ^ 2 * D v) →
      MemLp g 2 P ∧ ∫ v, g v ^ 2 ∂P ≤ L ^ 2 * ∫ v, D v ∂P := fun g D hg hD hle => by
    have hi : Integrable (fun v => g v ^ 2) P :=
      (hD.const_mul (L ^ 2)).mono' (hg.pow_const 2).aestronglyMeasurable
        (Filter.Eventually.of_forall fun v => by
          rw [Real.norm_of_nonneg (sq_nonneg _)]; exact hle v)
    refine ⟨(memLp_two_iff_integrable_sq hg.aestronglyMeasurable).2 hi, ?_⟩
    rw [← integral_const_mul]
    exact integral_mono hi (hD.const_mul _) hle
  have hF0 := fun i => hdom (fun v => f (X i v) - f μ) _ ((hf.comp (hXm i)).sub_const _) (hdist i).1
    fun v => hL _ _
  have hG := fun i => hdom (fun v => f (X i v) - f (p i v)) _
    ((hf.comp (hXm i)).sub (hf.comp (hpm i))) (hdisp i).1 fun v => hL _ _
  have hF : ∀ i, MemLp (fun v => f (X i v)) 2 P := fun i => by
    have := (hF0 i).1.add (memLp_const (f μ))
    refine this.ae_eq (Filter.Eventually.of_forall fun v => ?_)
    simp
  have hmean : ∀ i j, ∫ v, f (X i v) ∂P = ∫ v, f (X j v) ∂P := fun i j => by
    have h1 : ∀ i, ∫ v, f (X i v) ∂P = ∫ y, f y ∂(P.map (X i)) := fun i => by
      rw [integral_map (hXm i).aemeasurable hf.aestronglyMeasurable]
    rw [h1, h1, hlaw i j]
  obtain ⟨i₀⟩ : Nonempty (Fin n) := ⟨⟨0, Nat.pos_of_ne_zero hn⟩⟩
  have hbias : (∫ v, f (X i₀ v) ∂P - t) ^ 2 ≤ L ^ 2 * W := by
    have h1 := sq_integral_le (hG i₀).1
    rw [integral_sub ((hF i₀).integrable (by norm_num)) (hpar i₀).1, (hpar i₀).2] at h1
    rw [← (hdisp i₀).2]
    exact h1.trans (hG i₀).2
  have hvar : ∀ i, variance (fun v => f (X i v)) P ≤ L ^ 2 * V := fun i => by
    rw [← (hdist i).2, ← variance_sub_const (hF i).aestronglyMeasurable (f μ)]
    refine (variance_le_expectation_sq (hF0 i).1.aestronglyMeasurable).trans ?_
    exact (hF0 i).2
  have hind : Pairwise fun i j => (fun v => f (X i v)) ⟂ᵢ[P] (fun v => f (X j v)) := fun i j hij =>
    (hindX hij).comp hf hf
  obtain ⟨e1, e2⟩ := average_error hn (fun i v => f (X i v)) hF t _ _ (∫ v, f (X i₀ v) ∂P)
    (fun i => hmean i i₀) hbias hvar hind
  exact ⟨by rw [e1]; exact hbias, e2⟩

theorem lw_distSq_mean (hr : LwRandom P κ U Z) (hκ : UnitKernel κ) (w : Fin N → ℝ)
    (hw : ∀ i, 0 ≤ w i) (hs : ∑ i, w i = 1) (x : Fin N → Fin d → ℝ) (a h : ℝ)
    (S : Matrix (Fin d) (Fin d) ℝ) (hS : S * S.transpose = pcov w x) (hah : a ^ 2 + h ^ 2 = 1) (i : Fin n) :
    Integrable (fun v => Spec.distSq (newLoc w (pos_of_sum hs) x a h S (U i v) (Z i v)) (pmean w x)) P ∧
      ∫ v, Spec.distSq (newLoc w (pos_of_sum hs) x a h S (U i v) (Z i v)) (pmean w x) ∂P =
        Spec.totalVar w x := by
  have hD := fun k => (lw_deviation hr hκ w hw hs x a h S hS i k k).2
  unfold Spec.distSq
  simp only [sq (_ - pmean w x _)]
  refine ⟨integrable_finsetSum _ fun k _ => (hD k).1, ?_⟩
  rw [integral_finsetSum _ fun k _ => (hD k).1, totalVar_eq w hs]
  exact Finset.sum_congr rfl fun k _ => by rw [(hD k).2, hah, one_mul]

theorem lw_distSq_parent (hr : LwRandom P κ U Z) (hκ : UnitKernel κ) (w : Fin N → ℝ)
    (hw : ∀ i, 0 ≤ w i) (hs : ∑ i, w i = 1) (x : Fin N → Fin d → ℝ) (a h : ℝ)
    (S : Matrix (Fin d) (Fin d) ℝ) (hS : S * S.transpose = pcov w x) (i : Fin n) :
    Integrable (fun v => Spec.distSq (newLoc w (pos_of_sum hs) x a h S (U i v) (Z i v))
      (x (parent w (pos_of_sum hs) (U i v)))) P := by
  unfold Spec.distSq
  simp only [sq (_ - x _ _)]
  exact integrable_finsetSum _ fun k _ => (lw_displacement hr hκ w hw hs x a h S hS i k k).1

theorem lw_parent_average (hr : LwRandom P κ U Z) (hκ : UnitKernel κ) (w : Fin N → ℝ)
    (hw : ∀ i, 0 ≤ w i) (hs : ∑ i, w i = 1) (x : Fin N → Fin d → ℝ) (f : (Fin d → ℝ) → ℝ) (i : Fin n) :
    Integrable (fun v => f (x (parent w (pos_of_sum hs) (U i v)))) P ∧
      ∫ v, f (x (parent w (pos_of_sum hs) (U i v))) ∂P = pmeanFn w x f := by
  have hκp := hκ.prob
  have h1 := hr.expect w hw hs (fun j _ => f (x j)) (fun j => measurable_const) (fun j => integrable_const _) i
  refine ⟨h1.1, h1.2.trans ?_⟩
  unfold QInfer.expect pmeanFn
  simp

theorem measurable_newLoc_vec (w : Fin N → ℝ) (hN : 0 < N) (x : Fin N → Fin d → ℝ) (a h : ℝ)
    (S : Matrix (Fin d) (Fin d) ℝ) :
    Measurable fun q : ℝ × (Fin d → ℝ) => newLoc w hN x a h S q.1 q.2 :=
  measurable_pi_iff.2 fun k => measurable_newLoc w hN x a h S k

theorem lw_law (hr : LwRandom P κ U Z) (w : Fin N → ℝ) (hN : 0 < N) (x : Fin N → Fin d → ℝ) (a h : ℝ)
    (S : Matrix (Fin d) (Fin d) ℝ) (i : Fin n) :
    P.map (fun v => newLoc w hN x a h S (U i v) (Z i v)) =
      ((volume.restrict (Set.Ico (0 : ℝ) 1)).prod κ).map
        fun q : ℝ × (Fin d → ℝ) => newLoc w hN x a h S q.1 q.2 := by
  rw [← hr.law i, Measure.map_map (measurable_newLoc_vec w hN x a h S) ((hr.measU i).prodMk (hr.measZ i))]
  rfl

theorem lw_indep (hr : LwRandom P κ U Z) (w : Fin N → ℝ) (hN : 0 < N) (x : Fin N → Fin d → ℝ) (a h : ℝ)
    (S : Matrix (Fin d) (Fin d) ℝ) (i j : Fin n) (hij : i ≠ j) :
    (fun v => newLoc w hN x a h S (U i v) (Z i v)) ⟂ᵢ[P] (fun v => newLoc w hN x a h S (U j v) (Z j v)) :=
  (hr.indep.indepFun hij).comp (measurable_newLoc_vec w hN x a h S) (measurable_newLoc_vec w hN x a h S)

theorem lw_distSq_parent_eq (hr : LwRandom P κ U Z) (hκ : UnitKernel κ) (w : Fin N → ℝ)
    (hw : ∀ i, 0 ≤ w i) (hs : ∑ i, w i = 1) (x : Fin N → Fin d → ℝ) (a h : ℝ)
    (S : Matrix (Fin d) (Fin d) ℝ) (hS : S * S.transpose = pcov w x) (hah : a ^ 2 + h ^ 2 = 1) (i : Fin n) :
    ∫ v, Spec.distSq (newLoc w (pos_of_sum hs) x a h S (U i v) (Z i v))
      (x (parent w (pos_of_sum hs) (U i v))) ∂P = 2 * (1 - a) * Spec.totalVar w x := by
  obtain ⟨c1, c2⟩ := C114_distance hr hκ w hw hs x a h S hS i
  rw [c1, c2 hah]

theorem smooth_bounds (hr : LwRandom P κ U Z) (hκ : UnitKernel κ) (w : Fin N → ℝ)
    (hw : ∀ i, 0 ≤ w i) (hs : ∑ i, w i = 1) (x : Fin N → Fin d → ℝ) (a h : ℝ) (hah : a ^ 2 + h ^ 2 = 1)
    (S : Matrix (Fin d) (Fin d) ℝ) (hS : S * S.transpose = pcov w x) (hn : n ≠ 0)
    (f : (Fin d → ℝ) → ℝ) (hf : Measurable f) (L : ℝ)
    (hL : ∀ y y', (f y - f y') ^ 2 ≤ L ^ 2 * Spec.distSq y y') :
    (∫ v, ∑ i, 1 / (n : ℝ) * f (newLoc w (pos_of_sum hs) x a h S (U i v) (Z i v)) ∂P - pmeanFn w x f) ^ 2 ≤
      L ^ 2 * (2 * (1 - a) * Spec.totalVar w x) ∧
    ∫ v, (∑ i, 1 / (n : ℝ) * f (newLoc w (pos_of_sum hs) x a h S (U i v) (Z i v)) - pmeanFn w x f) ^ 2 ∂P ≤
      L ^ 2 * (2 * (1 - a) * Spec.totalVar w x) + L ^ 2 * Spec.totalVar w x / n := by
  have hX : ∀ i, Measurable fun v => newLoc w (pos_of_sum hs) x a h S (U i v) (Z i v) := by
    intro i
    have h1 : Measurable fun v => (U i v, Z i v) := (hr.measU i).prodMk (hr.measZ i)
    have h2 := Measurable.comp (measurable_newLoc_vec w (pos_of_sum hs) x a h S) h1
    exact h2
  have hp : ∀ i, Measurable fun v => x (parent w (pos_of_sum hs) (U i v)) := fun i =>
    (measurable_of_finite x).comp ((measurable_parent w _).comp (hr.measU i))
  exact smooth_average hn (fun i v => newLoc w (pos_of_sum hs) x a h S (U i v) (Z i v))
    (fun i v => x (parent w (pos_of_sum hs) (U i v))) hX hp
    (pmean w x) (Spec.totalVar w x) (2 * (1 - a) * Spec.totalVar w x) (pmeanFn w x f)
    (fun i => lw_distSq_mean hr hκ w hw hs x a h S hS hah i)
    (fun i => ⟨lw_distSq_parent hr hκ w hw hs x a h S hS i, lw_distSq_parent_eq hr hκ w hw hs x a h S hS hah i⟩)
    f hf L hL (fun i => lw_parent_average hr hκ w hw hs x f i)
    (fun i j => (lw_law hr w (pos_of_sum hs) x a h S i).trans (lw_law hr w (pos_of_sum hs) x a h S j).symm)
    (fun i j hij => lw_indep hr w (pos_of_sum hs) x a h S i j hij)

/-- **C114, smooth functions.**  For a function that changes by at most `L` times the distance (a likelihood
with bounded derivative, say) the average over the new cloud, `est_meanfn`, has an expectation that differs from
the old average by at most `L √(2 (1 - a) V)`, where `V` is the total variance of the cloud, and its mean
squared deviation from the old average is at most `L² V (2 (1 - a) + 1 / n)`. -/
theorem C114_smooth (hr : LwRandom P κ U Z) (hκ : UnitKernel κ) (w : Fin N → ℝ)
    (hw : ∀ i, 0 ≤ w i) (hs : ∑ i, w i = 1) (x : Fin N → Fin d → ℝ) (a h : ℝ) (hah : a ^ 2 + h ^ 2 = 1)
    (S : Matrix (Fin d) (Fin d) ℝ) (hS : S * S.transpose = pcov w x) (hn : n ≠ 0)
    (f : (Fin d → ℝ) → ℝ) (hf : Measurable f) (L : ℝ)
    (hL : ∀ y y', (f y - f y') ^ 2 ≤ L ^ 2 * Spec.distSq y y') :
    let A := fun v => pmeanFn (fun _ => 1 / (n : ℝ)) (fun i => newLoc w (pos_of_sum hs) x a h S (U i v) (Z i v)) f
    |∫ v, A v ∂P - pmeanFn w x f| ≤ |L| * √(2 * (1 - a) * Spec.totalVar w x) ∧
    ∫ v, (A v - pmeanFn w x f) ^ 2 ∂P ≤ L ^ 2 * Spec.totalVar w x * (2 * (1 - a) + 1 / n) := by
  intro A
  obtain ⟨e1, e2⟩ := smooth_bounds hr hκ w hw hs x a h hah S hS hn f hf L hL
  have h1 : (∫ v, A v ∂P - pmeanFn w x f) ^ 2 ≤ L ^ 2 * (2 * (1 - a) * Spec.totalVar w x) := e1
  have h2 : ∫ v, (A v - pmeanFn w x f) ^ 2 ∂P ≤
      L ^ 2 * (2 * (1 - a) * Spec.totalVar w x) + L ^ 2 * Spec.totalVar w x / n := e2
  refine ⟨?_, h2.trans (le_of_eq (by ring))⟩
  have h3 := Real.sqrt_le_sqrt h1
  rwa [Real.sqrt_sq_eq_abs, Real.sqrt_mul (sq_nonneg L), Real.sqrt_sq_eq_abs] at h3

end drift

/-! ## A case -/

/-- Case for C114: the cloud `{-1, 1}` of total variance 1, the kernel of fair signs, `a = 3/5`, a hundred new
particles and a function of slope 1/2.  The mean squared change of the average is at most 81/400. -/
example :
    let κ : Measure (Fin 1 → ℝ) :=
      (2 : ENNReal)⁻¹ • (Measure.dirac (fun _ => (1 : ℝ)) + Measure.dirac fun _ => (-1 : ℝ))
    let x : Fin 2 → Fin 1 → ℝ := fun i _ => if i = 0 then -1 else 1
    let f : (Fin 1 → ℝ) → ℝ := fun y => |y 0| / 2
    ∀ hs : ∑ i : Fin 2, (fun _ => (1/2 : ℝ)) i = 1, ∫ v, (pmeanFn (fun _ => 1 / ((100 : ℕ) : ℝ)) (fun i : Fin 100 =>
        newLoc (fun _ => (1/2 : ℝ)) (pos_of_sum hs) x (3/5) (4/5) 1 (Int.fract (v i).1) (v i).2) f - 1/2) ^ 2
      ∂(Measure.pi fun _ : Fin 100 => (volume.restrict (Set.Ico (0 : ℝ) 1)).prod κ) ≤ 81/400 := by
  intro κ x f hs
  have hκ := sign_unitKernel
  have hκp : IsProbabilityMeasure κ := hκ.prob
  have hvol : IsProbabilityMeasure (volume.restrict (Set.Ico (0 : ℝ) 1)) := ⟨by simp⟩
  have hx : (1 : Matrix (Fin 1) (Fin 1) ℝ) * (1 : Matrix (Fin 1) (Fin 1) ℝ).transpose =
      pcov (fun _ : Fin 2 => (1/2 : ℝ)) x := by
    ext i j
    have : i = j := Subsingleton.elim i j
    subst this
    simp [pcov, pmean, Fin.sum_univ_two, x]
    norm_num
  have hv : Spec.totalVar (fun _ : Fin 2 => (1/2 : ℝ)) x = 1 := by
    rw [totalVar_eq _ hs, ← hx]
    simp
  have hf0 : pmeanFn (fun _ : Fin 2 => (1/2 : ℝ)) x f = 1/2 := by
    simp [pmeanFn, Fin.sum_univ_two, x, f]
    norm_num
  have h := (C114_smooth (lwRandom_pi 100 1 κ) hκ (fun _ => (1/2 : ℝ)) (fun _ => by norm_num) hs x
    (3/5) (4/5) (by norm_num) 1 hx (by norm_num) f (by fun_prop) (1/2) (fun y y' => by
      have h1 : (|y 0| - |y' 0|) ^ 2 ≤ (y 0 - y' 0) ^ 2 := by
        rw [sq_le_sq]; exact abs_abs_sub_abs_le_abs_sub _ _
      simp only [f, Spec.distSq, Fin.sum_univ_one]
      nlinarith [h1])).2
  rw [hv, hf0] at h
  refine h.trans ?_
  norm_num

end QInfer
