import Verif.Props.Resample
import Mathlib.Probability.Moments.Variance
import Mathlib.Probability.Independence.Integration
import Mathlib.MeasureTheory.Integral.Prod
import Mathlib.MeasureTheory.Measure.Lebesgue.Basic
import Mathlib.MeasureTheory.Constructions.BorelSpace.Order
import Mathlib.MeasureTheory.Function.Floor

/-!
# C105: the noise that resampling adds

A run of the Liu-West resampler without postselection on random variates: the mean of the new cloud
is unbiased and its variance is the covariance of the old cloud divided by the number of new particles;
the covariance of the new cloud is on average smaller than that of the old one by a factor `1 - 1/n`.
-/

namespace QInfer

open MeasureTheory ProbabilityTheory

/-- What the resampler draws for `n` new particles: variates in `[0, 1)`, uniformly distributed, and
kernel draws with law `κ`, all independent. -/
structure LwRandom {Ω : Type*} [MeasurableSpace Ω] {n d : ℕ} (P : Measure Ω) (κ : Measure (Fin d → ℝ))
    (U : Fin n → Ω → ℝ) (Z : Fin n → Ω → Fin d → ℝ) : Prop where
  measU : ∀ i, Measurable (U i)
  measZ : ∀ i, Measurable (Z i)
  range : ∀ i v, U i v ∈ Set.Ico (0 : ℝ) 1
  law : ∀ i, P.map (fun v => (U i v, Z i v)) = (volume.restrict (Set.Ico (0 : ℝ) 1)).prod κ
  indep : iIndepFun (fun i v => (U i v, Z i v)) P

section parent

variable {N d : ℕ}

theorem sampleIdx_mono (w : List ℝ) : Monotone (sampleIdx w) := by
  intro u v huv
  unfold sampleIdx searchsortedRight
  refine min_le_min_right _ ?_
  generalize cumsum w = l
  induction l with
  | nil => simp
  | cons x l ih =>
    by_cases hx : x ≤ u
    · simp [List.takeWhile_cons, hx, hx.trans huv, ih]
    · simp [List.takeWhile_cons, hx]

/-- The parent for the variate `u`, resamplers.py 318-321. -/
noncomputable def parent (w : Fin N → ℝ) (hN : 0 < N) (u : ℝ) : Fin N :=
  ⟨sampleIdx (List.ofFn w) u, by unfold sampleIdx; simp; omega⟩

theorem measurable_parent (w : Fin N → ℝ) (hN : 0 < N) : Measurable (parent w hN) := by
  apply Monotone.measurable
  intro u v h
  exact sampleIdx_mono _ h

/-- **C105, parents.**  A particle is chosen as parent with probability equal to its weight. -/
theorem C105_parent_law (w : Fin N → ℝ) (hw : ∀ i, 0 ≤ w i) (hs : ∑ i, w i = 1) (j : Fin N) :
    volume {u ∈ Set.Ico (0 : ℝ) 1 | sampleIdx (List.ofFn w) u = j} = ENNReal.ofReal (w j) := by
  have hsum : (List.ofFn w).sum = 1 := by rw [List.sum_ofFn, hs]
  have hnn : ∀ x ∈ List.ofFn w, 0 ≤ x := fun x hx => by
    obtain ⟨i, rfl⟩ := (List.mem_ofFn' _ _).1 hx; exact hw i
  set a := ((List.ofFn w).take j).sum with ha
  have ha0 : 0 ≤ a := List.sum_nonneg fun x hx => hnn x (List.mem_of_mem_take hx)
  have hle : a + w j ≤ 1 := by
    have := take_sum_mono (List.ofFn w) hnn (show (j : ℕ) + 1 ≤ (List.ofFn w).length by simp)
    rw [List.take_length, hsum, List.take_succ_eq_append_getElem (by simp), List.sum_append] at this
    simpa using this
  have he : {u ∈ Set.Ico (0 : ℝ) 1 | sampleIdx (List.ofFn w) u = j} = Set.Ico a (a + w j) := by
    ext u
    simp only [Set.mem_setOf_eq, Set.mem_Ico]
    constructor
    · rintro ⟨⟨h0, h1⟩, h⟩
      have := (C17_inverse_cdf (List.ofFn w) hnn u h0 (by rw [hsum]; exact h1) j (by simp)).1 h
      simpa using this
    · rintro ⟨h0, h1⟩
      have h0' := ha0.trans h0
      have h1' := h1.trans_le hle
      refine ⟨⟨h0', h1'⟩, (C17_inverse_cdf (List.ofFn w) hnn u h0' (by rw [hsum]; exact h1') j
        (by simp)).2 ?_⟩
      simpa using And.intro h0 h1
  rw [he, Real.volume_Ico]
  congr 1; ring

end parent

section noise

variable {Ω : Type*} [MeasurableSpace Ω] {P : Measure Ω} [IsProbabilityMeasure P] {n N d : ℕ}
  {κ : Measure (Fin d → ℝ)} {U : Fin n → Ω → ℝ} {Z : Fin n → Ω → Fin d → ℝ}

theorem pos_of_sum {w : Fin N → ℝ} (hs : ∑ i, w i = 1) : 0 < N := by
  rcases Nat.eq_zero_or_pos N with h | h
  · subst h; simp at hs
  · exact h

/-- An average over the run is an average over parents and kernel draws. -/
theorem LwRandom.expect (h : LwRandom P κ U Z) [IsProbabilityMeasure κ] (w : Fin N → ℝ)
    (hw : ∀ i, 0 ≤ w i) (hs : ∑ i, w i = 1) (g : Fin N → (Fin d → ℝ) → ℝ)
    (hg : ∀ j, Measurable (g j)) (hi : ∀ j, Integrable (g j) κ) (i : Fin n) :
    Integrable (fun v => g (parent w (pos_of_sum hs) (U i v)) (Z i v)) P ∧
    ∫ v, g (parent w (pos_of_sum hs) (U i v)) (Z i v) ∂P = QInfer.expect w κ g := by
  set hN := pos_of_sum hs
  set ν := (volume.restrict (Set.Ico (0 : ℝ) 1)).map (parent w hN) with hν
  have hvol : IsProbabilityMeasure (volume.restrict (Set.Ico (0 : ℝ) 1)) := ⟨by simp⟩
  have hνp : IsProbabilityMeasure ν :=
    Measure.isProbabilityMeasure_map (measurable_parent w hN).aemeasurable
  have hreal : ∀ j, ν.real {j} = w j := fun j => by
    rw [Measure.real, hν, Measure.map_apply (measurable_parent w hN) (measurableSet_singleton j),
      Measure.restrict_apply (measurable_parent w hN (measurableSet_singleton j))]
    have : parent w hN ⁻¹' {j} ∩ Set.Ico 0 1 =
        {u ∈ Set.Ico (0 : ℝ) 1 | sampleIdx (List.ofFn w) u = j} := by
      ext u
      simp only [Set.mem_inter_iff, Set.mem_preimage, Set.mem_singleton_iff, Set.mem_setOf_eq, parent,
        Fin.ext_iff]
      tauto
    rw [this, C105_parent_law w hw hs j, ENNReal.toReal_ofReal (hw j)]
  have hlaw : P.map (fun v => (parent w hN (U i v), Z i v)) = ν.prod κ := by
    have h1 : P.map (fun v => (parent w hN (U i v), Z i v)) =
        (P.map (fun v => (U i v, Z i v))).map (Prod.map (parent w hN) id) := by
      rw [Measure.map_map ((measurable_parent w hN).prodMap measurable_id)
        ((h.measU i).prodMk (h.measZ i))]
      rfl
    rw [h1, h.law, ← Measure.map_prod_map _ _ (measurable_parent w hN) measurable_id, Measure.map_id]
  have hmeas : Measurable fun q : Fin N × (Fin d → ℝ) => g q.1 q.2 :=
    measurable_from_prod_countable_right hg
  have hpair : Measurable fun v => (parent w hN (U i v), Z i v) :=
    ((measurable_parent w hN).comp (h.measU i)).prodMk (h.measZ i)
  have hint : Integrable (fun q : Fin N × (Fin d → ℝ) => g q.1 q.2) (ν.prod κ) := by
    rw [integrable_prod_iff hmeas.aestronglyMeasurable]
    exact ⟨Filter.Eventually.of_forall hi, Integrable.of_finite⟩
  have hint' : Integrable (fun v => g (parent w hN (U i v)) (Z i v)) P := by
    rw [← hlaw] at hint
    exact (integrable_map_measure hmeas.aestronglyMeasurable hpair.aemeasurable).1 hint
  refine ⟨hint', ?_⟩
  have h2 : ∫ v, g (parent w hN (U i v)) (Z i v) ∂P =
      ∫ q, g q.1 q.2 ∂(P.map fun v => (parent w hN (U i v), Z i v)) := by
    rw [integral_map hpair.aemeasurable hmeas.aestronglyMeasurable]
  rw [h2, hlaw, integral_prod _ hint, integral_fintype Integrable.of_finite, QInfer.expect]
  exact Finset.sum_congr rfl fun j _ => by rw [hreal, smul_eq_mul]

/-- The environment of a run with draws `v`, resamplers.py 300-332, without postselection. -/
def lwNoiseEnv (h : ℝ) (S : Matrix (Fin d) (Fin d) ℝ) (z : Fin n → Fin d → ℝ) :
    LwEnv (Fin d → ℝ) (Fin d → ℝ) Unit where
  kernel _ m := (List.ofFn fun i : Fin m => if hi : (i : ℕ) < n then z ⟨i, hi⟩ else 0, ())
  disp mu z := fun m => mu m + ∑ r, (h * S m r) * z r
  valid rows := rows.map fun _ => true
  postselect := false

/-- The new particle for the variate `u` and the kernel draw `z`, resamplers.py 318-332. -/
noncomputable def newLoc (w : Fin N → ℝ) (hN : 0 < N) (x : Fin N → Fin d → ℝ) (a h : ℝ)
    (S : Matrix (Fin d) (Fin d) ℝ) (u : ℝ) (z : Fin d → ℝ) : Fin d → ℝ :=
  lwLocation a h (pmean w x) S x (parent w hN u) z

/-- The run returns equally weighted particles at `newLoc`. -/
theorem C105_run (h : LwRandom P κ U Z) (w : Fin N → ℝ) (hw : ∀ i, 0 ≤ w i) (hs : ∑ i, w i = 1)
    (x : Fin N → Fin d → ℝ) (a hh : ℝ) (S : Matrix (Fin d) (Fin d) ℝ) (maxiter : ℕ) (hm : 0 < maxiter)
    (hn : n ≠ 0) (covZero : Bool) (v : Ω) :
    liuWest (lwNoiseEnv hh S fun i => Z i v) maxiter covZero true (List.ofFn w) (List.ofFn x)
      (fun y m => a * y m + (1 - a) * pmean w x m) n (List.ofFn fun i => U i v) () =
    .ok (List.ofFn fun i => some (newLoc w (pos_of_sum hs) x a hh S (U i v) (Z i v)),
      List.replicate n (some (1 / (n : ℝ))), (if covZero then [LwWarn.zeroCov] else []), 1, ()) := by
  have hprob : IsProb (List.ofFn w) := ⟨fun y hy => by
    obtain ⟨i, rfl⟩ := (List.mem_ofFn' _ _).1 hy; exact hw i, by rw [List.sum_ofFn, hs]⟩
  have hgood : GoodLw (lwNoiseEnv hh S fun i => Z i v) fun _ => true :=
    ⟨fun _ => rfl, fun r m => by simp [lwNoiseEnv]⟩
  obtain ⟨locs, mus, seed', h1, h2, h3⟩ := C18_no_postselect (lwNoiseEnv hh S fun i => Z i v)
    (fun _ => true) hgood rfl maxiter hm covZero (List.ofFn w) hprob (List.ofFn x) (by simp)
    (fun y m => a * y m + (1 - a) * pmean w x m) (List.ofFn fun i => U i v) (by simpa using hn)
    (fun u hu => by obtain ⟨i, rfl⟩ := (List.mem_ofFn' _ _).1 hu; exact h.range i v) ()
  rw [List.length_ofFn] at h2
  rw [h2]
  have hmus : mus = List.ofFn fun i : Fin n => fun m =>
      a * x (parent w (pos_of_sum hs) (U i v)) m + (1 - a) * pmean w x m := by
    have : mus.map some = (List.ofFn fun i : Fin n => fun m =>
      a * x (parent w (pos_of_sum hs) (U i v)) m + (1 - a) * pmean w x m).map some := by
      rw [h1, List.map_ofFn, List.map_ofFn]
      congr 1
      funext i
      have hlt : sampleIdx (List.ofFn w) (U i v) < N := (parent w (pos_of_sum hs) (U i v)).2
      simp only [Function.comp]
      rw [List.getElem?_eq_getElem (by simpa using hlt)]
      simp [parent]
    exact List.map_injective_iff.2 (Option.some_injective _) this
  have hl : locs = List.ofFn fun i => some (newLoc w (pos_of_sum hs) x a hh S (U i v) (Z i v)) := by
    rw [h3, hmus]
    apply List.ext_getElem
    · simp [lwNoiseEnv]
    · intro i hi1 hi2
      simp only [List.getElem_map, List.getElem_zipWith, List.getElem_ofFn, lwNoiseEnv]
      have : i < n := by simpa using hi2
      simp only [this, dif_pos]
      rfl
  rw [hl]

theorem measurable_newLoc (w : Fin N → ℝ) (hN : 0 < N) (x : Fin N → Fin d → ℝ) (a h : ℝ)
    (S : Matrix (Fin d) (Fin d) ℝ) (k : Fin d) :
    Measurable fun q : ℝ × (Fin d → ℝ) => newLoc w hN x a h S q.1 q.2 k := by
  unfold newLoc lwLocation
  have h1 : Measurable fun q : ℝ × (Fin d → ℝ) => x (parent w hN q.1) k :=
    (measurable_of_finite (fun j => x j k)).comp ((measurable_parent w hN).comp measurable_fst)
  exact ((h1.const_mul a).add_const _).add (by fun_prop)

section moments

variable (w : Fin N → ℝ) (x : Fin N → Fin d → ℝ) (a h : ℝ) (S : Matrix (Fin d) (Fin d) ℝ)

theorem integrable_lwLocation (hκ : UnitKernel κ) (j : Fin N) (k : Fin d) :
    Integrable (fun z => lwLocation a h (pmean w x) S x j z k) κ := by
  have := hκ.prob
  exact (integrable_const _).add (integrable_finsetSum _ fun r _ => (hκ.int1 r).const_mul _)

theorem integrable_lwLocation_mul (hκ : UnitKernel κ) (j : Fin N) (k l : Fin d) :
    Integrable (fun z => (lwLocation a h (pmean w x) S x j z k - pmean w x k) *
      (lwLocation a h (pmean w x) S x j z l - pmean w x l)) κ := by
  have := hκ.prob
  have heq : ∀ z, (lwLocation a h (pmean w x) S x j z k - pmean w x k) *
      (lwLocation a h (pmean w x) S x j z l - pmean w x l) =
      a * (x j k - pmean w x k) * (a * (x j l - pmean w x l)) +
      a * (x j k - pmean w x k) * (∑ r, (h * S l r) * z r) +
      a * (x j l - pmean w x l) * (∑ r, (h * S k r) * z r) +
      ∑ r, ∑ s, (h * S k r * (h * S l s)) * (z r * z s) := by
    intro z
    have : (∑ r, ∑ s, (h * S k r * (h * S l s)) * (z r * z s)) =
        (∑ r, (h * S k r) * z r) * (∑ r, (h * S l r) * z r) := by
      rw [Finset.sum_mul_sum]
      exact Finset.sum_congr rfl fun r _ => Finset.sum_congr rfl fun s _ => by ring
    rw [this]
    unfold lwLocation
    ring
  simp only [heq]
  have hint : ∀ m, Integrable (fun z : Fin d → ℝ => ∑ r, (h * S m r) * z r) κ := fun m =>
    integrable_finsetSum _ fun r _ => (hκ.int1 r).const_mul _
  exact (((integrable_const _).add ((hint l).const_mul _)).add ((hint k).const_mul _)).add
    (integrable_finsetSum _ fun r _ => integrable_finsetSum _ fun s _ => (hκ.int2 r s).const_mul _)

end moments

/-- The first two moments of a resampled cloud. -/
theorem lw_noise (hr : LwRandom P κ U Z) (hκ : UnitKernel κ) (w : Fin N → ℝ)
    (hw : ∀ i, 0 ≤ w i) (hs : ∑ i, w i = 1) (x : Fin N → Fin d → ℝ) (a h : ℝ)
    (S : Matrix (Fin d) (Fin d) ℝ) (hS : S * S.transpose = pcov w x) (hn : n ≠ 0) (k l : Fin d) :
    let X := fun v (i : Fin n) => newLoc w (pos_of_sum hs) x a h S (U i v) (Z i v)
    ∫ v, pmean (fun _ => 1 / (n : ℝ)) (X v) k ∂P = pmean w x k ∧
    ∫ v, (pmean (fun _ => 1 / (n : ℝ)) (X v) k - pmean w x k) *
      (pmean (fun _ => 1 / (n : ℝ)) (X v) l - pmean w x l) ∂P = (a ^ 2 + h ^ 2) * pcov w x k l / n ∧
    (∀ δ > 0, P {v | δ ≤ |pmean (fun _ => 1 / (n : ℝ)) (X v) k - pmean w x k|} ≤
      ENNReal.ofReal ((a ^ 2 + h ^ 2) * pcov w x k k / (n * δ ^ 2))) ∧
    ∫ v, pcov (fun _ => 1 / (n : ℝ)) (X v) k l ∂P = (1 - 1 / n) * ((a ^ 2 + h ^ 2) * pcov w x k l) := by
  intro X
  have hκp := hκ.prob
  have hn' : (n : ℝ) ≠ 0 := Nat.cast_ne_zero.2 hn
  set μ := pmean w x with hμ
  -- deviations of a single particle
  let Y : Fin n → Fin d → Ω → ℝ := fun i k v => X v i k - μ k
  have hYm : ∀ i k, Measurable (Y i k) := fun i k =>
    ((measurable_newLoc w (pos_of_sum hs) x a h S k).comp ((hr.measU i).prodMk (hr.measZ i))).sub_const _
  have hmeasl : ∀ j k, Measurable fun z : Fin d → ℝ => lwLocation a h μ S x j z k := fun j k => by
    unfold lwLocation; fun_prop
  have hX1 : ∀ i k, Integrable (fun v => X v i k) P ∧ ∫ v, X v i k ∂P = μ k := fun i k => by
    have h1 := hr.expect w hw hs (fun j z => lwLocation a h μ S x j z k) (fun j => hmeasl j k)
      (fun j => integrable_lwLocation w x a h S hκ j k) i
    refine ⟨h1.1, h1.2.trans ?_⟩
    exact C20_mean_preserved w hs x a h S κ hκ k
  have hY1 : ∀ i k, Integrable (Y i k) P ∧ ∫ v, Y i k v ∂P = 0 := fun i k => by
    refine ⟨(hX1 i k).1.sub (integrable_const _), ?_⟩
    show ∫ v, (X v i k - μ k) ∂P = 0
    rw [integral_sub (hX1 i k).1 (integrable_const _), (hX1 i k).2, integral_const]
    simp
  have hY2 : ∀ i k l, Integrable (fun v => Y i k v * Y i l v) P ∧
      ∫ v, Y i k v * Y i l v ∂P = (a ^ 2 + h ^ 2) * pcov w x k l := fun i k l => by
    have h1 := hr.expect w hw hs (fun j z => (lwLocation a h μ S x j z k - μ k) *
      (lwLocation a h μ S x j z l - μ l)) (fun j => ((hmeasl j k).sub_const _).mul ((hmeasl j l).sub_const _))
      (fun j => integrable_lwLocation_mul w x a h S hκ j k l) i
    refine ⟨h1.1, h1.2.trans ?_⟩
    exact (C20_cov_scaled w hs x a h S hS κ hκ k l).1
  have hlp : ∀ i k, MemLp (Y i k) 2 P := fun i k => by
    rw [memLp_two_iff_integrable_sq (hYm i k).aestronglyMeasurable]
    refine (hY2 i k k).1.congr (Filter.Eventually.of_forall fun v => ?_)
    simp only [sq]
  have hind : ∀ i j, i ≠ j → ∀ k l, Y i k ⟂ᵢ[P] Y j l := fun i j hij k l =>
    (hr.indep.indepFun hij).comp
      ((measurable_newLoc w (pos_of_sum hs) x a h S k).sub_const (μ k))
      ((measurable_newLoc w (pos_of_sum hs) x a h S l).sub_const (μ l))
  have hYij : ∀ i j k l, Integrable (fun v => Y i k v * Y j l v) P ∧
      ∫ v, Y i k v * Y j l v ∂P = if i = j then (a ^ 2 + h ^ 2) * pcov w x k l else 0 := fun i j k l => by
    by_cases hij : i = j
    · subst hij; simpa using hY2 i k l
    · rw [if_neg hij]
      refine ⟨(hlp i k).integrable_mul (hlp j l), ?_⟩
      have := (hind i j hij k l).integral_mul_eq_mul_integral (hYm i k).aestronglyMeasurable
        (hYm j l).aestronglyMeasurable
      rw [(hY1 i k).2, zero_mul] at this
      exact this
  -- the deviation of the mean
  have hdev : ∀ v k, pmean (fun _ => 1 / (n : ℝ)) (X v) k - μ k = 1 / n * ∑ i, Y i k v := fun v k => by
    show ∑ i, 1 / (n : ℝ) * X v i k - μ k = 1 / n * ∑ i, (X v i k - μ k)
    rw [Finset.sum_sub_distrib, Finset.sum_const, Finset.card_univ, Fintype.card_fin, nsmul_eq_mul,
      ← Finset.mul_sum]
    field_simp
  have hprod : ∀ v, (pmean (fun _ => 1 / (n : ℝ)) (X v) k - μ k) *
      (pmean (fun _ => 1 / (n : ℝ)) (X v) l - μ l) = (1 / n) ^ 2 * ∑ i, ∑ j, Y i k v * Y j l v := by
    intro v
    rw [hdev, hdev, ← Finset.sum_mul_sum]; ring
  have hcovE : ∫ v, (pmean (fun _ => 1 / (n : ℝ)) (X v) k - μ k) *
      (pmean (fun _ => 1 / (n : ℝ)) (X v) l - μ l) ∂P = (a ^ 2 + h ^ 2) * pcov w x k l / n := by
    simp only [hprod]
    rw [integral_const_mul, integral_finsetSum _ fun i _ => integrable_finsetSum _ fun j _ =>
      (hYij i j k l).1]
    simp only [integral_finsetSum _ fun j (_ : j ∈ Finset.univ) => (hYij _ j k l).1, (hYij _ _ k l).2]
    simp only [Finset.sum_ite_eq, Finset.mem_univ, if_true, Finset.sum_const, Finset.card_univ,
      Fintype.card_fin, nsmul_eq_mul]
    field_simp
  have hmean : ∫ v, pmean (fun _ => 1 / (n : ℝ)) (X v) k ∂P = μ k := by
    show ∫ v, ∑ i, 1 / (n : ℝ) * X v i k ∂P = μ k
    rw [integral_finsetSum _ fun i _ => (hX1 i k).1.const_mul _]
    simp only [integral_const_mul, (hX1 _ k).2, Finset.sum_const, Finset.card_univ, Fintype.card_fin,
      nsmul_eq_mul]
    field_simp
  refine ⟨hmean, hcovE, ?_, ?_⟩
  · intro δ hδ
    have hL : MemLp (fun v => pmean (fun _ => 1 / (n : ℝ)) (X v) k) 2 P := by
      have : (fun v => pmean (fun _ => 1 / (n : ℝ)) (X v) k) =
          fun v => 1 / (n : ℝ) * (∑ i, Y i k v) + μ k := by
        funext v; rw [← hdev]; ring
      rw [this]
      exact ((memLp_finsetSum _ fun i _ => hlp i k).const_mul _).add (memLp_const _)
    have h1 := meas_ge_le_variance_div_sq hL hδ
    rw [hmean, variance_eq_integral hL.aemeasurable, hmean] at h1
    have h2 : ∫ v, (pmean (fun _ => 1 / (n : ℝ)) (X v) k - μ k) ^ 2 ∂P =
        (a ^ 2 + h ^ 2) * pcov w x k k / n := by
      have h3 : ∀ v, (pmean (fun _ => 1 / (n : ℝ)) (X v) k - μ k) ^ 2 =
          (1 / n) ^ 2 * ∑ i, ∑ j, Y i k v * Y j k v := by
        intro v
        rw [hdev, ← Finset.sum_mul_sum]; ring
      simp only [h3]
      rw [integral_const_mul, integral_finsetSum _ fun i _ => integrable_finsetSum _ fun j _ =>
        (hYij i j k k).1]
      simp only [integral_finsetSum _ fun j (_ : j ∈ Finset.univ) => (hYij _ j k k).1, (hYij _ _ k k).2]
      simp only [Finset.sum_ite_eq, Finset.mem_univ, if_true, Finset.sum_const, Finset.card_univ,
        Fintype.card_fin, nsmul_eq_mul]
      field_simp
    rw [h2, div_div] at h1
    exact h1
  · have hc : ∀ v, pcov (fun _ => 1 / (n : ℝ)) (X v) k l =
        1 / n * ∑ i, Y i k v * Y i l v - (1 / n) ^ 2 * ∑ i, ∑ j, Y i k v * Y j l v := by
      intro v
      rw [← hprod]
      have e1 : ∀ k, pmean (fun _ => 1 / (n : ℝ)) (X v) k = 1 / n * ∑ i, X v i k := fun k => by
        rw [Finset.mul_sum]; rfl
      have e2 : ∑ i, Y i k v * Y i l v = ∑ i, X v i k * X v i l - μ l * ∑ i, X v i k -
          μ k * ∑ i, X v i l + n * (μ k * μ l) := by
        have : ∀ i, Y i k v * Y i l v = X v i k * X v i l - μ l * X v i k - μ k * X v i l + μ k * μ l :=
          fun i => by show (X v i k - μ k) * (X v i l - μ l) = _; ring
        simp only [this, Finset.sum_add_distrib, Finset.sum_sub_distrib, ← Finset.mul_sum,
          Finset.sum_const, Finset.card_univ, Fintype.card_fin, nsmul_eq_mul]
        ring
      have e3 : ∑ i, 1 / (n : ℝ) * X v i k * X v i l = 1 / n * ∑ i, X v i k * X v i l := by
        rw [Finset.mul_sum]; exact Finset.sum_congr rfl fun i _ => by ring
      unfold pcov
      rw [e3, e2, e1, e1]
      field_simp
      ring
    simp only [hc]
    rw [integral_sub ((integrable_finsetSum _ fun i _ => (hY2 i k l).1).const_mul _)
      ((integrable_finsetSum _ fun i _ => integrable_finsetSum _ fun j _ => (hYij i j k l).1).const_mul _),
      integral_const_mul, integral_finsetSum _ fun i _ => (hY2 i k l).1]
    have : ∫ v, (1 / (n : ℝ)) ^ 2 * ∑ i, ∑ j, Y i k v * Y j l v ∂P =
        (a ^ 2 + h ^ 2) * pcov w x k l / n := by
      rw [← hcovE]; simp only [hprod]
    rw [this]
    simp only [(hY2 _ k l).2, Finset.sum_const, Finset.card_univ, Fintype.card_fin, nsmul_eq_mul]
    field_simp

/-- **C105.**  The mean of the cloud that `n` random draws produce (`C105_run`) has the mean of the old
cloud as its expectation, and its components vary about it with covariance `(a² + h²) cov / n`; so with
the default `a² + h² = 1` the squared error of one resampling is the old variance divided by `n`, and
large errors are improbable. -/
theorem C105_mean_noise (hr : LwRandom P κ U Z) (hκ : UnitKernel κ) (w : Fin N → ℝ)
    (hw : ∀ i, 0 ≤ w i) (hs : ∑ i, w i = 1) (x : Fin N → Fin d → ℝ) (a h : ℝ)
    (S : Matrix (Fin d) (Fin d) ℝ) (hS : S * S.transpose = pcov w x) (hn : n ≠ 0) (k l : Fin d) :
    let X := fun v (i : Fin n) => newLoc w (pos_of_sum hs) x a h S (U i v) (Z i v)
    ∫ v, pmean (fun _ => 1 / (n : ℝ)) (X v) k ∂P = pmean w x k ∧
    ∫ v, (pmean (fun _ => 1 / (n : ℝ)) (X v) k - pmean w x k) *
      (pmean (fun _ => 1 / (n : ℝ)) (X v) l - pmean w x l) ∂P = (a ^ 2 + h ^ 2) * pcov w x k l / n ∧
    ∀ δ > 0, P {v | δ ≤ |pmean (fun _ => 1 / (n : ℝ)) (X v) k - pmean w x k|} ≤
      ENNReal.ofReal ((a ^ 2 + h ^ 2) * pcov w x k k / (n * δ ^ 2)) := by
  obtain ⟨h1, h2, h3, -⟩ := lw_noise hr hκ w hw hs x a h S hS hn k l
  exact ⟨h1, h2, h3⟩

/-- **C105, covariance.**  On average the covariance of the new cloud is smaller than the one it is meant
to have by the factor `1 - 1/n`: with one particle it vanishes, and repeated resampling shrinks it. -/
theorem C105_cov_shrinks (hr : LwRandom P κ U Z) (hκ : UnitKernel κ) (w : Fin N → ℝ)
    (hw : ∀ i, 0 ≤ w i) (hs : ∑ i, w i = 1) (x : Fin N → Fin d → ℝ) (a h : ℝ) (hah : a ^ 2 + h ^ 2 = 1)
    (S : Matrix (Fin d) (Fin d) ℝ) (hS : S * S.transpose = pcov w x) (hn : n ≠ 0) (k l : Fin d) :
    ∫ v, pcov (fun _ => 1 / (n : ℝ))
      (fun i => newLoc w (pos_of_sum hs) x a h S (U i v) (Z i v)) k l ∂P = (1 - 1 / n) * pcov w x k l := by
  obtain ⟨-, -, -, h4⟩ := lw_noise hr hκ w hw hs x a h S hS hn k l
  rw [hah, one_mul] at h4
  exact h4

end noise

/-! ## A case -/

/-- Independent variates and kernel draws exist for every number of particles and every kernel law. -/
theorem lwRandom_pi (n d : ℕ) (κ : Measure (Fin d → ℝ)) [IsProbabilityMeasure κ] :
    LwRandom (Measure.pi fun _ : Fin n => (volume.restrict (Set.Ico (0 : ℝ) 1)).prod κ) κ
      (fun i v => Int.fract (v i).1) (fun i v => (v i).2) := by
  have hvol : IsProbabilityMeasure (volume.restrict (Set.Ico (0 : ℝ) 1)) := ⟨by simp⟩
  have hm : Measurable fun q : ℝ × (Fin d → ℝ) => (Int.fract q.1, q.2) :=
    (measurable_fract.comp measurable_fst).prodMk measurable_snd
  refine ⟨fun i => ?_, fun i => ?_, fun i v => ⟨Int.fract_nonneg _, Int.fract_lt_one _⟩, fun i => ?_, ?_⟩
  · exact measurable_fract.comp (measurable_fst.comp (measurable_pi_apply i))
  · exact measurable_snd.comp (measurable_pi_apply i)
  · have h1 : Measure.map (fun v : Fin n → ℝ × (Fin d → ℝ) => (Int.fract (v i).1, (v i).2))
        (Measure.pi fun _ : Fin n => (volume.restrict (Set.Ico (0 : ℝ) 1)).prod κ) =
        Measure.map (fun q : ℝ × (Fin d → ℝ) => (Int.fract q.1, q.2))
        ((volume.restrict (Set.Ico (0 : ℝ) 1)).prod κ) := by
      have h0 := (measurePreserving_eval (fun _ : Fin n =>
        (volume.restrict (Set.Ico (0 : ℝ) 1)).prod κ) i).map_eq
      conv_rhs => rw [← h0]
      rw [Measure.map_map hm (measurable_pi_apply i)]
      rfl
    have h2 : Measure.map (fun q : ℝ × (Fin d → ℝ) => (Int.fract q.1, q.2))
        ((volume.restrict (Set.Ico (0 : ℝ) 1)).prod κ) =
        (Measure.map Int.fract (volume.restrict (Set.Ico (0 : ℝ) 1))).prod (Measure.map id κ) :=
      (Measure.map_prod_map _ _ measurable_fract measurable_id).symm
    have h3 : Measure.map Int.fract (volume.restrict (Set.Ico (0 : ℝ) 1)) =
        volume.restrict (Set.Ico (0 : ℝ) 1) := by
      have : Measure.map Int.fract (volume.restrict (Set.Ico (0 : ℝ) 1)) =
          Measure.map id (volume.restrict (Set.Ico (0 : ℝ) 1)) := by
        refine Measure.map_congr ?_
        rw [Filter.EventuallyEq, ae_restrict_iff' measurableSet_Ico]
        exact Filter.Eventually.of_forall fun u hu => Int.fract_eq_self.2 hu
      rw [this, Measure.map_id]
    rw [h1, h2, h3, Measure.map_id]
  · exact iIndepFun_pi (X := fun _ (q : ℝ × (Fin d → ℝ)) => (Int.fract q.1, q.2))
      fun _ => hm.aemeasurable

/-- Case for C105: the cloud `{-1, 1}`, the kernel of fair signs and a hundred new particles.  The mean
is off by 1/2 or more with probability at most 1/25. -/
example :
    let κ : Measure (Fin 1 → ℝ) :=
      (2 : ENNReal)⁻¹ • (Measure.dirac (fun _ => (1 : ℝ)) + Measure.dirac fun _ => (-1 : ℝ))
    let x : Fin 2 → Fin 1 → ℝ := fun i _ => if i = 0 then -1 else 1
    ∀ hs : ∑ i : Fin 2, (fun _ => (1/2 : ℝ)) i = 1, (Measure.pi fun _ : Fin 100 => (volume.restrict (Set.Ico (0 : ℝ) 1)).prod κ)
      {v | 1/2 ≤ |pmean (fun _ => 1 / ((100 : ℕ) : ℝ)) (fun i : Fin 100 =>
        newLoc (fun _ => (1/2 : ℝ)) (pos_of_sum hs) x (3/5) (4/5) 1 (Int.fract (v i).1) (v i).2) 0 -
        pmean (fun _ => (1/2 : ℝ)) x 0|} ≤ ENNReal.ofReal (1/25) := by
  intro κ x hs
  have hκ := sign_unitKernel
  have hκp : IsProbabilityMeasure κ := hκ.prob
  have hvol : IsProbabilityMeasure (volume.restrict (Set.Ico (0 : ℝ) 1)) := ⟨by simp⟩
  have hx : (1 : Matrix (Fin 1) (Fin 1) ℝ) * (1 : Matrix (Fin 1) (Fin 1) ℝ).transpose =
      pcov (fun _ : Fin 2 => (1/2 : ℝ)) x := by
    ext i j
    have : i = j := Subsingleton.elim i j
    subst this
    simp [pcov, pmean, Fin.sum_univ_two, x]
    norm_num
  have h := (C105_mean_noise (lwRandom_pi 100 1 κ) hκ (fun _ => (1/2 : ℝ)) (fun _ => by norm_num) hs x
    (3/5) (4/5) 1 hx (by norm_num) 0 0).2.2 (1/2) (by norm_num)
  refine h.trans (ENNReal.ofReal_le_ofReal ?_)
  rw [← hx]
  norm_num

end QInfer
