import Verif.Model.OnePoint
import Verif.Props.Units

/-!
# C162: clouds that have collapsed; C133: whole runs in other units
-/

namespace QInfer

open Matrix MeasureTheory ProbabilityTheory
open scoped BigOperators

/-! ## Specification -/

/-- All particles that have weight are at the same point. -/
def Spec.Collapsed {N d : ℕ} (w : Fin N → ℝ) (x : Fin N → Fin d → ℝ) : Prop := ∀ i j, 0 < w i → 0 < w j → x i = x j

/-- A cloud written in the coordinates `A x + b`. -/
noncomputable def Spec.inCoords {N d : ℕ} (A : Matrix (Fin d) (Fin d) ℝ) (b : Fin d → ℝ) (s : LwCloud N d) : LwCloud N d :=
  (s.1, fun i => A *ᵥ s.2 i + b)

/-! ## Helper lemmas -/

section

variable {N d : ℕ}

theorem lwCovUsed_eq (zcc : ℝ) (cov : Matrix (Fin d) (Fin d) ℝ) :
    lwCovUsed zcc cov = if cov = 0 then (zcc • 1, true) else (cov, false) := by
  unfold lwCovUsed
  have hn : 0 ≤ ∑ i, ∑ j, cov i j ^ 2 := Finset.sum_nonneg fun _ _ => Finset.sum_nonneg fun _ _ => sq_nonneg _
  have : Real.sqrt (∑ i, ∑ j, cov i j ^ 2) = 0 ↔ cov = 0 := by
    rw [Real.sqrt_eq_zero hn]
    constructor
    · intro h
      ext i j
      have h1 := (Finset.sum_eq_zero_iff_of_nonneg fun i _ => Finset.sum_nonneg fun j _ => sq_nonneg (cov i j)).1 h i
        (Finset.mem_univ i)
      have h2 := (Finset.sum_eq_zero_iff_of_nonneg fun j _ => sq_nonneg (cov i j)).1 h1 j (Finset.mem_univ j)
      simpa using h2
    · rintro rfl
      simp
  simp only [this]

theorem lwCall_eq (root : Matrix (Fin d) (Fin d) ℝ → Matrix (Fin d) (Fin d) ℝ) (zcc a h : ℝ) (hN : 0 < N)
    (w : Fin N → ℝ) (x : Fin N → Fin d → ℝ) (q : Fin N → ℝ × (Fin d → ℝ)) :
    lwCall root zcc a h hN w x q =
      (fun _ => 1 / (N : ℝ), fun i => newLoc w hN x a h (root (lwCovUsed zcc (pcov w x)).1) (q i).1 (q i).2) := rfl

theorem pcov_zero_iff (w : Fin N → ℝ) (h0 : ∀ i, 0 ≤ w i) (h1 : ∑ i, w i = 1) (x : Fin N → Fin d → ℝ) :
    pcov w x = 0 ↔ Spec.Collapsed w x := by
  constructor
  · intro h i j hi hj
    funext m
    have := (C13_cov_zero_iff w x h0 h1 (Pi.single m 1)).1 (by simp [h]) i j hi hj
    simpa [Pi.single_apply] using this
  · intro h
    ext a b
    rw [C13_cov_is_centred_moment w x h1, Matrix.zero_apply]
    refine Finset.sum_eq_zero fun i _ => ?_
    rcases (h0 i).eq_or_lt with hi | hi
    · rw [← hi, zero_mul]
    · have : ∑ k, w k * x k a = x i a := by
        have : ∀ k, w k * x k a = w k * x i a := fun k => by
          rcases (h0 k).eq_or_lt with hk | hk
          · rw [← hk, zero_mul, zero_mul]
          · rw [h k i hk hi]
        simp only [this, ← Finset.sum_mul, h1, one_mul]
      rw [this]
      simp

theorem parent_pos (w : Fin N → ℝ) (h0 : ∀ i, 0 ≤ w i) (h1 : ∑ i, w i = 1) (hN : 0 < N) {u : ℝ} (hu : u ∈ Set.Ico (0 : ℝ) 1) :
    0 < w (parent w hN u) := by
  refine lt_of_le_of_ne (h0 _) fun h => ?_
  have hnn : ∀ x ∈ List.ofFn w, 0 ≤ x := fun x hx => by
    obtain ⟨i, rfl⟩ := (List.mem_ofFn' _ _).1 hx; exact h0 i
  refine C17_zero_weight_never_drawn (List.ofFn w) hnn u hu.1 (by rw [List.sum_ofFn, h1]; exact hu.2) (parent w hN u)
    (by simp) ?_ rfl
  simpa using h.symm

theorem mean_collapsed (w : Fin N → ℝ) (h0 : ∀ i, 0 ≤ w i) (h1 : ∑ i, w i = 1) (x : Fin N → Fin d → ℝ) (y : Fin d → ℝ)
    (hy : ∀ i, 0 < w i → x i = y) : pmean w x = y := by
  funext m
  unfold pmean
  have : ∀ k, w k * x k m = w k * y m := fun k => by
    rcases (h0 k).eq_or_lt with hk | hk
    · rw [← hk, zero_mul, zero_mul]
    · rw [hy k hk]
  simp only [this, ← Finset.sum_mul, h1, one_mul]

/-! ## Theorems -/

/-- **C162, the warning.**  The resampler warns of a vanishing covariance, and replaces it, exactly if all particles that have weight
are at the same point. -/
theorem C162_warns (zcc : ℝ) (w : Fin N → ℝ) (h0 : ∀ i, 0 ≤ w i) (h1 : ∑ i, w i = 1) (x : Fin N → Fin d → ℝ) :
    ((lwCovUsed zcc (pcov w x)).2 = true ↔ Spec.Collapsed w x) ∧
    (¬ Spec.Collapsed w x → (lwCovUsed zcc (pcov w x)).1 = pcov w x) := by
  rw [lwCovUsed_eq, ← pcov_zero_iff w h0 h1 x]
  by_cases h : pcov w x = 0 <;> simp [h]

/-- **C162, a fresh start.**  If all particles that have weight are at the point `y`, the new particles are `y` plus `h √zero_cov_comp` times the kernel's
numbers, in every parameter: the cloud is spread out again, whatever `a` is, and particles without weight leave no trace. -/
theorem C162_reseeded {root : Matrix (Fin d) (Fin d) ℝ → Matrix (Fin d) (Fin d) ℝ} (hpsd : ∀ C, C.PosSemidef → (root C).PosSemidef)
    (hroot : ∀ C, C.PosSemidef → root C * root C = C) {zcc : ℝ} (hz : 0 ≤ zcc) (a h : ℝ) (hN : 0 < N) (w : Fin N → ℝ)
    (h0 : ∀ i, 0 ≤ w i) (h1 : ∑ i, w i = 1) (x : Fin N → Fin d → ℝ) (y : Fin d → ℝ) (hy : ∀ i, 0 < w i → x i = y)
    (q : Fin N → ℝ × (Fin d → ℝ)) (hq : ∀ i, (q i).1 ∈ Set.Ico (0 : ℝ) 1) :
    lwCall root zcc a h hN w x q = (fun _ => 1 / (N : ℝ), fun i m => y m + h * Real.sqrt zcc * (q i).2 m) := by
  have hc : Spec.Collapsed w x := fun i j hi hj => by rw [hy i hi, hy j hj]
  have hS : root (lwCovUsed zcc (pcov w x)).1 = Real.sqrt zcc • 1 := by
    rw [lwCovUsed_eq, if_pos ((pcov_zero_iff w h0 h1 x).2 hc)]
    have hz1 : (zcc • (1 : Matrix (Fin d) (Fin d) ℝ)).PosSemidef := PosSemidef.one.smul hz
    refine psd_root_unique (hpsd _ hz1) (PosSemidef.one.smul (Real.sqrt_nonneg _)) ?_
    rw [hroot _ hz1, Matrix.smul_mul, Matrix.mul_smul, smul_smul, Real.mul_self_sqrt hz, Matrix.one_mul]
  rw [lwCall_eq, hS]
  refine Prod.ext rfl (funext fun i => funext fun m => ?_)
  simp only [newLoc, lwLocation, mean_collapsed w h0 h1 x y hy, hy _ (parent_pos w h0 h1 hN (hq i)), Matrix.smul_apply,
    Matrix.one_apply, smul_eq_mul]
  simp only [mul_ite, mul_one, mul_zero, ite_mul, zero_mul, Finset.sum_ite_eq, Finset.mem_univ, if_true]
  ring

/-- **C162, units matter.**  A cloud that has collapsed is the exception to C133: written in other units, it is spread out by the same numbers, not
by the same lengths. -/
theorem C162_units {root : Matrix (Fin d) (Fin d) ℝ → Matrix (Fin d) (Fin d) ℝ} (hpsd : ∀ C, C.PosSemidef → (root C).PosSemidef)
    (hroot : ∀ C, C.PosSemidef → root C * root C = C) {zcc : ℝ} (hz : 0 < zcc) (a : ℝ) {h : ℝ} (hh : h ≠ 0) (hN : 0 < N)
    (w : Fin N → ℝ) (h0 : ∀ i, 0 ≤ w i) (h1 : ∑ i, w i = 1) (x : Fin N → Fin d → ℝ) (hx : Spec.Collapsed w x)
    (q : Fin N → ℝ × (Fin d → ℝ)) (hq : ∀ i, (q i).1 ∈ Set.Ico (0 : ℝ) 1) (c : ℝ) (b : Fin d → ℝ) :
    lwCall root zcc a h hN w (fun i => c • x i + b) q =
        Spec.inCoords (c • 1) b (lwCall root zcc a h hN w x q) ↔ c = 1 ∨ ∀ i, (q i).2 = 0 := by
  obtain ⟨k, hk⟩ : ∃ k, 0 < w k := by
    by_contra hne
    push Not at hne
    have : ∑ i, w i ≤ 0 := Finset.sum_nonpos fun i _ => hne i
    linarith
  rw [C162_reseeded hpsd hroot hz.le a h hN w h0 h1 x (x k) (fun i hi => hx i k hi hk) q hq,
    C162_reseeded hpsd hroot hz.le a h hN w h0 h1 (fun i => c • x i + b) (c • x k + b) (fun i hi => by rw [hx i k hi hk]) q hq]
  have hs : h * Real.sqrt zcc ≠ 0 := mul_ne_zero hh (Real.sqrt_ne_zero'.2 hz)
  simp only [Spec.inCoords, Prod.mk.injEq, true_and, funext_iff, smul_mulVec, one_mulVec, Pi.add_apply, Pi.smul_apply, smul_eq_mul,
    Pi.zero_apply]
  constructor
  · intro hall
    by_contra hne
    push Not at hne
    obtain ⟨hc, i, m, hz'⟩ := hne
    have := hall i m
    have h2 : (1 - c) * (h * Real.sqrt zcc * (q i).2 m) = 0 := by linarith
    rcases mul_eq_zero.1 h2 with h3 | h3
    · exact hc (by linarith)
    · exact (mul_ne_zero hs hz') h3
  · rintro (rfl | hz') i m
    · ring
    · rw [hz' i m]; ring

/-! ### Whole runs in other coordinates -/

/-- The change of coordinates can be undone. -/
noncomputable def coordsEquiv (A : Matrix (Fin d) (Fin d) ℝ) (hA : IsUnit A.det) (b : Fin d → ℝ) : LwCloud N d ≃ᵐ LwCloud N d where
  toFun := Spec.inCoords A b
  invFun s := (s.1, fun i => A⁻¹ *ᵥ (s.2 i - b))
  left_inv s := by
    refine Prod.ext rfl (funext fun i => ?_)
    simp [Spec.inCoords, mulVec_mulVec, nonsing_inv_mul A hA]
  right_inv s := by
    refine Prod.ext rfl (funext fun i => ?_)
    simp [Spec.inCoords, mulVec_mulVec, mul_nonsing_inv A hA]
  measurable_toFun := by
    refine measurable_fst.prodMk (measurable_pi_lambda _ fun i => ?_)
    have hm : Measurable fun z : Fin d → ℝ => A *ᵥ z + b :=
      ((Continuous.matrix_mulVec continuous_const continuous_id).add continuous_const).measurable
    exact hm.comp ((measurable_pi_apply i).comp measurable_snd)
  measurable_invFun := by
    refine measurable_fst.prodMk (measurable_pi_lambda _ fun i => ?_)
    have hm : Measurable fun z : Fin d → ℝ => A⁻¹ *ᵥ (z - b) :=
      (Continuous.matrix_mulVec continuous_const (continuous_id.sub continuous_const)).measurable
    exact hm.comp ((measurable_pi_apply i).comp measurable_snd)

theorem call_law {root : Matrix (Fin d) (Fin d) ℝ → Matrix (Fin d) (Fin d) ℝ} (hroot : ∀ C, C.PosSemidef → root C * (root C)ᵀ = C)
    (zcc a h : ℝ) (hN : 0 < N) (w : Fin N → ℝ) (h0 : ∀ i, 0 ≤ w i) (h1 : ∑ i, w i = 1) (x : Fin N → Fin d → ℝ)
    (A : Matrix (Fin d) (Fin d) ℝ) (b : Fin d → ℝ) (hx : pcov w x ≠ 0) (hx' : pcov w (fun i => A *ᵥ x i + b) ≠ 0) :
    (lwDraws N d).map (lwCall root zcc a h hN w fun i => A *ᵥ x i + b) =
      ((lwDraws N d).map (lwCall root zcc a h hN w x)).map (Spec.inCoords A b) := by
  have hvol : IsProbabilityMeasure (volume.restrict (Set.Ico (0 : ℝ) 1)) := ⟨by simp⟩
  have hC : root (lwCovUsed zcc (pcov w x)).1 * (root (lwCovUsed zcc (pcov w x)).1)ᵀ = pcov w x := by
    rw [lwCovUsed_eq, if_neg hx]
    exact hroot _ (C13_cov_posSemidef w x h0 h1)
  have hC' : root (lwCovUsed zcc (pcov w fun i => A *ᵥ x i + b)).1 * (root (lwCovUsed zcc (pcov w fun i => A *ᵥ x i + b)).1)ᵀ =
      pcov w fun i => A *ᵥ x i + b := by
    rw [lwCovUsed_eq, if_neg hx']
    exact hroot _ (C13_cov_posSemidef w _ h0 h1)
  obtain ⟨m1, m2, hl⟩ := newLoc_law w h1 x a h A b _ _ hC hC' (volume.restrict (Set.Ico (0 : ℝ) 1))
  obtain ⟨m3, -, -⟩ := newLoc_law w h1 x a h 1 0 _ _ hC (by simpa using hC) (volume.restrict (Set.Ico (0 : ℝ) 1))
  simp only [one_mulVec, add_zero] at m3
  have key : ∀ g : ℝ × (Fin d → ℝ) → Fin d → ℝ, Measurable g →
      (lwDraws N d).map (fun q => ((fun _ => 1 / (N : ℝ), fun i => g (q i)) : LwCloud N d)) =
        (Measure.pi fun _ : Fin N => ((volume.restrict (Set.Ico (0 : ℝ) 1)).prod (Spec.normalKernel d)).map g).map
          (fun y => ((fun _ => 1 / (N : ℝ), y) : LwCloud N d)) := by
    intro g hg
    have hp : IsProbabilityMeasure (((volume.restrict (Set.Ico (0 : ℝ) 1)).prod (Spec.normalKernel d)).map g) :=
      Measure.isProbabilityMeasure_map hg.aemeasurable
    rw [← Measure.pi_map_pi fun _ => hg.aemeasurable, Measure.map_map]
    · rfl
    · exact measurable_const.prodMk measurable_id
    · exact measurable_pi_lambda _ fun i => hg.comp (measurable_pi_apply i)
  have hT : Measurable (Spec.inCoords A b : LwCloud N d → LwCloud N d) := by
    refine measurable_fst.prodMk (measurable_pi_lambda _ fun i => ?_)
    have hm : Measurable fun z : Fin d → ℝ => A *ᵥ z + b :=
      ((Continuous.matrix_mulVec continuous_const continuous_id).add continuous_const).measurable
    exact hm.comp ((measurable_pi_apply i).comp measurable_snd)
  have hcall : Measurable (lwCall root zcc a h hN w x) :=
    measurable_const.prodMk (measurable_pi_lambda _ fun i => m3.comp (measurable_pi_apply i))
  rw [Measure.map_map hT hcall]
  have k1 := key _ m1
  rw [hl] at k1
  exact k1.trans (key _ m2).symm

/-- **C133, whole runs.**  A whole run of updates and Liu-West resamplings with the default kernel, written in other coordinates: as long
as no cloud that has collapsed is resampled, and however the experiments are chosen from the clouds so far, every quantity that can be computed from the clouds of the run has the same expectation.  For indicator
functions: the clouds have the same law, in the new coordinates. -/
theorem C133_whole_run {root : Matrix (Fin d) (Fin d) ℝ → Matrix (Fin d) (Fin d) ℝ}
    (hroot : ∀ C, C.PosSemidef → root C * (root C)ᵀ = C) (zcc a h thresh : ℝ) (hN : 0 < N) (A : Matrix (Fin d) (Fin d) ℝ)
    (hA : IsUnit A.det) (b : Fin d → ℝ) (f f' : LwEnd → List (LwCloud N d) → ENNReal)
    (hf : ∀ e l, f' e (l.map (Spec.inCoords A b)) = f e l) 
    (data : List ((List (LwCloud N d) → (Fin d → ℝ) → ℝ) × (List (LwCloud N d) → (Fin d → ℝ) → ℝ)))
    (hdata : ∀ p ∈ data, ∀ l y, 0 ≤ p.1 l y ∧ p.2 (l.map (Spec.inCoords A b)) (A *ᵥ y + b) = p.1 l y) (past : List (LwCloud N d)) (s : LwCloud N d)
    (hs : ∀ i, 0 ≤ s.1 i) :
    lwValue root zcc a h thresh hN f' (data.map Prod.snd) (past.map (Spec.inCoords A b)) (Spec.inCoords A b s) =
      lwValue root zcc a h thresh hN f (data.map Prod.fst) past s := by
  induction data generalizing past s with
  | nil => exact hf .finished (s :: past)
  | cons p data ih =>
    have ih' := ih fun p hp => hdata p (List.mem_cons_of_mem _ hp)
    have hL := hdata p List.mem_cons_self (s :: past)
    simp only [List.map_cons, lwValue] at hL ⊢
    generalize p.2 (Spec.inCoords A b s :: past.map (Spec.inCoords A b)) = L' at hL ⊢
    generalize p.1 (s :: past) = L at hL ⊢
    simp only [Spec.inCoords]
    simp only [(hL _).2]
    by_cases hn : ∑ k, s.1 k * L (s.2 k) < eps
    · rw [if_pos hn, if_pos hn]
      exact hf .raised (s :: past)
    rw [if_neg hn, if_neg hn]
    have hpos : 0 < ∑ k, s.1 k * L (s.2 k) := lt_of_lt_of_le eps_pos (not_lt.1 hn)
    obtain ⟨w, hw⟩ : ∃ w : Fin N → ℝ, w = fun i => s.1 i * L (s.2 i) / ∑ k, s.1 k * L (s.2 k) := ⟨_, rfl⟩
    have h0 : ∀ i, 0 ≤ w i := fun i => by
      rw [hw]
      exact div_nonneg (mul_nonneg (hs i) (hL _).1) hpos.le
    have h1 : ∑ i, w i = 1 := by
      rw [hw, ← Finset.sum_div, div_self hpos.ne']
    have hwx : ∀ i, s.1 i * L (s.2 i) / ∑ k, s.1 k * L (s.2 k) = w i := fun i => by rw [hw]
    simp only [hwx]
    by_cases ht : 1 / ∑ i, w i ^ 2 < N * thresh
    swap
    · rw [if_neg ht, if_neg ht]
      exact ih' (s :: past) (w, s.2) h0
    rw [if_pos ht, if_pos ht]
    have hcov : pcov w (fun i => A *ᵥ s.2 i + b) = 0 ↔ pcov w s.2 = 0 := by
      rw [(C133_moments w h1 s.2 A b).2]
      constructor
      · intro h
        have : A⁻¹ * (A * pcov w s.2 * Aᵀ) * A⁻¹ᵀ = pcov w s.2 := by
          have e : Aᵀ * A⁻¹ᵀ = 1 := by rw [← Matrix.transpose_mul, nonsing_inv_mul A hA, Matrix.transpose_one]
          rw [Matrix.mul_assoc A, ← Matrix.mul_assoc A⁻¹, nonsing_inv_mul A hA, Matrix.one_mul, Matrix.mul_assoc, e, Matrix.mul_one]
        rw [← this, h, Matrix.mul_zero, Matrix.zero_mul]
      · intro h
        rw [h, Matrix.mul_zero, Matrix.zero_mul]
    by_cases hc : pcov w s.2 = 0
    · have hc' := hcov.2 hc
      rw [lwCovUsed_eq, lwCovUsed_eq, if_pos hc, if_pos hc', if_pos rfl, if_pos rfl]
      exact hf .collapsed ((w, s.2) :: s :: past)
    · have hc' : pcov w (fun i => A *ᵥ s.2 i + b) ≠ 0 := fun h => hc (hcov.1 h)
      have e1 : ¬ (lwCovUsed zcc (pcov w s.2)).2 = true := by rw [lwCovUsed_eq, if_neg hc]; simp
      have e2 : ¬ (lwCovUsed zcc (pcov w fun i => A *ᵥ s.2 i + b)).2 = true := by rw [lwCovUsed_eq, if_neg hc']; simp
      rw [if_neg e1, if_neg e2, call_law hroot zcc a h hN w h0 h1 s.2 A b hc hc']
      rw [show (Spec.inCoords A b : LwCloud N d → LwCloud N d) = coordsEquiv A hA b from rfl, lintegral_map_equiv]
      refine lintegral_congr_ae ?_
      have hae : ∀ᵐ s' ∂(lwDraws N d).map (lwCall root zcc a h hN w s.2), ∀ i, 0 ≤ s'.1 i := by
        by_cases hm : AEMeasurable (lwCall root zcc a h hN w s.2) (lwDraws N d)
        · have hset : MeasurableSet {s' : LwCloud N d | ∀ i, 0 ≤ s'.1 i} := by
            simp only [Set.ofPred_forall]
            exact MeasurableSet.iInter fun i =>
              measurableSet_le measurable_const ((measurable_pi_apply i).comp measurable_fst)
          refine (ae_map_iff hm hset).2 (Filter.Eventually.of_forall fun q i => ?_)
          simp only [lwCall]
          positivity
        · rw [Measure.map_of_not_aemeasurable hm]
          simp
      filter_upwards [hae] with s' hs'
      exact ih' (s :: past) s' hs'

/-- **C133, the steps of the run.**  The run of `C133_whole_run` is the updater's: for a datum with likelihoods `L`, if the normalisation is
below machine precision, `update` raises `RuntimeError` and the run ends; else, if the effective sample size is below the threshold, `update`
resamples the cloud with the new weights, and the run goes on with the law of the result, or ends if this cloud has collapsed; else `update`
returns the cloud with the new weights and the run goes on with it. -/
theorem C133_run_is_update {O E ω : Type*} (cfg : SmcConfig ℝ) (env : Env ℝ O E ω) (S : Smc ℝ O ω) (o : O) (e : E)
    (s : LwCloud N d) (L : (Fin d → ℝ) → ℝ) (hlike : ∀ i, env.likelihood o (List.ofFn (s.2 i)) e = L (s.2 i))
    (hL : ∀ i, 0 ≤ L (s.2 i)) (hs : ∀ i, 0 ≤ s.1 i) (hw : S.weights = List.ofFn s.1)
    (hl : S.locs = List.ofFn fun i => List.ofFn (s.2 i)) (hstep : ∀ r l, env.timestep r l e = (l, r))
    (hpol : cfg.policy = "error") (ht : eps ≤ cfg.zeroThresh) (ht1 : cfg.zeroThresh < 1)
    (root : Matrix (Fin d) (Fin d) ℝ → Matrix (Fin d) (Fin d) ℝ) (zcc a h : ℝ) (hN : 0 < N)
    (f : LwEnd → List (LwCloud N d) → ENNReal) (past : List (LwCloud N d))
    (like : List (LwCloud N d) → (Fin d → ℝ) → ℝ) (hpast : like (s :: past) = L) (Ls : List (List (LwCloud N d) → (Fin d → ℝ) → ℝ)) :
    let value := lwValue root zcc a h cfg.resampleThresh hN f
    let norm := ∑ k, s.1 k * L (s.2 k)
    let w := fun i => s.1 i * L (s.2 i) / norm
    (norm < eps → (update cfg env S o e true).2 = .error .runtimeError ∧ value (like :: Ls) past s = f .raised (s :: past)) ∧
    (eps ≤ norm → 1 / ∑ i, w i ^ 2 < N * cfg.resampleThresh →
      ∃ S', update cfg env S o e true = resample cfg env S' ∧ S'.weights = List.ofFn w ∧ S'.locs = S.locs ∧ S'.seed = S.seed ∧
        (Spec.Collapsed w s.2 → value (like :: Ls) past s = f .collapsed ((w, s.2) :: s :: past)) ∧
        (¬ Spec.Collapsed w s.2 → value (like :: Ls) past s =
          ∫⁻ s', value Ls (s :: past) s' ∂(lwDraws N d).map (lwCall root zcc a h hN w s.2))) ∧
    (eps ≤ norm → ¬ 1 / ∑ i, w i ^ 2 < N * cfg.resampleThresh →
      (update cfg env S o e true).2 = .ok () ∧ (update cfg env S o e true).1.weights = List.ofFn w ∧
      (update cfg env S o e true).1.locs = S.locs ∧ value (like :: Ls) past s = value Ls (s :: past) (w, s.2)) := by
  intro value norm w
  have hrow : env.likeRow S.locs o e = List.ofFn fun i => L (s.2 i) := by
    rw [hl, Env.likeRow, List.map_ofFn]
    congr 1
    funext i
    exact hlike i
  have hzip : List.zipWith (· * ·) S.weights (env.likeRow S.locs o e) = List.ofFn fun i => s.1 i * L (s.2 i) := by
    rw [hrow, hw]
    apply List.ext_getElem <;> simp
  have hsum : (List.zipWith (· * ·) S.weights (env.likeRow S.locs o e)).sum = norm := by
    rw [hzip, List.sum_ofFn]
  have hn0 : 0 ≤ norm := Finset.sum_nonneg fun i _ => mul_nonneg (hs i) (hL i)
  have hcell := hypCell_eq env S.weights S.locs o e (by rw [hl, hw]; simp)
  rw [hsum, hzip, abs_of_nonneg hn0] at hcell
  have hcell' : hypCell env (recordDatum S o).weights (recordDatum S o).locs o e =
      hypCell env S.weights S.locs o e := rfl
  have v1 : norm < eps → value (like :: Ls) past s = f .raised (s :: past) := fun hn => by
    simp only [value, lwValue, hpast]
    exact if_pos hn
  have hprob : eps ≤ norm → (∀ i, 0 ≤ w i) ∧ ∑ i, w i = 1 := fun hn => by
    have hpos : 0 < norm := lt_of_lt_of_le eps_pos hn
    refine ⟨fun i => div_nonneg (mul_nonneg (hs i) (hL i)) hpos.le, ?_⟩
    show ∑ i, s.1 i * L (s.2 i) / norm = 1
    rw [← Finset.sum_div, div_self hpos.ne']
  have v2 : eps ≤ norm → 1 / ∑ i, w i ^ 2 < N * cfg.resampleThresh →
      (Spec.Collapsed w s.2 → value (like :: Ls) past s = f .collapsed ((w, s.2) :: s :: past)) ∧
      (¬ Spec.Collapsed w s.2 → value (like :: Ls) past s =
        ∫⁻ s', value Ls (s :: past) s' ∂(lwDraws N d).map (lwCall root zcc a h hN w s.2)) := fun hn hlt => by
    obtain ⟨h0, h1⟩ := hprob hn
    have hw' := (C162_warns zcc w h0 h1 s.2).1
    constructor
    · intro hc
      simp only [value, lwValue, hpast]
      exact (if_neg (not_lt.2 hn)).trans ((if_pos hlt).trans (if_pos (hw'.2 hc)))
    · intro hc
      simp only [value, lwValue, hpast]
      exact (if_neg (not_lt.2 hn)).trans ((if_pos hlt).trans (if_neg fun hh => hc (hw'.1 hh)))
  have v3 : eps ≤ norm → ¬ 1 / ∑ i, w i ^ 2 < N * cfg.resampleThresh →
      value (like :: Ls) past s = value Ls (s :: past) (w, s.2) := fun hn hlt => by
    simp only [value, lwValue, hpast]
    exact (if_neg (not_lt.2 hn)).trans (if_neg hlt)
  refine ⟨fun hn => ⟨?_, v1 hn⟩, ?_⟩
  · rw [if_pos hn] at hcell
    unfold update
    dsimp only
    rw [hcell', hcell]
    dsimp only
    have hall : ((List.ofFn fun i => s.1 i * L (s.2 i)).map (· / 1)).all (fun x => decide (0 ≤ x)) = true := by
      simp only [div_one, List.map_id', List.all_eq_true, decide_eq_true_eq]
      intro x hx
      obtain ⟨i, rfl⟩ := (List.mem_ofFn' _ _).1 hx
      exact mul_nonneg (hs i) (hL i)
    rw [if_pos hall]
    unfold applyUpdate
    have hle : ((List.ofFn fun i => s.1 i * L (s.2 i)).map (· / 1)).sum ≤ cfg.zeroThresh := by
      simp only [div_one, List.map_id']
      rw [List.sum_ofFn]
      exact (le_of_lt hn).trans ht
    rw [if_pos hle, hpol]
    simp
  · have main : eps ≤ norm → ∃ S₁ : Smc ℝ O ω, update cfg env S o e true = maybeResample cfg env S₁ ∧
        S₁.weights = List.ofFn w ∧ S₁.locs = S.locs ∧ S₁.seed = S.seed := by
      intro hn
      rw [if_neg (not_lt.2 hn)] at hcell
      have hwl : (List.ofFn fun i => s.1 i * L (s.2 i)).map (· / norm) = List.ofFn w := by
        rw [List.map_ofFn]; rfl
      rw [hwl] at hcell
      have hpos : 0 < norm := lt_of_lt_of_le eps_pos hn
      have hall : (List.ofFn w).all (fun x => decide (0 ≤ x)) = true := by
        simp only [List.all_eq_true, decide_eq_true_eq]
        intro x hx
        obtain ⟨i, rfl⟩ := (List.mem_ofFn' _ _).1 hx
        exact div_nonneg (mul_nonneg (hs i) (hL i)) hpos.le
      have h1 : (List.ofFn w).sum = 1 := by
        rw [List.sum_ofFn]
        show ∑ i, s.1 i * L (s.2 i) / norm = 1
        rw [← Finset.sum_div, div_self hpos.ne']
      unfold update
      dsimp only
      rw [hcell', hcell]
      dsimp only
      rw [if_pos hall]
      unfold applyUpdate
      rw [h1, if_neg (not_le.2 ht1)]
      unfold finishUpdate
      rw [assignInto_eq _ _ (by show (List.ofFn w).length = S.weights.length; rw [hw]; simp)]
      simp only [hstep]
      refine ⟨_, by rw [if_pos trivial], ?_, ?_, ?_⟩ <;> split <;> rfl
    have hess : ∀ S₁ : Smc ℝ O ω, S₁.weights = List.ofFn w → S₁.locs = S.locs → eps ≤ norm →
        (nEss S₁.weights < (((S₁.nParticles : ℝ) * cfg.resampleThresh : ℝ) : WithTop ℝ) ↔
          1 / ∑ i, w i ^ 2 < N * cfg.resampleThresh) := by
      intro S₁ e1 e2 hn
      have hpos : 0 < norm := lt_of_lt_of_le eps_pos hn
      have hsq : (S₁.weights.map fun x => x ^ 2).sum = ∑ i, w i ^ 2 := by
        rw [e1, List.map_ofFn, List.sum_ofFn]; rfl
      have hne : ∑ i, w i ^ 2 ≠ 0 := by
        intro h0
        have hz : ∀ i, w i = 0 := fun i => by
          have := (Finset.sum_eq_zero_iff_of_nonneg fun i _ => sq_nonneg (w i)).1 h0 i (Finset.mem_univ i)
          simpa using this
        have : ∑ i, w i = 1 := by
          show ∑ i, s.1 i * L (s.2 i) / norm = 1
          rw [← Finset.sum_div, div_self hpos.ne']
        simp [hz] at this
      have hnp : S₁.nParticles = N := by rw [Smc.nParticles, e2, hl]; simp
      rw [nEss, hsq, hnp, recip, if_neg hne, WithTop.coe_lt_coe]
    refine ⟨fun hn hlt => ?_, fun hn hlt => ?_⟩
    · obtain ⟨S₁, h1, h2, h3, h4⟩ := main hn
      rw [h1]
      unfold maybeResample
      dsimp only
      split
      · exact ⟨S₁.warn .smallEss, if_pos ((hess (S₁.warn .smallEss) h2 h3 hn).2 hlt), h2, h3, h4, v2 hn hlt⟩
      · exact ⟨S₁, if_pos ((hess S₁ h2 h3 hn).2 hlt), h2, h3, h4, v2 hn hlt⟩
    · obtain ⟨S₁, h1, h2, h3, h4⟩ := main hn
      rw [h1]
      unfold maybeResample
      dsimp only
      split
      · have hne : ¬ nEss S₁.weights < ((((S₁.warn .smallEss).nParticles : ℝ) * cfg.resampleThresh : ℝ) : WithTop ℝ) := fun h =>
          hlt ((hess (S₁.warn .smallEss) h2 h3 hn).1 h)
        rw [if_neg hne]
        exact ⟨rfl, h2, h3, v3 hn hlt⟩
      · rw [if_neg fun h => hlt ((hess S₁ h2 h3 hn).1 h)]
        exact ⟨rfl, h2, h3, v3 hn hlt⟩

end

/-! ## Cases -/

/-- The square root of a 1 × 1 matrix. -/
noncomputable def Demo.root1 (C : Matrix (Fin 1) (Fin 1) ℝ) : Matrix (Fin 1) (Fin 1) ℝ := Real.sqrt (C 0 0) • 1

theorem Demo.root1_spec (C : Matrix (Fin 1) (Fin 1) ℝ) (hC : C.PosSemidef) :
    (Demo.root1 C).PosSemidef ∧ Demo.root1 C * Demo.root1 C = C ∧ Demo.root1 C * (Demo.root1 C)ᵀ = C := by
  have h0 : 0 ≤ C 0 0 := hC.diag_nonneg
  have h : Demo.root1 C * Demo.root1 C = C := by
    ext i j
    fin_cases i; fin_cases j
    simp [Demo.root1, Real.mul_self_sqrt h0]
  refine ⟨PosSemidef.one.smul (Real.sqrt_nonneg _), h, ?_⟩
  have ht : (Demo.root1 C)ᵀ = Demo.root1 C := by simp [Demo.root1]
  rw [ht, h]

/-- Case for `C162_reseeded` and `C162_units`: of two particles one has all the weight.  The two new ones are spread around it, and differently in
other units. -/
example : let w : Fin 2 → ℝ := ![1, 0]
    let x : Fin 2 → Fin 1 → ℝ := ![![3], ![5]]
    let q : Fin 2 → ℝ × (Fin 1 → ℝ) := ![(1 / 4, ![1]), (3 / 4, ![-2])]
    lwCall Demo.root1 (1 / 100) (98 / 100) (1 / 5) two_pos w x q = (fun _ => 1 / ((2 : ℕ) : ℝ), ![![3 + 1 / 50], ![3 - 1 / 25]]) ∧
    lwCall Demo.root1 (1 / 100) (98 / 100) (1 / 5) two_pos w (fun i => (2 : ℝ) • x i + 0) q ≠
      Spec.inCoords ((2 : ℝ) • 1) 0 (lwCall Demo.root1 (1 / 100) (98 / 100) (1 / 5) two_pos w x q) := by
  intro w x q
  have h0 : ∀ i, 0 ≤ w i := fun i => by fin_cases i <;> norm_num [w]
  have h1 : ∑ i, w i = 1 := by norm_num [w, Fin.sum_univ_two]
  have hy : ∀ i, 0 < w i → x i = ![3] := fun i hi => by
    fin_cases i
    · rfl
    · norm_num [w] at hi
  have hq : ∀ i, (q i).1 ∈ Set.Ico (0 : ℝ) 1 := fun i => by fin_cases i <;> norm_num [q]
  have hr : Real.sqrt (1 / 100) = 1 / 10 := by
    rw [show (1 / 100 : ℝ) = (1 / 10) ^ 2 by norm_num, Real.sqrt_sq (by norm_num)]
  constructor
  · rw [C162_reseeded (fun C h => (Demo.root1_spec C h).1) (fun C h => (Demo.root1_spec C h).2.1) (by norm_num) _ _ two_pos w h0 h1 x _ hy
      q hq, hr]
    refine Prod.ext rfl (funext fun i => funext fun m => ?_)
    fin_cases i <;> fin_cases m <;> norm_num [q]
  · intro h
    rcases (C162_units (fun C h => (Demo.root1_spec C h).1) (fun C h => (Demo.root1_spec C h).2.1) (by norm_num) _ (by norm_num) two_pos w h0 h1
      x (fun i j hi hj => by rw [hy i hi, hy j hj]) q hq 2 0).1 h with h2 | h2
    · norm_num at h2
    · have := congrFun (h2 0) 0
      norm_num [q] at this

/-- Case for `C133_whole_run`: a parameter in other units and with another zero, three data with likelihoods `1 / (1 + (y - k - c)²)`, where `c` is
chosen as the present location of the first particle, any number of particles, any quantity. -/
example {N : ℕ} (hN : 0 < N) (f f' : LwEnd → List (LwCloud N 1) → ENNReal)
    (hf : ∀ e l, f' e (l.map (Spec.inCoords ((1000 : ℝ) • 1) ![-7])) = f e l) (s : LwCloud N 1) (hs : ∀ i, 0 ≤ s.1 i) :
    let like := fun (k : ℝ) (l : List (LwCloud N 1)) (y : Fin 1 → ℝ) => 1 / (1 + (y 0 - k - (l.head?.map fun s => s.2 ⟨0, hN⟩ 0).getD 0) ^ 2)
    let back := fun y : Fin 1 → ℝ => (1 / 1000 : ℝ) • (y - ![-7])
    lwValue Demo.root1 (1 / 10 ^ 10) (98 / 100) (1 / 5) (1 / 2) hN f'
        ([1, 2, 5].map fun k l y => like k (l.map fun s => (s.1, fun i => back (s.2 i))) (back y)) [] (Spec.inCoords ((1000 : ℝ) • 1) ![-7] s) =
      lwValue Demo.root1 (1 / 10 ^ 10) (98 / 100) (1 / 5) (1 / 2) hN f ([1, 2, 5].map like) [] s := by
  intro like back
  have hback : ∀ y : Fin 1 → ℝ, back (((1000 : ℝ) • (1 : Matrix (Fin 1) (Fin 1) ℝ)) *ᵥ y + ![-7]) = y := fun y => by
    simp only [back]
    rw [add_sub_cancel_right, smul_mulVec, one_mulVec, smul_smul]
    norm_num
  have := C133_whole_run (fun C h => (Demo.root1_spec C h).2.2) (1 / 10 ^ 10) (98 / 100) (1 / 5) (1 / 2) hN ((1000 : ℝ) • 1)
    (by simp) ![-7] f f' hf ([1, 2, 5].map fun k => (like k, fun l y => like k (l.map fun s => (s.1, fun i => back (s.2 i))) (back y)))
    (fun p hp l y => by
      obtain ⟨k, -, rfl⟩ := List.mem_map.1 hp
      refine ⟨by dsimp only [like]; positivity, ?_⟩
      simp only [List.map_map, hback]
      congr 1
      conv_rhs => rw [← List.map_id l]
      refine List.map_congr_left fun s _ => ?_
      simp only [Function.comp, Spec.inCoords, hback, id]) [] s hs
  simpa using this

end QInfer
