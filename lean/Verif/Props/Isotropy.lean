import Verif.Lemmas.BlochComponent
import Verif.Props.TomoDist
import Verif.Props.SimpleDists
import Mathlib.MeasureTheory.Measure.Lebesgue.VolumeOfBalls

/-!
# C135: random states have no preferred direction
-/

namespace QInfer

open MeasureTheory ProbabilityTheory Matrix
open scoped ENNReal

/-! ## Real states -/

/-- C135: the real Ginibre states have no preferred basis: turning the state by an orthogonal matrix does not change the
probability of any event, for every dimension and rank. -/
theorem C135_redit_rotation {N r : Nat} (O : Matrix (Fin N) (Fin N) ℝ) (hO : Oᵀ * O = 1)
    (A : Set (Option (Matrix (Fin N) (Fin N) ℂ))) :
    normals (Fin N × Fin r) {v | ((reditDraw v).map fun ρ =>
      O.map (fun x => (x : ℂ)) * ρ * (O.map fun x => (x : ℂ))ᵀ) ∈ A} =
    normals (Fin N × Fin r) {v | reditDraw v ∈ A} := by
  rw [← normals_sets (actReal O) (actReal_norm O hO) {v | reditDraw v ∈ A}]
  congr 1
  ext v
  simp only [Set.mem_ofPred_eq, redit_rotate O hO]

/-- C135: a real Ginibre sample is almost surely a density operator, and the mean of the samples is the maximally mixed
state. -/
theorem C135_redit_mean {N r : Nat} (hN : 0 < N) (hr : 0 < r) :
    (∀ᵐ v ∂normals (Fin N × Fin r), ∃ ρ, reditDraw v = some ρ ∧ Spec.IsDensity ρ) ∧
    (∀ i j, Integrable (fun v => ((reditDraw v).getD 0) i j) (normals (Fin N × Fin r))) ∧
    ∀ i j, ∫ v, ((reditDraw v).getD 0) i j ∂normals (Fin N × Fin r) =
      ((1 / (N : ℂ)) • (1 : Matrix (Fin N) (Fin N) ℂ)) i j := by
  refine ⟨?_, fun i j => ?_, fun i j => ?_⟩
  · have : Nonempty (Fin N × Fin r) := ⟨(⟨0, hN⟩, ⟨0, hr⟩)⟩
    filter_upwards [normals_ne_zero] with v hv
    have hX : (of fun i j => v (i, j) : Matrix (Fin N) (Fin r) ℝ) ≠ 0 := by
      intro h0
      apply hv
      funext p
      exact congrFun (congrFun h0 p.1) p.2
    obtain ⟨ρ, h1, h2, -⟩ := (C67_ginibre_redit _).1 hX
    exact ⟨ρ, h1, h2⟩
  · simp only [redit_entry]
    exact (reditEntry_integrable i j).ofReal
  · simp only [redit_entry]
    refine (integral_ofReal (𝕜 := ℂ) (f := reditEntry i j)).trans ?_
    rw [redit_mean hr]
    by_cases h : i = j
    · subst h; simp
    · simp [h]

/-- C135: with the real Ginibre distribution as the fiducial distribution the samples of `GADFLIDistribution` have the
prescribed mean. -/
theorem C135_gadfli {d r : Nat} (hd : 2 ≤ d) (hr : 0 < r) (mean : Matrix (Fin d) (Fin d) ℂ) (lam : ℝ)
    (hm : Spec.IsDensity mean) (hl : Spec.IsMinEig mean lam) (h0 : 0 < lam) (h1 : d * lam < 1) :
    ∃ (g : Gadfli d) (beta : ℝ), gadfliInit mean lam = .ok g ∧ g.beta = some beta ∧
      ∃ S : ℝ → (Fin d × Fin r → ℝ) → Matrix (Fin d) (Fin d) ℂ,
        (∀ eps, ∀ᵐ v ∂normals (Fin d × Fin r), ∃ ρ, reditDraw v = some ρ ∧
          gadfliSample g ρ eps = .ok (some (S eps v))) ∧
        ∀ i j, ∫ eps, ∫ v, S eps v i j ∂normals (Fin d × Fin r) ∂(betaMeasure 1 beta) = mean i j := by
  obtain ⟨ha, hi, hmean⟩ := C135_redit_mean (N := d) (r := r) (by omega) hr
  obtain ⟨g, beta, hg, hb, S, hS, hint⟩ := C68_mean hd mean lam hm hl h0 h1 (normals (Fin d × Fin r))
    (fun v => (reditDraw v).getD 0) hi hmean
  refine ⟨g, beta, hg, hb, S, fun eps => ?_, hint⟩
  filter_upwards [ha] with v hv
  obtain ⟨ρ, h2, -⟩ := hv
  refine ⟨ρ, h2, ?_⟩
  have := hS eps v
  rw [h2] at this
  exact this

/-! ## Bloch vectors -/

/-- The law of the Bloch vectors drawn with variates of the law `P`. -/
noncomputable def Spec.blochDrawLaw {Ω : Type} [MeasurableSpace Ω] (P : Measure Ω) (draw : Ω → Option (List ℝ)) : Measure R3 :=
  P.map fun v => vec3 ((draw v).getD [])

/-- The draws of `HaarUniform`. -/
noncomputable def Spec.haarLaw (qr : Matrix (Fin 2) (Fin 2) ℂ → Matrix (Fin 2) (Fin 2) ℂ × Matrix (Fin 2) (Fin 2) ℂ) :
    Measure R3 :=
  Spec.blochDrawLaw (normals (Bool × Fin 2 × Fin 2)) fun v => (haarDraw qr v).toOption.join

/-- The draws of `GinibreUniform`. -/
noncomputable def Spec.ginibreLaw (k : Nat) : Measure R3 :=
  Spec.blochDrawLaw (normals (Bool × Fin 2 × Fin k)) ginibreDraw

theorem ginibreLaw_eq (k : Nat) : Spec.ginibreLaw k = blochLaw k := by
  unfold Spec.ginibreLaw Spec.blochDrawLaw blochLaw
  simp only [bvec_vec3]

theorem haarLaw_eq {qr} (hqr : Spec.IsQR qr) : Spec.haarLaw qr = blochLaw 1 := by
  have hf : Measurable firstColumn := by
    rw [measurable_pi_iff]
    intro p
    exact measurable_pi_apply _
  have h1 : (fun v => vec3 (((haarDraw qr v).toOption.join).getD [])) =ᵐ[normals (Bool × Fin 2 × Fin 2)]
      bvec ∘ firstColumn := by
    filter_upwards [randn_det] with v hv
    rw [haarDraw_eq hqr v hv]
    ext a
    fin_cases a <;> simp [vec3, Except.toOption]
  rw [Spec.haarLaw, Spec.blochDrawLaw, Measure.map_congr h1, ← Measure.map_map bvec_measurable hf, firstColumn_law]
  rfl

/-- C135: the Bloch vectors of `GinibreUniform` have no preferred direction, for every `k`; for `k ≥ 1` almost every draw is
a Bloch vector. -/
theorem C135_ginibre (k : Nat) :
    IsProbabilityMeasure (Spec.ginibreLaw k) ∧ Spec.Isotropic (Spec.ginibreLaw k) ∧
    (0 < k → ∀ᵐ v ∂normals (Bool × Fin 2 × Fin k), ∃ l, ginibreDraw v = some l) := by
  refine ⟨?_, ?_, fun hk => ?_⟩
  · rw [ginibreLaw_eq]; infer_instance
  · rw [ginibreLaw_eq]; exact blochLaw_rotate k
  · have : Nonempty (Bool × Fin 2 × Fin k) := ⟨(true, 0, ⟨0, hk⟩)⟩
    filter_upwards [normals_ne_zero] with v hv
    rw [ginibreDraw_eq, if_neg (sumsq_pos hv).ne']
    exact ⟨_, rfl⟩

theorem bloch_pure : ∀ᵐ x ∂blochLaw 1, ‖x‖ = 1 := by
  have hms : MeasurableSet {x : R3 | ‖x‖ = 1} := measurable_norm (measurableSet_singleton 1)
  rw [blochLaw, ae_map_iff bvec_measurable.aemeasurable hms]
  have : Nonempty (Bool × Fin 2 × Fin 1) := ⟨(true, 0, 0)⟩
  filter_upwards [normals_ne_zero] with v hv
  have hS := sumsq_pos hv
  have hz : randnComplex v ≠ 0 := by
    intro h0
    rw [sumsq_normSq, h0] at hS
    simp at hS
  obtain ⟨l, r, h1, ⟨x, y, z, hl, hr⟩, -, h3⟩ := C73_ginibre (randnComplex v) hz
  have h4 : ginibreDraw v = some l := h1
  rw [ginibreDraw_eq, if_neg hS.ne', hl, Option.some.injEq] at h4
  simp only [List.cons.injEq, and_true] at h4
  obtain ⟨hx, hy, hz⟩ := h4
  rw [EuclideanSpace.norm_eq, Fin.sum_univ_three]
  simp only [Real.norm_eq_abs, sq_abs]
  rw [hx, hy, hz, hr, h3 rfl, Real.sqrt_one]

/-- C135: whatever routine computes the factors `q` and `r`, almost every draw of `HaarUniform` is a Bloch vector of norm
one, the draws have no preferred direction, and there is only one such law. -/
theorem C135_haar {qr} (hqr : Spec.IsQR qr) :
    (∀ᵐ v ∂normals (Bool × Fin 2 × Fin 2), ∃ l, haarDraw qr v = .ok (some l)) ∧
    IsProbabilityMeasure (Spec.haarLaw qr) ∧ (∀ᵐ x ∂Spec.haarLaw qr, ‖x‖ = 1) ∧ Spec.Isotropic (Spec.haarLaw qr) ∧
    ∀ μ : Measure R3, IsProbabilityMeasure μ → (∀ᵐ x ∂μ, ‖x‖ = 1) → Spec.Isotropic μ → μ = Spec.haarLaw qr := by
  refine ⟨?_, ?_, ?_, ?_, ?_⟩
  · filter_upwards [randn_det] with v hv
    exact ⟨_, haarDraw_eq hqr v hv⟩
  · rw [haarLaw_eq hqr]; infer_instance
  · rw [haarLaw_eq hqr]; exact bloch_pure
  · rw [haarLaw_eq hqr]; exact blochLaw_rotate 1
  · intro μ hμ h1 h2
    rw [haarLaw_eq hqr]
    exact isotropic_unique h2 (blochLaw_rotate 1) h1 bloch_pure

/-- C135: `HaarUniform` and `GinibreUniform` with `k = 1` draw from the same law. -/
theorem C135_haar_is_ginibre {qr} (hqr : Spec.IsQR qr) : Spec.haarLaw qr = Spec.ginibreLaw 1 := by
  rw [haarLaw_eq hqr, ginibreLaw_eq]

/-- C135: the component of a draw of `GinibreUniform` in any direction, moved from `[-1, 1]` to `[0, 1]`, has the beta
distribution with both parameters `k`. -/
theorem C135_components (k : Nat) (hk : 0 < k) (n : R3) (hn : ‖n‖ = 1) :
    (Spec.ginibreLaw k).map (fun x => (1 + inner ℝ n x) / 2) = betaMeasure k k := by
  obtain ⟨m, rfl⟩ : ∃ m, k = m + 1 := ⟨k - 1, by omega⟩
  rw [← component_law, ginibreLaw_eq, blochLaw, Measure.map_map (by fun_prop) bvec_measurable]
  obtain ⟨U, hU, h⟩ := exists_turn n hn
  have hb : Measurable fun v : Bool × Fin 2 × Fin (m + 1) → ℝ => (1 + bvec v 2) / 2 := by
    have : Measurable fun v : Bool × Fin 2 × Fin (m + 1) → ℝ => bvec v 2 :=
      (by fun_prop : Measurable fun x : R3 => x 2).comp bvec_measurable
    fun_prop
  have e : ((fun x : R3 => (1 + inner ℝ n x) / 2) ∘ bvec) =
      fun v : Bool × Fin 2 × Fin (m + 1) → ℝ => (1 + bvec (actC U v) 2) / 2 := by
    funext v
    have h2 : inner ℝ n (bvec v) = bvec (actC U v) 2 := by
      show _ = blochNum (randnComplex (actC U v)) 2 / ∑ p, actC U v p ^ 2
      rw [actC_norm U hU, actC_mat, ← h, Finset.sum_div, PiLp.inner_apply]
      refine Finset.sum_congr rfl fun a _ => ?_
      show bvec v a * n a = _
      show blochNum (randnComplex v) a / (∑ p, v p ^ 2) * n a = _
      ring
    simp only [Function.comp, h2]
  rw [e]
  ext A hA
  rw [Measure.map_apply hb hA]
  obtain ⟨f, hf, hm⟩ := normals_invariant (actC U (k := m + 1)) (actC_norm U hU)
  have hc : Measurable fun v : Bool × Fin 2 × Fin (m + 1) → ℝ => (1 + bvec (actC U v) 2) / 2 := by
    have : (fun v : Bool × Fin 2 × Fin (m + 1) → ℝ => (1 + bvec (actC U v) 2) / 2) =
        (fun v => (1 + bvec v 2) / 2) ∘ f := by
      funext v; simp [hf]
    rw [this]
    exact hb.comp f.measurable
  rw [Measure.map_apply hc hA]
  exact normals_sets (actC U) (actC_norm U hU) {v | (1 + bvec v 2) / 2 ∈ A}

/-- C135: each component of a Haar random Bloch vector is uniform on `[-1, 1]`. -/
theorem C135_haar_components {qr} (hqr : Spec.IsQR qr) (n : R3) (hn : ‖n‖ = 1) (t : ℝ) (h2 : t ≤ 1) :
    Spec.haarLaw qr {x | inner ℝ n x ≤ t} = ENNReal.ofReal ((1 + t) / 2) := by
  have hc := C135_components 1 one_pos n hn
  rw [← C135_haar_is_ginibre hqr] at hc
  have h3 : {x : R3 | inner ℝ n x ≤ t} = (fun x : R3 => (1 + inner ℝ n x) / 2) ⁻¹' (Set.Iic ((1 + t) / 2)) := by
    ext x
    simp only [Set.mem_ofPred_eq, Set.mem_preimage, Set.mem_Iic]
    constructor <;> intro h <;> linarith
  rw [h3, ← Measure.map_apply (by fun_prop) measurableSet_Iic, hc]
  have h4 := beta_density 0 ((Set.Iic ((1 + t) / 2)).indicator 1) (measurable_one.indicator measurableSet_Iic)
  rw [lintegral_indicator_one measurableSet_Iic] at h4
  simp only [zero_add] at h4
  rw [h4, ← lintegral_indicator measurableSet_Ioo]
  have h5 : ∀ u : ℝ, (Set.Ioo (0 : ℝ) 1).indicator (fun u => ENNReal.ofReal (((2 * 0 + 1).factorial : ℕ) /
      ((Nat.factorial 0 : ℕ) * (Nat.factorial 0 : ℕ)) * u ^ 0 * (1 - u) ^ 0) * (Set.Iic ((1 + t) / 2)).indicator 1 u) u =
      (Set.Ioo (0 : ℝ) 1 ∩ Set.Iic ((1 + t) / 2)).indicator 1 u := by
    intro u
    simp only [Set.indicator, Set.mem_inter_iff]
    split_ifs <;> simp_all
  simp only [mul_zero, zero_add] at h5 ⊢
  simp only [h5]
  rw [lintegral_indicator_one (measurableSet_Ioo.inter measurableSet_Iic)]
  have h6 : (volume : Measure ℝ) (Set.Ioo 0 1 ∩ Set.Iic ((1 + t) / 2)) = volume (Set.Ioc 0 ((1 + t) / 2)) := by
    apply measure_congr
    have : ∀ᵐ u ∂(volume : Measure ℝ), u ≠ 1 := by
      rw [ae_iff]; simp
    filter_upwards [this] with u hu
    apply propext
    show (u ∈ Set.Ioo 0 1 ∩ Set.Iic ((1 + t) / 2)) ↔ u ∈ Set.Ioc 0 ((1 + t) / 2)
    simp only [Set.mem_inter_iff, Set.mem_Ioo, Set.mem_Iic, Set.mem_Ioc]
    constructor
    · rintro ⟨⟨a, b⟩, c⟩
      exact ⟨a, c⟩
    · rintro ⟨a, b⟩
      exact ⟨⟨a, lt_of_le_of_ne (by linarith) hu⟩, b⟩
  rw [h6, Real.volume_Ioc, sub_zero]

theorem component_integral (k : Nat) (n : R3) (hn : ‖n‖ = 1) (hk : 0 < k) (f : ℝ → ℝ) (hf : Measurable f)
    (hi : Integrable (fun u => f (2 * u - 1)) (betaMeasure k k)) :
    Integrable (fun x => f (inner ℝ n x)) (Spec.ginibreLaw k) ∧
    ∫ x, f (inner ℝ n x) ∂Spec.ginibreLaw k = ∫ u, f (2 * u - 1) ∂betaMeasure k k := by
  have hm : Measurable fun u : ℝ => f (2 * u - 1) := by fun_prop
  have e : (fun x : R3 => f (inner ℝ n x)) = (fun u => f (2 * u - 1)) ∘ fun x : R3 => (1 + inner ℝ n x) / 2 := by
    funext x
    simp only [Function.comp]
    congr 1
    ring
  rw [← C135_components k hk n hn] at hi ⊢
  rw [integral_map (by fun_prop) hm.aestronglyMeasurable]
  rw [integrable_map_measure hm.aestronglyMeasurable (by fun_prop)] at hi
  rw [e]
  exact ⟨hi, rfl⟩

theorem component_moments (k : Nat) (hk : 0 < k) (s : R3) :
    (Integrable (fun x => inner ℝ s x) (Spec.ginibreLaw k) ∧ Integrable (fun x => inner ℝ s x ^ 2) (Spec.ginibreLaw k)) ∧
    ∫ x, inner ℝ s x ∂Spec.ginibreLaw k = 0 ∧ ∫ x, inner ℝ s x ^ 2 ∂Spec.ginibreLaw k = ‖s‖ ^ 2 / (2 * k + 1) := by
  have hk' : (0 : ℝ) < k := by exact_mod_cast hk
  obtain ⟨hi1, hi2⟩ := beta_integrable hk' hk'
  have : IsProbabilityMeasure (betaMeasure k k) := isProbabilityMeasureBeta hk' hk'
  by_cases hs : s = 0
  · simp [hs]
  · have hs' : ‖s‖ ≠ 0 := norm_ne_zero_iff.2 hs
    have hn : ‖(‖s‖⁻¹ • s : R3)‖ = 1 := by rw [norm_smul, norm_inv, norm_norm, inv_mul_cancel₀ hs']
    have hsx : ∀ x : R3, inner ℝ s x = ‖s‖ * inner ℝ (‖s‖⁻¹ • s) x := by
      intro x
      rw [real_inner_smul_left, ← mul_assoc, mul_inv_cancel₀ hs', one_mul]
    have hj1 : Integrable (fun u : ℝ => 2 * u - 1) (betaMeasure k k) := (hi1.const_mul 2).sub (integrable_const 1)
    have hj2 : Integrable (fun u : ℝ => (2 * u - 1) ^ 2) (betaMeasure k k) := by
      have : (fun u : ℝ => (2 * u - 1) ^ 2) = fun u => 4 * u ^ 2 - 4 * u + 1 := by funext u; ring
      rw [this]
      exact ((hi2.const_mul 4).sub (hi1.const_mul 4)).add (integrable_const 1)
    obtain ⟨a1, a2⟩ := component_integral k _ hn hk (fun y => y) measurable_id hj1
    obtain ⟨b1, b2⟩ := component_integral k _ hn hk (fun y => y ^ 2) (by fun_prop) hj2
    simp only [hsx, mul_pow]
    refine ⟨⟨a1.const_mul _, b1.const_mul _⟩, ?_, ?_⟩
    · rw [integral_const_mul, a2, integral_sub (hi1.const_mul 2) (integrable_const 1), integral_const_mul,
        beta_mean hk' hk', integral_const]
      simp
      right
      field_simp
      ring
    · have : (fun u : ℝ => (2 * u - 1) ^ 2) = fun u => 4 * u ^ 2 - 4 * u + 1 := by funext u; ring
      have hd : Integrable (fun u : ℝ => 4 * u ^ 2 - 4 * u) (betaMeasure k k) := (hi2.const_mul 4).sub (hi1.const_mul 4)
      rw [integral_const_mul, b2, this, integral_add hd (integrable_const 1),
        integral_sub (hi2.const_mul 4) (hi1.const_mul 4), integral_const_mul, integral_const_mul, beta_mean hk' hk',
        beta_second hk' hk', integral_const]
      simp
      field_simp
      ring

/-- C135: the mean Bloch vector is zero, so the mean state is maximally mixed, and the components are uncorrelated with
variance `1 / (2 k + 1)`.  For the Haar measure `k` is one. -/
theorem C135_moments (k : Nat) (hk : 0 < k) (s t : R3) :
    Integrable (fun x => inner ℝ s x) (Spec.ginibreLaw k) ∧
    Integrable (fun x => inner ℝ s x * inner ℝ t x) (Spec.ginibreLaw k) ∧
    ∫ x, inner ℝ s x ∂Spec.ginibreLaw k = 0 ∧
    ∫ x, inner ℝ s x * inner ℝ t x ∂Spec.ginibreLaw k = inner ℝ s t / (2 * k + 1) := by
  obtain ⟨⟨h1, -⟩, h2, -⟩ := component_moments k hk s
  obtain ⟨⟨-, p1⟩, -, p2⟩ := component_moments k hk (s + t)
  obtain ⟨⟨-, m1⟩, -, m2⟩ := component_moments k hk (s - t)
  have e : (fun x : R3 => inner ℝ s x * inner ℝ t x) =
      fun x => (1 / 4) * (inner ℝ (s + t) x ^ 2 - inner ℝ (s - t) x ^ 2) := by
    funext x
    rw [inner_add_left, inner_sub_left]
    ring
  refine ⟨h1, ?_, h2, ?_⟩
  · rw [e]; exact (p1.sub m1).const_mul _
  · rw [e, integral_const_mul, integral_sub p1 m1, p2, m2, norm_add_sq_real, norm_sub_sq_real]
    ring

/-- Isotropic laws are determined by the law of one component. -/
theorem isotropic_component {μ ν : Measure R3} [IsProbabilityMeasure μ] [IsProbabilityMeasure ν]
    (hμ : Spec.Isotropic μ) (hν : Spec.Isotropic ν) (h : μ.map (fun x => x 2) = ν.map (fun x => x 2)) : μ = ν := by
  have hm : Measurable fun x : R3 => x 2 := by fun_prop
  have key : ∀ {μ : Measure R3}, Spec.Isotropic μ → ∀ t : R3,
      charFun μ t = ∫ y, Complex.exp (‖t‖ * y * Complex.I) ∂μ.map (fun x : R3 => x 2) := by
    intro μ hμ t
    have hn : ‖t‖ = ‖(‖t‖ • EuclideanSpace.single 2 1 : R3)‖ := by rw [norm_smul]; simp
    rw [isotropic_charFun hμ t _ hn, charFun_apply, integral_map hm.aemeasurable
      (Measurable.aestronglyMeasurable (by fun_prop))]
    congr 1
    funext x
    rw [inner_smul_right, EuclideanSpace.inner_single_right]
    simp
  apply Measure.ext_of_charFun
  ext t
  rw [key hμ, key hν, h]

/-- The component of a point in the unit ball. -/
theorem ball_component (g : ℝ → ℝ≥0∞) (hg : Measurable g) :
    ∫⁻ x in Metric.ball (0 : R3) 1, g (x 2) = ∫⁻ t in Set.Ioo (-1) 1, ENNReal.ofReal (Real.pi * (1 - t ^ 2)) * g t := by
  have hball : ∀ x : R3, x ∈ Metric.ball (0 : R3) 1 ↔ x 0 ^ 2 + x 1 ^ 2 + x 2 ^ 2 < 1 := by
    intro x
    rw [mem_ball_zero_iff, EuclideanSpace.norm_eq, Fin.sum_univ_three, Real.sqrt_lt' one_pos]
    simp
  obtain ⟨B, hB⟩ : ∃ B : Set (Fin 3 → ℝ), B = {y | y 0 ^ 2 + y 1 ^ 2 + y 2 ^ 2 < 1} := ⟨_, rfl⟩
  have hBm : MeasurableSet B := by
    rw [hB]
    exact measurableSet_lt (by fun_prop) measurable_const
  have hmg : Measurable (B.indicator fun y : Fin 3 → ℝ => g (y 2)) :=
    (hg.comp (measurable_pi_apply 2)).indicator hBm
  have h1 : ∫⁻ x in Metric.ball (0 : R3) 1, g (x 2) = ∫⁻ y, B.indicator (fun y : Fin 3 → ℝ => g (y 2)) y := by
    rw [← (PiLp.volume_preserving_ofLp (Fin 3)).lintegral_comp hmg, ← lintegral_indicator measurableSet_ball]
    congr 1
    funext x
    by_cases hx : x ∈ Metric.ball (0 : R3) 1
    · have hx' : x.ofLp ∈ B := by rw [hB]; exact (hball x).1 hx
      rw [Set.indicator_of_mem hx, Set.indicator_of_mem hx']
    · have hx' : x.ofLp ∉ B := by rw [hB]; exact fun h => hx ((hball x).2 h)
      rw [Set.indicator_of_notMem hx, Set.indicator_of_notMem hx']
  have mp := (volume_preserving_piFinSuccAbove (fun _ : Fin 3 => ℝ) 2).symm
  have hcm : Measurable fun a : ℝ × (Fin 2 → ℝ) => B.indicator (fun y : Fin 3 → ℝ => g (y 2))
      ((MeasurableEquiv.piFinSuccAbove (fun _ : Fin 3 => ℝ) 2).symm a) := hmg.comp mp.measurable
  rw [h1, ← mp.lintegral_comp hmg, Measure.volume_eq_prod, lintegral_prod _ hcm.aemeasurable,
    ← lintegral_indicator measurableSet_Ioo]
  congr 1
  funext t
  have hin : ∀ y : Fin 2 → ℝ, (MeasurableEquiv.piFinSuccAbove (fun _ : Fin 3 => ℝ) 2).symm (t, y) = ![y 0, y 1, t] := by
    intro y
    funext a
    fin_cases a <;> rfl
  simp only [hin]
  obtain ⟨D, hD⟩ : ∃ D : Set (Fin 2 → ℝ), D = {y | y 0 ^ 2 + y 1 ^ 2 < 1 - t ^ 2} := ⟨_, rfl⟩
  have hDm : MeasurableSet D := by
    rw [hD]
    exact measurableSet_lt (by fun_prop) measurable_const
  have h2 : ∀ y : Fin 2 → ℝ, B.indicator (fun y : Fin 3 → ℝ => g (y 2)) ![y 0, y 1, t] = D.indicator (fun _ => g t) y := by
    intro y
    have : ![y 0, y 1, t] ∈ B ↔ y ∈ D := by
      rw [hB, hD]
      show y 0 ^ 2 + y 1 ^ 2 + t ^ 2 < 1 ↔ y 0 ^ 2 + y 1 ^ 2 < 1 - t ^ 2
      constructor <;> intro h <;> linarith
    by_cases hy : y ∈ D
    · rw [Set.indicator_of_mem hy, Set.indicator_of_mem (this.2 hy)]
      rfl
    · rw [Set.indicator_of_notMem hy, Set.indicator_of_notMem fun h => hy (this.1 h)]
  simp only [h2]
  rw [lintegral_indicator_const hDm, mul_comm]
  by_cases ht : t ∈ Set.Ioo (-1 : ℝ) 1
  · rw [Set.indicator_of_mem ht]
    congr 1
    have hpos : 0 < 1 - t ^ 2 := by nlinarith [ht.1, ht.2]
    have hv : volume D = volume (Metric.ball (0 : EuclideanSpace ℝ (Fin 2)) (Real.sqrt (1 - t ^ 2))) := by
      rw [← (PiLp.volume_preserving_ofLp (Fin 2)).measure_preimage hDm.nullMeasurableSet]
      congr 1
      ext y
      rw [mem_ball_zero_iff, EuclideanSpace.norm_eq, Fin.sum_univ_two]
      rw [Real.sqrt_lt_sqrt_iff (by positivity), hD]
      simp
    rw [hv, EuclideanSpace.volume_ball_fin_two, ← ENNReal.ofReal_pow (Real.sqrt_nonneg _), Real.sq_sqrt hpos.le,
      ← ENNReal.ofReal_mul hpos.le, mul_comm]
  · rw [Set.indicator_of_notMem ht]
    have : D = ∅ := by
      rw [hD, Set.eq_empty_iff_forall_notMem]
      intro y hy
      have hy : y 0 ^ 2 + y 1 ^ 2 < 1 - t ^ 2 := hy
      apply ht
      constructor <;> nlinarith [sq_nonneg (y 0), sq_nonneg (y 1)]
    rw [this]
    simp

/-- C135: for the default `k = 2` the draws of `GinibreUniform` are uniform in the Bloch ball: the probability of a set is
its share of the volume. -/
theorem C135_ball : Spec.ginibreLaw 2 = (volume (Metric.ball (0 : R3) 1))⁻¹ • volume.restrict (Metric.ball (0 : R3) 1) := by
  have hvol : volume (Metric.ball (0 : R3) 1) = ENNReal.ofReal (Real.pi * 4 / 3) := by
    rw [EuclideanSpace.volume_ball_fin_three]; simp
  have hpi := Real.pi_pos
  have hv0 : volume (Metric.ball (0 : R3) 1) ≠ 0 := by
    rw [hvol]
    simp only [ne_eq, ENNReal.ofReal_eq_zero, not_le]
    positivity
  have hvt : volume (Metric.ball (0 : R3) 1) ≠ ∞ := by rw [hvol]; exact ENNReal.ofReal_ne_top
  have : IsProbabilityMeasure ((volume (Metric.ball (0 : R3) 1))⁻¹ • volume.restrict (Metric.ball (0 : R3) 1)) := by
    constructor
    rw [Measure.smul_apply, Measure.restrict_apply MeasurableSet.univ, Set.univ_inter, smul_eq_mul,
      ENNReal.inv_mul_cancel hv0 hvt]
  have := (C135_ginibre 2).1
  refine isotropic_component (C135_ginibre 2).2.1 ?_ ?_
  · intro R
    rw [Measure.map_smul]
    congr 1
    have hR := R.measurePreserving.restrict_preimage (measurableSet_ball (x := (0 : R3)) (ε := 1))
    have hpre : R ⁻¹' Metric.ball (0 : R3) 1 = Metric.ball (0 : R3) 1 := by
      ext x
      simp
    rw [hpre] at hR
    exact hR.map_eq
  · have hm : Measurable fun x : R3 => x 2 := by fun_prop
    have hn : ‖(EuclideanSpace.single 2 1 : R3)‖ = 1 := by simp
    have hc := C135_components 2 two_pos _ hn
    apply Measure.ext_of_lintegral
    intro g hg
    rw [lintegral_map hg hm, lintegral_map hg hm, lintegral_smul_measure, ball_component g hg]
    have h1 : ∫⁻ x, g (x 2) ∂Spec.ginibreLaw 2 = ∫⁻ u, g (2 * u - 1) ∂betaMeasure 2 2 := by
      have h2 := congrArg (fun μ => ∫⁻ u, g (2 * u - 1) ∂μ) hc
      dsimp only at h2
      rw [lintegral_map (by fun_prop) (by fun_prop)] at h2
      refine Eq.trans ?_ h2
      refine lintegral_congr fun x => ?_
      congr 1
      rw [EuclideanSpace.inner_single_left]
      simp
      ring
    have h3 := beta_density 1 (fun u => g (2 * u - 1)) (by fun_prop)
    norm_num at h3
    rw [h1, h3]
    have himg : (fun u : ℝ => 2 * u - 1) '' Set.Ioo 0 1 = Set.Ioo (-1) 1 := by
      ext t
      constructor
      · rintro ⟨u, ⟨a, b⟩, rfl⟩
        exact ⟨by dsimp only; linarith, by dsimp only; linarith⟩
      · rintro ⟨a, b⟩
        exact ⟨(t + 1) / 2, ⟨by linarith, by linarith⟩, by dsimp only; ring⟩
    rw [← himg, lintegral_image_eq_lintegral_abs_deriv_mul measurableSet_Ioo (f' := fun _ => 2), smul_eq_mul,
      ← lintegral_const_mul _ (by fun_prop)]
    · refine setLIntegral_congr_fun measurableSet_Ioo fun u hu => ?_
      have hu1 : 0 < 1 - u := by linarith [hu.2]
      have hu0 : 0 < u := hu.1
      dsimp only
      rw [hvol, ← ENNReal.ofReal_inv_of_pos (by positivity), ← mul_assoc, ← mul_assoc,
        ← ENNReal.ofReal_mul (by positivity), ← ENNReal.ofReal_mul (by positivity)]
      congr 2
      rw [abs_of_pos two_pos]
      simp
      field_simp
      ring
    · intro u _
      have := ((hasDerivAt_id u).const_mul 2).sub_const 1
      refine this.hasDerivWithinAt.congr_deriv ?_
      simp
    · intro a _ b _ hab
      dsimp only at hab
      linarith

/-! ## Examples -/

open Classical in
/-- A routine for the factors `q` and `r` of matrices of dimension two. -/
noncomputable def qrTwo (z : Matrix (Fin 2) (Fin 2) ℂ) : Matrix (Fin 2) (Fin 2) ℂ × Matrix (Fin 2) (Fin 2) ℂ :=
  let s : ℝ := Real.sqrt (Complex.normSq (z 0 0) + Complex.normSq (z 1 0))
  let q : Matrix (Fin 2) (Fin 2) ℂ :=
    if s = 0 then 1 else (s : ℂ)⁻¹ • !![z 0 0, -star (z 1 0); z 1 0, star (z 0 0)]
  (q, qᴴ * z)

theorem qrTwo_isQR : Spec.IsQR qrTwo := by
  intro z
  have hnn : 0 ≤ Complex.normSq (z 0 0) + Complex.normSq (z 1 0) :=
    add_nonneg (Complex.normSq_nonneg _) (Complex.normSq_nonneg _)
  obtain ⟨s, hs⟩ : ∃ s, s = Real.sqrt (Complex.normSq (z 0 0) + Complex.normSq (z 1 0)) := ⟨_, rfl⟩
  have hs2 : s ^ 2 = Complex.normSq (z 0 0) + Complex.normSq (z 1 0) := by rw [hs, Real.sq_sqrt hnn]
  unfold qrTwo
  simp only [← hs]
  by_cases h0 : s = 0
  · have h1 : z 1 0 = 0 := by
      rw [h0] at hs2
      have := Complex.normSq_nonneg (z 0 0)
      have := Complex.normSq_nonneg (z 1 0)
      exact Complex.normSq_eq_zero.1 (by nlinarith)
    simp [h0, h1]
  · simp only [h0, if_false]
    have hs' : (s : ℂ) ≠ 0 := by exact_mod_cast h0
    have hz : star (z 0 0) * z 0 0 + star (z 1 0) * z 1 0 = (s : ℂ) ^ 2 := by
      rw [← Complex.ofReal_pow, hs2, Complex.ofReal_add, Complex.normSq_eq_conj_mul_self, Complex.normSq_eq_conj_mul_self]
      rfl
    have hz' : (starRingEnd ℂ) (z 0 0) * z 0 0 + (starRingEnd ℂ) (z 1 0) * z 1 0 = (s : ℂ) ^ 2 := hz
    obtain ⟨q, hq⟩ : ∃ q, q = (s : ℂ)⁻¹ • !![z 0 0, -star (z 1 0); z 1 0, star (z 0 0)] := ⟨_, rfl⟩
    rw [← hq]
    have hu : qᴴ * q = 1 := by
      rw [hq]
      ext i j
      fin_cases i <;> fin_cases j <;> simp [mul_apply, Fin.sum_univ_two] <;> field_simp <;>
        first | ring1 | linear_combination hz'
    refine ⟨hu, ?_, ?_⟩
    · rw [hq]
      simp [mul_apply, Fin.sum_univ_two]
      ring
    · rw [← Matrix.mul_assoc, mul_eq_one_comm.1 hu, Matrix.one_mul]

/-- The hypotheses of the theorems on `HaarUniform` can be met, and the theorems say something: half of the draws lie in
the upper half of the sphere, and a quarter have an x component of at most `-1/2`. -/
example : Spec.haarLaw qrTwo {x | inner ℝ (EuclideanSpace.single 2 1 : R3) x ≤ 0} = ENNReal.ofReal (1 / 2) ∧
    Spec.haarLaw qrTwo {x | inner ℝ (EuclideanSpace.single 0 1 : R3) x ≤ -1 / 2} = ENNReal.ofReal (1 / 4) := by
  constructor
  · rw [C135_haar_components qrTwo_isQR _ (by simp) _ (by norm_num)]
    norm_num
  · rw [C135_haar_components qrTwo_isQR _ (by simp) _ (by norm_num)]
    norm_num

/-- A rotation of real states: the two basis states exchange their roles, so that the populations have the same law. -/
example (c : ℝ) : normals (Fin 2 × Fin 2) {v | ((reditDraw v).map fun ρ => (ρ 1 1).re) = some c} =
    normals (Fin 2 × Fin 2) {v | ((reditDraw v).map fun ρ => (ρ 0 0).re) = some c} := by
  have h := C135_redit_rotation (N := 2) (r := 2) !![0, 1; 1, 0]
    (by ext i j; fin_cases i <;> fin_cases j <;> simp [mul_apply, Fin.sum_univ_two])
    {o | o.map (fun ρ => (ρ 0 0).re) = some c}
  refine Eq.trans ?_ h
  congr 1
  ext v
  simp only [Set.mem_ofPred_eq, Option.map_map]
  cases reditDraw v with
  | none => simp
  | some ρ => simp [mul_apply, Fin.sum_univ_two]

/-- With `k = 2` the mean of the square of the length is three fifths. -/
example : ∑ a : Fin 3, ∫ x, inner ℝ (EuclideanSpace.single a 1 : R3) x * inner ℝ (EuclideanSpace.single a 1 : R3) x
    ∂Spec.ginibreLaw 2 = 3 / 5 := by
  simp only [(C135_moments 2 two_pos _ _).2.2.2]
  simp
  norm_num

end QInfer
