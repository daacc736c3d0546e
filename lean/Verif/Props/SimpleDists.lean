import Verif.Model.SimpleDists
import Mathlib.Probability.Distributions.Gaussian.Real
import Mathlib.MeasureTheory.Measure.Lebesgue.Basic
import Mathlib.LinearAlgebra.Matrix.PosDef
import Mathlib.Analysis.Calculus.Deriv.Add
import Mathlib.Tactic.Linarith
import Mathlib.Tactic.FieldSimp
import Mathlib.Tactic.Ring
import Mathlib.Tactic.FinCases

/-!
# C70-C73: simple distributions
-/

namespace QInfer

set_option linter.unusedSectionVars false

open Matrix
open scoped BigOperators

/-! ## C70 -/

section
variable {K : Type} [Field K]

theorem zipWith_getElem? {α β γ : Type} (f : α → β → γ) (a : List α) (b : List β) (j : Nat)
    (x : α) (y : β) (h1 : a[j]? = some x) (h2 : b[j]? = some y) :
    (List.zipWith f a b)[j]? = some (f x y) := by
  rw [List.getElem?_zipWith, h1, h2]

/-- C70: a table of `n` ranges `[lo, hi]` gives a distribution of `n` variables; variate `z` of
variable `j` becomes `lo + z (hi - lo)`.  There is one row of samples for each row of variates. -/
theorem C70_uniform (rows : List (List K)) (hr : ∀ r ∈ rows, r.length = 2) (z : List (List K))
    (hz : ∀ r ∈ z, r.length = rows.length) :
    ∃ d, boxInit (.mat 2 rows) = .ok d ∧ d.nRvs = rows.length ∧
      (d.uniform z).length = z.length ∧
      ∀ (i j : Nat) (row : List K) (lo hi v : K), z[i]? = some row → row[j]? = some v →
        rows[j]? = some [lo, hi] →
        ∃ out, (d.uniform z)[i]? = some out ∧ out.length = rows.length ∧
          out[j]? = some (lo + v * (hi - lo)) := by
  refine ⟨_, by rw [boxInit]; dsimp only [RangesArg.table]; rw [if_neg (by omega)], by simp [BoxDist.nRvs],
    by simp [BoxDist.uniform], ?_⟩
  intro i j row lo hi v h1 h2 h3
  refine ⟨_, by rw [BoxDist.uniform, List.getElem?_map, h1]; rfl, ?_, ?_⟩
  · have := hz row (List.mem_of_getElem? h1)
    simp [this]
  · apply zipWith_getElem?
    · rw [List.getElem?_map, h3]; rfl
    · apply zipWith_getElem?
      · exact h2
      · rw [List.getElem?_map, h3]; rfl

/-- C70: a single range may be given as a vector; one number per variable is an `IndexError`. -/
theorem C70_ranges (r : List K) (rows : List (List K)) :
    boxInit (.vec r) = boxInit (.mat r.length [r]) ∧
    (r.length < 2 → boxInit (.vec r) = .error .indexError) ∧
    ∀ cols < 2, boxInit (.mat cols rows) = .error .indexError := by
  refine ⟨rfl, fun h => ?_, fun cols h => ?_⟩ <;>
  · rw [boxInit]; dsimp only [RangesArg.table]; rw [if_pos h]

/-- C70: a `SlantedNormalDistribution` adds `weight` times a normal variate to a uniform sample; with
weight zero it is uniform. -/
theorem C70_slanted (d : BoxDist K) (hd : d.delta.length = d.lo.length) (weight : K)
    (z u : List (List K)) (hl : z.length = u.length) (hz : ∀ r ∈ z, r.length = d.nRvs)
    (hu : ∀ r ∈ u, r.length = d.nRvs) :
    (d.slanted weight z u).length = u.length ∧
    (∀ (i j : Nat) (zr ur x : List K) (zv v : K), z[i]? = some zr → (d.uniform u)[i]? = some ur →
      zr[j]? = some zv → ur[j]? = some v → (d.slanted weight z u)[i]? = some x →
      x[j]? = some (v + weight * zv)) ∧
    d.slanted 0 z u = d.uniform u := by
  have key : ∀ (zr ur : List K) (j : Nat) (zv v : K), zr[j]? = some zv →
      (List.zipWith (· + ·) d.lo (List.zipWith (· * ·) ur d.delta))[j]? = some v →
      (List.zipWith (· + ·) (List.zipWith (· + ·) d.lo (zr.map (weight * ·)))
        (List.zipWith (· * ·) ur d.delta))[j]? = some (v + weight * zv) := by
    intro zr ur j zv v h1 h2
    rw [List.getElem?_zipWith] at h2
    cases hlo : d.lo[j]? with
    | none => rw [hlo] at h2; simp at h2
    | some lo =>
      cases hp : (List.zipWith (· * ·) ur d.delta)[j]? with
      | none => rw [hlo, hp] at h2; simp at h2
      | some p =>
        rw [hlo, hp] at h2
        simp only [Option.some.injEq] at h2
        have e1 : (List.zipWith (· + ·) d.lo (zr.map (weight * ·)))[j]? = some (lo + weight * zv) := by
          apply zipWith_getElem? _ _ _ _ _ _ hlo
          rw [List.getElem?_map, h1]; rfl
        rw [zipWith_getElem? _ _ _ _ _ _ e1 hp, ← h2]
        congr 1
        ring
  refine ⟨by simp [BoxDist.slanted, hl], ?_, ?_⟩
  · intro i j zr ur x zv v h1 h2 h3 h4 h5
    rw [BoxDist.uniform, List.getElem?_map] at h2
    cases hu' : u[i]? with
    | none => rw [hu'] at h2; simp at h2
    | some row =>
      rw [hu'] at h2
      simp only [Option.map_some, Option.some.injEq] at h2
      rw [BoxDist.slanted, zipWith_getElem? _ _ _ _ _ _ h1 hu', Option.some.injEq] at h5
      rw [← h5]
      exact key zr row j zv v h3 (by rw [h2]; exact h4)
  · apply List.ext_getElem
    · simp [BoxDist.slanted, BoxDist.uniform, hl]
    · intro i h1 h2
      have hi : i < u.length := by simpa [BoxDist.uniform] using h2
      have hzi : i < z.length := by omega
      have e1 := hz z[i] (List.getElem_mem _)
      have e2 := hu u[i] (List.getElem_mem _)
      simp only [BoxDist.slanted, BoxDist.uniform, List.getElem_zipWith, List.getElem_map]
      congr 1
      apply List.ext_getElem
      · simp [e1, BoxDist.nRvs]
      · intro j h3 h4
        simp

/-- C70: `ConstantDistribution.sample(n)` is `n` times the given vector. -/
theorem C70_constant (values : List K) (n : Nat) :
    (constantSample values n).length = n ∧ ∀ x ∈ constantSample values n, x = values :=
  ⟨by simp [constantSample], fun _ h => (List.mem_replicate.1 h).2⟩

/-- C70: the samples of `DiscreteUniformDistribution` have one axis instead of two, so that an updater
cannot use the distribution as a prior: `IndexError`. -/
theorem C70_discrete_one_axis (z : List Nat) :
    (discreteSample z).allRows = .error .indexError ∧ ∃ xs, discreteSample z = .flat xs ∧ xs = z :=
  ⟨rfl, _, rfl, rfl⟩

end

section
variable {K : Type} [Field K] [LinearOrder K] [IsStrictOrderedRing K]

/-- C70: uniform samples lie in the box, whichever way round a range is given. -/
theorem C70_in_range (rows : List (List K)) (d : BoxDist K) (hd : boxInit (.mat 2 rows) = .ok d)
    (z : List (List K)) (hz : ∀ r ∈ z, r.length = rows.length ∧ ∀ v ∈ r, 0 ≤ v ∧ v < 1)
    (x : List K) (hx : x ∈ d.uniform z) (j : Nat) (lo hi y : K) (hj : rows[j]? = some [lo, hi])
    (hy : x[j]? = some y) :
    (lo < hi → lo ≤ y ∧ y < hi) ∧ (hi < lo → hi < y ∧ y ≤ lo) ∧ (lo = hi → y = lo) := by
  rw [boxInit] at hd
  dsimp only [RangesArg.table] at hd
  rw [if_neg (by omega), Except.ok.injEq] at hd
  subst hd
  rw [BoxDist.uniform, List.mem_map] at hx
  obtain ⟨row, hr, rfl⟩ := hx
  obtain ⟨hl, hv⟩ := hz row hr
  have hjl : j < row.length := by rw [hl]; exact (List.getElem?_eq_some_iff.1 hj).1
  obtain ⟨h0, h1⟩ := hv row[j] (List.getElem_mem _)
  have e : (rows.map fun r => r.getD 0 0)[j]? = some lo := by rw [List.getElem?_map, hj]; rfl
  have e2 : (rows.map fun r => r.getD 1 0 - r.getD 0 0)[j]? = some (hi - lo) := by
    rw [List.getElem?_map, hj]; rfl
  rw [zipWith_getElem? _ _ _ _ _ _ e (zipWith_getElem? _ _ _ _ _ _ (List.getElem?_eq_getElem hjl) e2),
    Option.some.injEq] at hy
  subst hy
  generalize row[j] = v at h0 h1 ⊢
  refine ⟨fun h => ⟨by nlinarith, by nlinarith⟩, fun h => ⟨by nlinarith, by nlinarith⟩, ?_⟩
  rintro rfl; ring

end

/-- C70: the probability of a subinterval is its share of the range. -/
theorem C70_law (lo hi a b : ℝ) (h : lo < hi) (ha : lo ≤ a) (hab : a ≤ b) (hb : b ≤ hi) :
    ∃ d, boxInit (.vec [lo, hi]) = .ok d ∧
    MeasureTheory.volume {v : ℝ | (0 ≤ v ∧ v < 1) ∧ ∃ y, d.uniform [[v]] = [[y]] ∧ a ≤ y ∧ y < b} =
      ENNReal.ofReal ((b - a) / (hi - lo)) := by
  refine ⟨⟨[lo], [hi - lo]⟩, rfl, ?_⟩
  have e : ∀ v : ℝ, (∃ y, BoxDist.uniform ⟨[lo], [hi - lo]⟩ [[v]] = [[y]] ∧ a ≤ y ∧ y < b) ↔
      (a ≤ lo + v * (hi - lo) ∧ lo + v * (hi - lo) < b) := by
    intro v
    constructor
    · rintro ⟨y, hy, h1⟩
      have : lo + v * (hi - lo) = y := by simpa [BoxDist.uniform] using hy
      rw [this]; exact h1
    · intro h1; exact ⟨_, rfl, h1⟩
  simp only [e]
  have hd : 0 < hi - lo := by linarith
  have : {v : ℝ | (0 ≤ v ∧ v < 1) ∧ a ≤ lo + v * (hi - lo) ∧ lo + v * (hi - lo) < b} =
      Set.Ico ((a - lo) / (hi - lo)) ((b - lo) / (hi - lo)) := by
    ext v
    simp only [Set.mem_setOf_eq, Set.mem_Ico, div_le_iff₀ hd, lt_div_iff₀ hd]
    constructor
    · rintro ⟨-, h1, h2⟩; constructor <;> linarith
    · rintro ⟨h1, h2⟩
      refine ⟨⟨?_, ?_⟩, by linarith, by linarith⟩
      · by_contra hn; push Not at hn; nlinarith
      · by_contra hn; push Not at hn; nlinarith
  rw [this, Real.volume_Ico]
  congr 1
  rw [← sub_div]
  congr 1
  ring

/-- Case for C70: two ranges, one reversed. -/
example : (match boxInit (K := ℚ) (.mat 2 [[0, 2], [5, 3]]) with
    | .ok d => d.uniform [[1/2, 1/4], [0, 1/2]]
    | .error _ => []) = [[1, 9/2], [0, 4]] := by decide +kernel

/-! ## C71 -/

open MeasureTheory ProbabilityTheory

/-- C71: without truncation the samples of a `NormalDistribution` follow the normal law of the given
mean and variance (not deviation). -/
theorem C71_normal_law (mean var : ℝ) (hv : 0 ≤ var) :
    ∃ s, normalInit mean var none = some s ∧
      (gaussianReal 0 1).map s.sample = gaussianReal mean ⟨var, hv⟩ := by
  refine ⟨_, by rw [normalInit, if_neg (not_lt.2 hv)], ?_⟩
  have e : NormalSpec.sample ⟨mean, Real.sqrt var, none⟩ =
      (fun y => mean + y) ∘ (fun z => Real.sqrt var * z) := by
    funext z; rfl
  rw [e, ← Measure.map_map (measurable_const_add _) (measurable_const_mul _),
    gaussianReal_map_const_mul, gaussianReal_map_const_add]
  congr 1
  · ring
  · ext
    simp [Real.sq_sqrt hv]
    rfl

/-- C71: with truncation the samples lie exactly between the limits: the standardised limits passed to
scipy correspond to the given ones. -/
theorem C71_normal_truncated (mean var low high : ℝ) (hv : 0 < var) :
    ∃ s a b, normalInit mean var (some (low, high)) = some s ∧ s.limits = some (a, b) ∧
      ∀ z, (a ≤ z ∧ z ≤ b) ↔ (low ≤ s.sample z ∧ s.sample z ≤ high) := by
  have h0 : 0 < Real.sqrt var := Real.sqrt_pos.2 hv
  refine ⟨_, _, _, by rw [normalInit, if_neg (not_lt.2 hv.le)]; dsimp only; rw [if_neg h0.ne'], rfl, ?_⟩
  intro z
  dsimp only [NormalSpec.sample]
  rw [div_le_iff₀ h0, le_div_iff₀ h0]
  constructor <;> rintro ⟨h1, h2⟩ <;> constructor <;> linarith

/-- C71: `NormalDistribution.grad_log_pdf` is the derivative of the logarithm of the density; a constant
factor of the density, as for truncation, does not matter. -/
theorem C71_normal_gradient (mean var c x : ℝ) (hv : 0 < var) (hc : 0 < c) :
    HasDerivAt (fun t => Real.log (c * gaussianPDFReal mean ⟨var, hv.le⟩ t)) (normalGrad mean var x) x := by
  have e : (fun t => Real.log (c * gaussianPDFReal mean ⟨var, hv.le⟩ t)) =
      fun t => Real.log (c * (Real.sqrt (2 * Real.pi * var))⁻¹) + -(t - mean) ^ 2 / (2 * var) := by
    funext t
    have h1 : 0 < (Real.sqrt (2 * Real.pi * var))⁻¹ :=
      inv_pos.2 (Real.sqrt_pos.2 (by positivity))
    change Real.log (c * ((Real.sqrt (2 * Real.pi * var))⁻¹ *
      Real.exp (-(t - mean) ^ 2 / (2 * var)))) = _
    rw [← mul_assoc, Real.log_mul (by positivity) (Real.exp_pos _).ne', Real.log_exp]
  rw [e, normalGrad]
  have h2 : HasDerivAt (fun t : ℝ => -(t - mean) ^ 2 / (2 * var)) (-(2 * (x - mean)) / (2 * var)) x := by
    have h3 : HasDerivAt (fun t : ℝ => (t - mean) ^ 2) (2 * (x - mean)) x := by
      exact (((hasDerivAt_id x).sub_const mean).pow 2).congr_deriv (by simp)
    exact h3.neg.div_const _
  have h4 := h2.const_add (Real.log (c * (Real.sqrt (2 * Real.pi * var))⁻¹))
  convert! h4 using 1
  field_simp

/-- C71: the mean and covariance of the samples of a `MultivariateNormalDistribution` are the given ones,
for every symmetric square root. -/
theorem C71_mvn_moments {Ω : Type} [MeasurableSpace Ω] (P : Measure Ω) [IsProbabilityMeasure P] {d : Nat}
    (mean : Fin d → ℝ) (cov S : Matrix (Fin d) (Fin d) ℝ) (hS : Sᵀ = S) (hSS : S * S = cov)
    (z : Ω → Fin d → ℝ) (h1 : ∀ j, Integrable (fun ω => z ω j) P)
    (h2 : ∀ j k, Integrable (fun ω => z ω j * z ω k) P) (hm : ∀ j, ∫ ω, z ω j ∂P = 0)
    (hc : ∀ j k, ∫ ω, z ω j * z ω k ∂P = if j = k then 1 else 0) (i k : Fin d) :
    ∫ ω, mvnSample mean S (z ω) i ∂P = mean i ∧
    ∫ ω, (mvnSample mean S (z ω) i - mean i) * (mvnSample mean S (z ω) k - mean k) ∂P = cov i k := by
  constructor
  · simp only [mvnSample]
    rw [integral_add (integrable_finsetSum _ fun j _ => (h1 j).const_mul _) (integrable_const _),
      integral_finsetSum _ fun j _ => (h1 j).const_mul _]
    simp [integral_const_mul, hm]
  · simp only [mvnSample, add_sub_cancel_right]
    have e : ∀ ω, (∑ j, S i j * z ω j) * (∑ j, S k j * z ω j) =
        ∑ a, ∑ b, (S i a * S k b) * (z ω a * z ω b) := by
      intro ω
      rw [Finset.sum_mul_sum]
      refine Finset.sum_congr rfl fun a _ => Finset.sum_congr rfl fun b _ => by ring
    simp only [e]
    rw [integral_finsetSum _ fun a _ => integrable_finsetSum _ fun b _ => (h2 a b).const_mul _]
    have : ∀ a, ∫ ω, ∑ b, (S i a * S k b) * (z ω a * z ω b) ∂P = S i a * S k a := by
      intro a
      rw [integral_finsetSum _ fun b _ => (h2 a b).const_mul _]
      simp [integral_const_mul, hc]
    simp only [this]
    rw [← hSS, Matrix.mul_apply]
    refine Finset.sum_congr rfl fun a _ => ?_
    have := congrFun (congrFun hS a) k
    rw [Matrix.transpose_apply] at this
    rw [this]

/-- The exponent of the multivariate normal density. -/
noncomputable def Spec.mvnExponent {d : Nat} (mean : Fin d → ℝ) (cov : Matrix (Fin d) (Fin d) ℝ)
    (x : Fin d → ℝ) : ℝ :=
  -(1 / 2) * ((x - mean) ⬝ᵥ (cov⁻¹ *ᵥ (x - mean)))

/-- C71: for a symmetric nonsingular covariance, `MultivariateNormalDistribution.grad_log_pdf` gives the
derivative of the log density in every direction. -/
theorem C71_mvn_gradient {d : Nat} (mean : Fin d → ℝ) (cov : Matrix (Fin d) (Fin d) ℝ) (hs : covᵀ = cov)
    (hd : cov.det ≠ 0) (c : ℝ) (x v : Fin d → ℝ) :
    ∃ invcov, mvnInit cov = .ok invcov ∧
      HasDerivAt (fun t : ℝ => c + Spec.mvnExponent mean cov (x + t • v))
        (v ⬝ᵥ mvnGrad mean invcov x) 0 := by
  refine ⟨cov⁻¹, by rw [mvnInit, if_neg hd], ?_⟩
  have hsi : (cov⁻¹)ᵀ = cov⁻¹ := by rw [Matrix.transpose_nonsing_inv, hs]
  set A := cov⁻¹ with hA
  set y := x - mean with hy
  have hg : mvnGrad mean A x = -(A *ᵥ y) := by
    funext i
    simp [mvnGrad, Matrix.mulVec, dotProduct, hy]
  have hsw : y ⬝ᵥ (A *ᵥ v) = v ⬝ᵥ (A *ᵥ y) := by
    rw [dotProduct_mulVec, ← mulVec_transpose, hsi, dotProduct_comm]
  have e : (fun t : ℝ => c + Spec.mvnExponent mean cov (x + t • v)) = fun t : ℝ =>
      (c - 1 / 2 * (y ⬝ᵥ (A *ᵥ y))) + (t * (-(v ⬝ᵥ (A *ᵥ y))) + t ^ 2 * (-(1 / 2) * (v ⬝ᵥ (A *ᵥ v)))) := by
    funext t
    have : x + t • v - mean = y + t • v := by rw [hy]; abel
    rw [Spec.mvnExponent, this, mulVec_add, mulVec_smul, add_dotProduct, dotProduct_add, dotProduct_add,
      smul_dotProduct, smul_dotProduct, dotProduct_smul, dotProduct_smul, hsw]
    simp only [smul_eq_mul]
    ring
  rw [e, hg, dotProduct_neg]
  have h1 := ((hasDerivAt_id (0 : ℝ)).mul_const (-(v ⬝ᵥ (A *ᵥ y))))
  have h2 := (((hasDerivAt_id (0 : ℝ)).pow 2).mul_const (-(1 / 2) * (v ⬝ᵥ (A *ᵥ v))))
  have h3 := (h1.add h2).const_add (c - 1 / 2 * (y ⬝ᵥ (A *ᵥ y)))
  convert! h3 using 1
  simp

/-- C71: a singular covariance matrix is rejected. -/
theorem C71_mvn_singular {d : Nat} (cov : Matrix (Fin d) (Fin d) ℝ) (hd : cov.det = 0) :
    mvnInit cov = .error .other := by
  rw [mvnInit, if_pos hd]

/-- C71: for two or more points (or none) the gradient of the uniform log density is zero, in the shape of
the argument. -/
theorem C71_uniform_gradient_partial (d : BoxDist ℝ) (var : List (List ℝ)) (h : var.length ≠ 1) :
    ∃ g, d.gradLogPdf var = .mat g ∧ g.length = var.length ∧
      ∀ (i j : Nat) (r : List ℝ) (x : ℝ), var[i]? = some r → r[j]? = some x →
        ∃ gr, g[i]? = some gr ∧ gr.length = r.length ∧ gr[j]? = some 0 := by
  refine ⟨_, by rw [BoxDist.gradLogPdf, if_neg h], by simp, ?_⟩
  intro i j r x h1 h2
  refine ⟨_, by rw [List.getElem?_map, h1]; rfl, by simp, ?_⟩
  rw [List.getElem?_map, h2]; rfl

/-- C71, finding: for one point `UniformDistribution.grad_log_pdf` returns `12 / (hi - lo)²`, which is
never zero, instead of the gradient, and has one axis instead of two. -/
theorem C71_uniform_gradient_one_point (lo hi : ℝ) (h : lo ≠ hi) (x : ℝ) :
    ∃ d, boxInit (.mat 2 [[lo, hi]]) = .ok d ∧ ∃ g, d.gradLogPdf [[x]] = .vec [g] ∧
      g = 12 / (hi - lo) ^ 2 ∧ g ≠ 0 := by
  refine ⟨_, by rw [boxInit]; dsimp only [RangesArg.table]; rw [if_neg (by omega)], 12 / (hi - lo) ^ 2,
    by simp [BoxDist.gradLogPdf], rfl, ?_⟩
  exact div_ne_zero (by norm_num) (pow_ne_zero _ (sub_ne_zero.2 h.symm))

/-- C71, finding: `LogNormalDistribution(mu, sigma)` uses `mu` as the origin and `sigma` as a factor, so
the logarithm of a sample is normal with mean `mu` and deviation `sigma` only for the defaults; samples
never fall below `mu`. -/
theorem C71_lognormal (mu sigma : ℝ) (hs : 0 < sigma) :
    (∀ z, mu < logNormalSample mu sigma z) ∧
    ((∀ z, logNormalSample mu sigma z = Real.exp (mu + sigma * z)) ↔ mu = 0 ∧ sigma = 1) := by
  refine ⟨fun z => ?_, ?_, ?_⟩
  · have := mul_pos hs (Real.exp_pos (1 * z))
    rw [logNormalSample]; linarith
  · intro h
    -- let `z → -∞`: the left side tends to `mu`, the right side to zero
    have hmu : mu ≤ 0 := by
      by_contra hn
      push Not at hn
      have h1 := h ((Real.log mu - mu) / sigma)
      have e : mu + sigma * ((Real.log mu - mu) / sigma) = Real.log mu := by field_simp; ring
      rw [e, Real.exp_log hn, logNormalSample] at h1
      have := mul_pos hs (Real.exp_pos (1 * ((Real.log mu - mu) / sigma)))
      linarith
    have hmu' : 0 ≤ mu := by
      by_contra hn
      push Not at hn
      have hp : 0 < -mu / sigma := div_pos (by linarith) hs
      have h1 := h (Real.log (-mu / sigma))
      rw [logNormalSample, one_mul, Real.exp_log hp] at h1
      have e : mu + sigma * (-mu / sigma) = 0 := by field_simp; ring
      rw [e] at h1
      exact (Real.exp_pos _).ne h1
    have h0 : mu = 0 := le_antisymm hmu hmu'
    refine ⟨h0, ?_⟩
    have h1 := h 0
    rw [h0] at h1
    simpa [logNormalSample] using h1
  · rintro ⟨rfl, rfl⟩ z
    simp [logNormalSample]

/-- Case for C71: `S = diag(1, 2)` is a symmetric root of `diag(1, 4)`, which is nonsingular. -/
example : (!![1, 0; 0, 2] : Matrix (Fin 2) (Fin 2) ℝ)ᵀ = !![1, 0; 0, 2] ∧
    (!![1, 0; 0, 2] : Matrix (Fin 2) (Fin 2) ℝ) * !![1, 0; 0, 2] = !![1, 0; 0, 4] ∧
    (!![1, 0; 0, 4] : Matrix (Fin 2) (Fin 2) ℝ).det ≠ 0 := by
  refine ⟨?_, ?_, ?_⟩
  · ext i j; fin_cases i <;> fin_cases j <;> rfl
  · ext i j; fin_cases i <;> fin_cases j <;> simp [Matrix.mul_apply] <;> norm_num
  · simp [Matrix.det_fin_two]

/-! ## C72 -/

theorem compactspace_getD (scale : ℝ) (n k : Nat) (hk : k < n) :
    (compactspace scale n).getD k 0 =
      scale * Real.log ((((k : ℝ) + 1) / ((n : ℝ) + 1)) / (1 - ((k : ℝ) + 1) / ((n : ℝ) + 1))) := by
  rw [List.getD_eq_getElem?_getD, compactspace, List.getElem?_map, List.getElem?_range hk]
  rfl

/-- C72: `compactspace` gives `n` points in increasing order, the quantiles of the logistic distribution:
the logistic function of point `k`, counted from zero, is `(k + 1) / (n + 1)`. -/
theorem C72_compactspace (scale : ℝ) (hs : 0 < scale) (n : Nat) :
    (compactspace scale n).length = n ∧
    (∀ k < n, 1 / (1 + Real.exp (-((compactspace scale n).getD k 0 / scale))) =
      ((k : ℝ) + 1) / ((n : ℝ) + 1)) ∧
    ∀ j k : Nat, j < k → k < n → (compactspace scale n).getD j 0 < (compactspace scale n).getD k 0 := by
  have hq : ∀ k : Nat, k < n → 0 < ((k : ℝ) + 1) / ((n : ℝ) + 1) ∧ ((k : ℝ) + 1) / ((n : ℝ) + 1) < 1 := by
    intro k hk
    have h1 : (k : ℝ) < n := by exact_mod_cast hk
    have h2 : (0 : ℝ) ≤ k := Nat.cast_nonneg k
    exact ⟨by positivity, by rw [div_lt_one (by linarith)]; linarith⟩
  refine ⟨by simp [compactspace], fun k hk => ?_, fun j k hjk hk => ?_⟩
  · rw [compactspace_getD scale n k hk]
    obtain ⟨h1, h2⟩ := hq k hk
    set p := ((k : ℝ) + 1) / ((n : ℝ) + 1)
    have h3 : 0 < 1 - p := by linarith
    rw [mul_div_cancel_left₀ _ hs.ne', Real.exp_neg, Real.exp_log (div_pos h1 h3)]
    field_simp
    ring
  · rw [compactspace_getD scale n k hk, compactspace_getD scale n j (by omega)]
    obtain ⟨h1, h2⟩ := hq k hk
    obtain ⟨h3, h4⟩ := hq j (by omega)
    have hlt : ((j : ℝ) + 1) / ((n : ℝ) + 1) < ((k : ℝ) + 1) / ((n : ℝ) + 1) := by
      have : (j : ℝ) < k := by exact_mod_cast hjk
      have hn : (0 : ℝ) < (n : ℝ) + 1 := by positivity
      exact div_lt_div_of_pos_right (by linarith) hn
    set p := ((k : ℝ) + 1) / ((n : ℝ) + 1)
    set q := ((j : ℝ) + 1) / ((n : ℝ) + 1)
    refine mul_lt_mul_of_pos_left (Real.log_lt_log (div_pos h3 (by linarith)) ?_) hs
    rw [div_lt_div_iff₀ (by linarith) (by linarith)]
    nlinarith

/-- The trapezium rule for `f` over the first `k` intervals between the points of `xs`. -/
noncomputable def Spec.trapezium (f : ℝ → ℝ) (xs : List ℝ) (k : Nat) : ℝ :=
  ∑ i ∈ Finset.range k, (xs.getD (i + 1) 0 - xs.getD i 0) * (f (xs.getD i 0) + f (xs.getD (i + 1) 0)) / 2

theorem trapAreas_spec (f : ℝ → ℝ) (xs : List ℝ) :
    (trapAreas xs (xs.map f)).length = xs.length - 1 ∧
    ∀ k < xs.length, ((trapAreas xs (xs.map f)).take k).sum = Spec.trapezium f xs k := by
  induction xs with
  | nil => exact ⟨rfl, fun k hk => absurd hk (by simp)⟩
  | cons x xs ih =>
    cases xs with
    | nil =>
      refine ⟨rfl, fun k hk => ?_⟩
      have : k = 0 := by simpa using hk
      subst this
      simp [trapAreas, Spec.trapezium]
    | cons x' xs =>
      obtain ⟨h1, h2⟩ := ih
      rw [List.map_cons] at h1 h2
      refine ⟨by simp only [List.map_cons, trapAreas, List.length_cons, h1]; simp, fun k hk => ?_⟩
      cases k with
      | zero => simp [Spec.trapezium]
      | succ k =>
        simp only [List.map_cons, trapAreas, List.take_succ_cons, List.sum_cons]
        rw [h2 k (by simpa using hk), Spec.trapezium, Spec.trapezium, Finset.sum_range_succ']
        simp only [List.getD_cons_succ, List.getD_cons_zero]
        ring

theorem runSums_spec (a : ℝ) (as : List ℝ) :
    (runSums a as).length = as.length + 1 ∧
    ∀ k ≤ as.length, (runSums a as).getD k 0 = a + (as.take k).sum := by
  induction as generalizing a with
  | nil =>
    refine ⟨rfl, fun k hk => ?_⟩
    have : k = 0 := by simpa using hk
    subst this; simp [runSums]
  | cons b as ih =>
    obtain ⟨h1, h2⟩ := ih (a + b)
    refine ⟨by simp [runSums, h1], fun k hk => ?_⟩
    cases k with
    | zero => simp [runSums]
    | succ k =>
      simp only [runSums, List.getD_cons_succ, List.take_succ_cons, List.sum_cons]
      rw [h2 k (by simpa using hk)]; ring

theorem trapezium_scale (f : ℝ → ℝ) (xs : List ℝ) (c : ℝ) (k : Nat) :
    Spec.trapezium (fun x => f x / c) xs k = Spec.trapezium f xs k / c := by
  simp only [Spec.trapezium, Finset.sum_div]
  refine Finset.sum_congr rfl fun i _ => ?_
  rw [← add_div]
  ring

/-- The table of the distribution function, with the norm. -/
theorem interpCdfs_spec (f : ℝ → ℝ) (xs : List ℝ) (hx : xs ≠ [])
    (hn : Spec.trapezium f xs (xs.length - 1) ≠ 0) :
    ∃ cs, interpCdfs f xs = some cs ∧ cs.length = xs.length ∧
      ∀ k < xs.length, cs.getD k 0 = Spec.trapezium f xs k / Spec.trapezium f xs (xs.length - 1) := by
  have hl : 0 < xs.length := List.length_pos_iff.2 hx
  have hsum : (trapAreas xs (xs.map f)).sum = Spec.trapezium f xs (xs.length - 1) := by
    rw [← (trapAreas_spec f xs).2 _ (by omega), ← (trapAreas_spec f xs).1, List.take_length]
  have hmap : (xs.map f).map (· / Spec.trapezium f xs (xs.length - 1)) =
      xs.map fun x => f x / Spec.trapezium f xs (xs.length - 1) := by
    rw [List.map_map]; rfl
  refine ⟨_, by unfold interpCdfs; dsimp only; rw [hsum, if_neg hn, hmap], ?_, fun k hk => ?_⟩
  · rw [(runSums_spec _ _).1, (trapAreas_spec _ xs).1]; omega
  · rw [(runSums_spec _ _).2 k (by rw [(trapAreas_spec _ xs).1]; omega), (trapAreas_spec _ xs).2 k hk,
      trapezium_scale, zero_add]

theorem trapezium_lt (f : ℝ → ℝ) (hf : ∀ x, 0 < f x) (xs : List ℝ)
    (hx : ∀ j k : Nat, j < k → k < xs.length → xs.getD j 0 < xs.getD k 0) (j k : Nat) (hjk : j < k)
    (hk : k < xs.length) : Spec.trapezium f xs j < Spec.trapezium f xs k := by
  induction k with
  | zero => omega
  | succ k ih =>
    have h1 : Spec.trapezium f xs k < Spec.trapezium f xs (k + 1) := by
      rw [Spec.trapezium, Spec.trapezium, Finset.sum_range_succ]
      have := hx k (k + 1) (by omega) hk
      have h2 := mul_pos (sub_pos.2 this) (add_pos (hf (xs.getD k 0)) (hf (xs.getD (k + 1) 0)))
      linarith
    rcases Nat.lt_succ_iff_lt_or_eq.1 hjk with h | h
    · exact (ih h (by omega)).trans h1
    · exact h ▸ h1

theorem takeWhile_index {α : Type} (p : α → Bool) (d : α) (l : List α) :
    (∀ j < (l.takeWhile p).length, p (l.getD j d) = true) ∧ (l.takeWhile p).length ≤ l.length ∧
    ((l.takeWhile p).length < l.length → p (l.getD (l.takeWhile p).length d) = false) := by
  induction l with
  | nil => simp
  | cons a l ih =>
    by_cases h : p a = true
    · rw [List.takeWhile_cons_of_pos h]
      refine ⟨fun j hj => ?_, by simpa using ih.2.1, fun hlt => ?_⟩
      · cases j with
        | zero => simpa using h
        | succ j => simpa using ih.1 j (by simpa using hj)
      · simpa using ih.2.2 (by simpa using hlt)
    · rw [List.takeWhile_cons_of_neg h]
      refine ⟨fun j hj => absurd hj (by simp), by simp, fun _ => by simpa using h⟩

/-- Interpolation of an increasing table. -/
theorem interp1d_spec (cs xs : List ℝ) (u : ℝ) (hn : 2 ≤ cs.length)
    (hc : ∀ j k : Nat, j < k → k < cs.length → cs.getD j 0 < cs.getD k 0) (h0 : cs.getD 0 0 ≤ u)
    (h1 : u ≤ cs.getD (cs.length - 1) 0) :
    ∃ k, k + 1 < cs.length ∧ cs.getD k 0 ≤ u ∧ u ≤ cs.getD (k + 1) 0 ∧
      interp1d cs xs u = some (xs.getD k 0 + (u - cs.getD k 0) / (cs.getD (k + 1) 0 - cs.getD k 0) *
        (xs.getD (k + 1) 0 - xs.getD k 0)) := by
  obtain ⟨t1, t2, t3⟩ := takeWhile_index (fun c => decide (c < u)) (0 : ℝ) cs
  set i := (cs.takeWhile fun c => decide (c < u)).length with hi
  have hmax : i < cs.length := by
    by_contra hn'
    have := t1 (cs.length - 1) (by omega)
    simp only [decide_eq_true_eq] at this
    linarith
  have hu := t3 hmax
  simp only [decide_eq_false_iff_not, not_lt] at hu
  refine ⟨min (max i 1) (cs.length - 1) - 1, by omega, ?_, ?_, ?_⟩
  · rcases Nat.eq_zero_or_pos i with h | h
    · have e : min (max i 1) (cs.length - 1) - 1 = 0 := by omega
      rw [e]; exact h0
    · have e : min (max i 1) (cs.length - 1) - 1 = i - 1 := by omega
      have := t1 (i - 1) (by omega)
      simp only [decide_eq_true_eq] at this
      rw [e]; exact this.le
  · rcases Nat.eq_zero_or_pos i with h | h
    · have e : min (max i 1) (cs.length - 1) - 1 + 1 = 1 := by omega
      rw [e]
      rw [h] at hu
      exact hu.trans (hc 0 1 (by omega) (by omega)).le
    · have e : min (max i 1) (cs.length - 1) - 1 + 1 = i := by omega
      rw [e]; exact hu
  · unfold interp1d
    rw [if_neg (by push Not; exact ⟨h0, h1⟩)]
    dsimp only
    rw [← hi]
    have e : min (max i 1) (cs.length - 1) - 1 + 1 = min (max i 1) (cs.length - 1) := by omega
    rw [e]
    congr 1
    ring

/-- C72: every uniform variate gives a sample, found by linear interpolation between the points of the
grid.  The sample is at most grid point `k` exactly when the variate is at most the share which the
intervals up to point `k` have in the trapezium rule for the density: the samples have the right
distribution function at the grid points.  Only the shape of the density matters. -/
theorem C72_interpolated (pdf : ℝ → ℝ) (hf : ∀ x, 0 < pdf x) (scale : ℝ) (hs : 0 < scale) (n : Nat)
    (hn : 2 ≤ n) (u : ℝ) (h0 : 0 ≤ u) (h1 : u < 1) :
    let xs := compactspace scale n
    let T := Spec.trapezium pdf xs
    ∃ y, interpSample pdf scale n u = some y ∧
      xs.getD 0 0 ≤ y ∧ y ≤ xs.getD (n - 1) 0 ∧
      (∀ k < n, y ≤ xs.getD k 0 ↔ u ≤ T k / T (n - 1)) ∧
      (∃ k, k + 1 < n ∧ T k / T (n - 1) ≤ u ∧ u ≤ T (k + 1) / T (n - 1) ∧
        (y - xs.getD k 0) * (T (k + 1) - T k) =
          (u * T (n - 1) - T k) * (xs.getD (k + 1) 0 - xs.getD k 0)) ∧
      ∀ c, 0 < c → interpSample (fun x => c * pdf x) scale n u = some y := by
  intro xs T
  obtain ⟨hl, -, hx⟩ := C72_compactspace scale hs n
  have hx' : ∀ j k : Nat, j < k → k < xs.length → xs.getD j 0 < xs.getD k 0 := by
    intro j k hjk hk; exact hx j k hjk (hl ▸ hk)
  have hne : xs ≠ [] := by
    intro h
    have h2 : xs.length = 0 := by rw [h]; rfl
    have h3 : xs.length = n := hl
    omega
  have hTlt : ∀ j k : Nat, j < k → k < n → T j < T k := fun j k hjk hk =>
    trapezium_lt pdf hf xs hx' j k hjk (by rw [hl]; exact hk)
  have hT0 : T 0 = 0 := by simp [T, Spec.trapezium]
  have hTn : 0 < T (n - 1) := by rw [← hT0]; exact hTlt 0 (n - 1) (by omega) (by omega)
  have main : ∀ g : ℝ → ℝ, (∀ k, Spec.trapezium g xs k / Spec.trapezium g xs (n - 1) = T k / T (n - 1)) →
      Spec.trapezium g xs (n - 1) ≠ 0 →
      ∃ cs, interpCdfs g xs = some cs ∧ cs.length = n ∧ ∀ k < n, cs.getD k 0 = T k / T (n - 1) := by
    intro g hg hgn
    obtain ⟨cs, c1, c2, c3⟩ := interpCdfs_spec g xs hne (by rw [hl]; exact hgn)
    refine ⟨cs, c1, c2.trans hl, fun k hk => ?_⟩
    rw [c3 k (by rw [hl]; exact hk), hl, hg]
  obtain ⟨cs, c1, c2, c3⟩ := main pdf (fun _ => rfl) hTn.ne'
  have hcs : ∀ j k : Nat, j < k → k < cs.length → cs.getD j 0 < cs.getD k 0 := by
    intro j k hjk hk
    rw [c2] at hk
    rw [c3 j (by omega), c3 k hk]
    exact div_lt_div_of_pos_right (hTlt j k hjk hk) hTn
  obtain ⟨j, j1, j2, j3, j4⟩ := interp1d_spec cs xs u (by omega) hcs
    (by rw [c3 0 (by omega), hT0, zero_div]; exact h0)
    (by rw [c2, c3 _ (by omega), div_self hTn.ne']; exact h1.le)
  rw [c2] at j1
  set y := xs.getD j 0 + (u - cs.getD j 0) / (cs.getD (j + 1) 0 - cs.getD j 0) *
    (xs.getD (j + 1) 0 - xs.getD j 0) with hy
  have hgap : 0 < cs.getD (j + 1) 0 - cs.getD j 0 := sub_pos.2 (hcs j (j + 1) (by omega) (by omega))
  have hxgap : 0 < xs.getD (j + 1) 0 - xs.getD j 0 := sub_pos.2 (hx j (j + 1) (by omega) j1)
  have hmono : ∀ a b : Nat, a ≤ b → b < n → xs.getD a 0 ≤ xs.getD b 0 := by
    intro a b hab hb
    rcases Nat.lt_or_eq_of_le hab with h | h
    · exact (hx a b h hb).le
    · rw [h]
  have hcmono : ∀ a b : Nat, a ≤ b → b < n → cs.getD a 0 ≤ cs.getD b 0 := by
    intro a b hab hb
    rcases Nat.lt_or_eq_of_le hab with h | h
    · exact (hcs a b h (by omega)).le
    · rw [h]
  have hlo : xs.getD j 0 ≤ y := by
    have := mul_nonneg (div_nonneg (sub_nonneg.2 j2) hgap.le) hxgap.le
    rw [hy]; linarith
  have hhi : y ≤ xs.getD (j + 1) 0 := by
    have h2 : (u - cs.getD j 0) / (cs.getD (j + 1) 0 - cs.getD j 0) ≤ 1 := by
      rw [div_le_one hgap]; linarith
    have := mul_le_mul_of_nonneg_right h2 hxgap.le
    rw [hy]; linarith
  have hlo' : y ≤ xs.getD j 0 → u = cs.getD j 0 := by
    intro h
    have h2 : (u - cs.getD j 0) / (cs.getD (j + 1) 0 - cs.getD j 0) *
      (xs.getD (j + 1) 0 - xs.getD j 0) ≤ 0 := by rw [hy] at h; linarith
    have h3 : (u - cs.getD j 0) / (cs.getD (j + 1) 0 - cs.getD j 0) ≤ 0 := by
      by_contra hn'; push Not at hn'
      have := mul_pos hn' hxgap; linarith
    have h4 : u - cs.getD j 0 ≤ 0 := by
      by_contra hn'; push Not at hn'
      have := div_pos hn' hgap; linarith
    linarith
  refine ⟨y, ?_, (hmono 0 j (by omega) (by omega)).trans hlo,
    hhi.trans (hmono (j + 1) (n - 1) (by omega) (by omega)), ?_, ⟨j, j1, ?_, ?_, ?_⟩, ?_⟩
  · change (interpCdfs pdf xs).bind (fun cs => interp1d cs xs u) = some y
    rw [c1]; exact j4
  · intro k hk
    rw [← c3 k hk]
    rcases Nat.lt_or_ge j k with h | h
    · exact ⟨fun _ => j3.trans (hcmono (j + 1) k h hk), fun _ => hhi.trans (hmono (j + 1) k h hk)⟩
    · constructor
      · intro h2
        have h3 := hmono k j h (by omega)
        have h4 : k = j := by
          rcases Nat.lt_or_eq_of_le h with h5 | h5
          · have := hx k j h5 (by omega)
            linarith
          · exact h5
        rw [h4] at h2 ⊢
        exact (hlo' h2).le
      · intro h2
        have h4 : k = j := by
          rcases Nat.lt_or_eq_of_le h with h5 | h5
          · have := hcs k j h5 (by omega)
            linarith
          · exact h5
        rw [h4] at h2 ⊢
        have : u - cs.getD j 0 = 0 := by linarith
        rw [hy, this]; simp
  · rw [← c3 j (by omega)]; exact j2
  · rw [← c3 (j + 1) j1]; exact j3
  · rw [hy, c3 j (by omega), c3 (j + 1) j1]
    have h2 : T (j + 1) - T j ≠ 0 := (sub_pos.2 (hTlt j (j + 1) (by omega) j1)).ne'
    field_simp
    ring
  · intro c hc
    have hsc : ∀ k, Spec.trapezium (fun x => c * pdf x) xs k = c * T k := by
      intro k
      simp only [T, Spec.trapezium, Finset.mul_sum]
      exact Finset.sum_congr rfl fun i _ => by ring
    obtain ⟨cs', d1, d2, d3⟩ := main (fun x => c * pdf x)
      (fun k => by rw [hsc, hsc, mul_div_mul_left _ _ hc.ne']) (by rw [hsc]; exact (mul_pos hc hTn).ne')
    have : cs' = cs := by
      apply List.ext_getElem (d2.trans c2.symm)
      intro k hk1 hk2
      have e1 := d3 k (by omega)
      have e2 := c3 k (by omega)
      rw [List.getD_eq_getElem?_getD, List.getElem?_eq_getElem hk1, Option.getD_some] at e1
      rw [List.getD_eq_getElem?_getD, List.getElem?_eq_getElem hk2, Option.getD_some] at e2
      rw [e1, e2]
    change (interpCdfs _ xs).bind (fun cs => interp1d cs xs u) = some y
    rw [d1, this]; exact j4

/-- Case for C72: the density may be any positive function, here of Cauchy form. -/
example : ∀ x : ℝ, 0 < 1 / (1 + x ^ 2) := fun x => by positivity

/-! ## C73 -/

/-- The three entries of a Bloch vector. -/
def Spec.IsBloch (v : List ℝ) (r : ℝ) : Prop := ∃ x y z : ℝ, v = [x, y, z] ∧ x ^ 2 + y ^ 2 + z ^ 2 = r

/-- C73: a sample of `HaarUniform` is a pure state: the Bloch vector has norm one; for this the factor
`q` must be unitary and the diagonal of `r` must not vanish. -/
theorem C73_haar (q r : Matrix (Fin 2) (Fin 2) ℂ) (hq : qᴴ * q = 1) (hr : ∀ i, r i i ≠ 0) :
    (phaseFix q r)ᴴ * phaseFix q r = 1 ∧ ∃ v, haarSample (q, r) = .ok v ∧ Spec.IsBloch v 1 := by
  have hU : (phaseFix q r)ᴴ * phaseFix q r = 1 := by
    rw [phaseFix, conjTranspose_mul, diagonal_conjTranspose, Matrix.mul_assoc, ← Matrix.mul_assoc qᴴ, hq,
      Matrix.one_mul, diagonal_mul_diagonal, ← diagonal_one]
    congr 1
    funext i
    have h1 : (‖r i i‖ : ℂ) ≠ 0 := by exact_mod_cast norm_ne_zero_iff.2 (hr i)
    simp only [Pi.star_apply, star_div₀, Complex.star_def, Complex.conj_ofReal]
    rw [div_mul_div_comm, Complex.conj_mul', ← sq, div_self (pow_ne_zero _ h1)]
  refine ⟨hU, _, by rw [haarSample, dif_pos rfl], ?_⟩
  set U := phaseFix q r
  have h00 := congrFun (congrFun hU 0) 0
  rw [Matrix.mul_apply, Fin.sum_univ_two, Matrix.one_apply_eq] at h00
  simp only [conjTranspose_apply, Complex.star_def] at h00
  have hre := congrArg Complex.re h00
  simp only [Complex.add_re, Complex.mul_re, Complex.conj_re, Complex.conj_im, Complex.one_re] at hre
  refine ⟨_, _, _, rfl, ?_⟩
  simp only [Matrix.mulVec, dotProduct, Fin.sum_univ_two, Matrix.of_apply, cons_val', cons_val_zero,
    cons_val_one, cons_val_fin_one, Pi.star_apply, Complex.star_def, Complex.add_re, Complex.mul_re,
    Complex.conj_re, Complex.conj_im, Complex.add_im, Complex.mul_im, Complex.I_re, Complex.I_im,
    Complex.neg_re, Complex.neg_im, Complex.zero_re, Complex.zero_im, Complex.one_re, Complex.one_im]
  generalize (U 0 0).re = a at hre ⊢
  generalize (U 0 0).im = b at hre ⊢
  generalize (U 1 0).re = c at hre ⊢
  generalize (U 1 0).im = d at hre ⊢
  have h2 : (a ^ 2 + b ^ 2 + c ^ 2 + d ^ 2) = 1 := by linarith
  calc _ = (a ^ 2 + b ^ 2 + c ^ 2 + d ^ 2) ^ 2 := by ring
    _ = 1 := by rw [h2]; norm_num

/-- C73: other dimensions are not supported: every sample is a `ValueError`, and nothing is returned. -/
theorem C73_haar_dimension {d : Nat} (hd : d ≠ 2)
    (qrs : List (Matrix (Fin d) (Fin d) ℂ × Matrix (Fin d) (Fin d) ℂ)) (h : qrs ≠ []) :
    singleSample haarSample qrs = .error .valueError := by
  cases qrs with
  | nil => exact absurd rfl h
  | cons a l =>
    rw [singleSample, haarSample, dif_neg hd]; rfl

/-- C73: `SingleSampleMixin.sample` gives as many rows as asked for, each drawn with its own variates, or
the first error. -/
theorem C73_single_sample {σ : Type} (draw : σ → Except PyErr (List ℝ)) (ss : List σ) :
    (∀ xs, singleSample draw ss = .ok xs ↔ xs.map Except.ok = ss.map draw) ∧
    (∀ e, singleSample draw ss = .error e ↔
      ∃ pre s post, ss = pre ++ s :: post ∧ (∀ t ∈ pre, ∃ x, draw t = .ok x) ∧ draw s = .error e) := by
  induction ss with
  | nil =>
    refine ⟨fun xs => ?_, fun e => ?_⟩
    · simp [singleSample, eq_comm]
    · simp [singleSample]
  | cons s ss ih =>
    refine ⟨fun xs => ?_, fun e => ?_⟩
    · rw [singleSample]
      cases hs : draw s with
      | error e' =>
        constructor
        · intro h; cases h
        · intro h
          cases xs with
          | nil => simp at h
          | cons x xs => simp [hs] at h
      | ok x =>
        cases hr : singleSample draw ss with
        | error e' =>
          constructor
          · intro h; cases h
          · intro h
            cases xs with
            | nil => simp at h
            | cons y ys =>
              simp only [List.map_cons, List.cons.injEq] at h
              rw [(ih.1 ys).2 h.2] at hr
              cases hr
        | ok ys =>
          have hys := (ih.1 ys).1 hr
          constructor
          · intro h
            have : xs = x :: ys := by
              change Except.ok (x :: ys) = Except.ok xs at h
              exact (Except.ok.inj h).symm
            rw [this, List.map_cons, List.map_cons, hs, hys]
          · intro h
            cases xs with
            | nil => simp at h
            | cons y zs =>
              simp only [List.map_cons, List.cons.injEq, hs, Except.ok.injEq] at h
              have := (ih.1 zs).2 h.2
              rw [hr] at this
              rw [h.1, ← Except.ok.inj this]; rfl
    · rw [singleSample]
      cases hs : draw s with
      | error e' =>
        constructor
        · intro h
          change Except.error e' = Except.error e at h
          exact ⟨[], s, ss, rfl, by simp, by rw [hs]; exact congrArg _ (Except.error.inj h)⟩
        · rintro ⟨pre, t, post, h1, h2, h3⟩
          cases pre with
          | nil =>
            simp only [List.nil_append, List.cons.injEq] at h1
            rw [← h1.1, hs] at h3
            exact congrArg _ (Except.error.inj h3)
          | cons a pre =>
            simp only [List.cons_append, List.cons.injEq] at h1
            obtain ⟨x, hx⟩ := h2 a (by simp)
            rw [← h1.1, hs] at hx; cases hx
      | ok x =>
        have hbind : (do let x ← (Except.ok x : Except PyErr (List ℝ))
                         let xs ← singleSample draw ss
                         .ok (x :: xs) : Except PyErr (List (List ℝ))) = .error e ↔
            singleSample draw ss = .error e := by
          cases hr : singleSample draw ss with
          | error e' =>
            constructor <;> intro h
            · change Except.error e' = Except.error e at h
              exact congrArg _ (Except.error.inj h)
            · rw [h]; rfl
          | ok ys => constructor <;> intro h <;> cases h
        rw [hbind, ih.2 e]
        constructor
        · rintro ⟨pre, t, post, h1, h2, h3⟩
          refine ⟨s :: pre, t, post, by rw [h1]; rfl, ?_, h3⟩
          intro a ha
          rcases List.mem_cons.1 ha with rfl | ha
          · exact ⟨x, hs⟩
          · exact h2 a ha
        · rintro ⟨pre, t, post, h1, h2, h3⟩
          cases pre with
          | nil =>
            simp only [List.nil_append, List.cons.injEq] at h1
            rw [← h1.1, hs] at h3; cases h3
          | cons a pre =>
            simp only [List.cons_append, List.cons.injEq] at h1
            exact ⟨pre, t, post, h1.2, fun b hb => h2 b (by simp [hb]), h3⟩

/-- C73: a sample of `GinibreUniform` is a state: the Bloch vector has norm at most one; exactly one for
`k = 1`. -/
theorem C73_ginibre {k : Nat} (z : Matrix (Fin 2) (Fin k) ℂ) (hz : z ≠ 0) :
    ∃ v r, ginibreBloch z = some v ∧ Spec.IsBloch v r ∧ r ≤ 1 ∧ (k = 1 → r = 1) := by
  -- the matrix `z zᴴ`
  have hA : ∃ A D : ℝ, ∃ B : ℂ, (z * zᴴ) = !![(A : ℂ), B; star B, (D : ℂ)] ∧ 0 < A + D ∧
      Complex.normSq B ≤ A * D ∧ (k = 1 → Complex.normSq B = A * D) := by
    refine ⟨∑ j, Complex.normSq (z 0 j), ∑ j, Complex.normSq (z 1 j), ∑ j, z 0 j * star (z 1 j), ?_, ?_,
      ?_, ?_⟩
    · ext a b
      fin_cases a <;> fin_cases b <;>
        simp [Matrix.mul_apply, Complex.mul_conj, mul_comm]
    · have h1 : ∀ i, 0 ≤ ∑ j, Complex.normSq (z i j) := fun i =>
        Finset.sum_nonneg fun j _ => Complex.normSq_nonneg _
      rcases (add_nonneg (h1 0) (h1 1)).lt_or_eq with h | h
      · exact h
      · exfalso
        apply hz
        have e0 : ∑ j, Complex.normSq (z 0 j) = 0 := by linarith [h1 0, h1 1]
        have e1 : ∑ j, Complex.normSq (z 1 j) = 0 := by linarith [h1 0, h1 1]
        rw [Finset.sum_eq_zero_iff_of_nonneg fun j _ => Complex.normSq_nonneg _] at e0 e1
        ext i j
        fin_cases i
        · exact Complex.normSq_eq_zero.1 (e0 j (Finset.mem_univ _))
        · exact Complex.normSq_eq_zero.1 (e1 j (Finset.mem_univ _))
    · have h1 : ‖∑ j, z 0 j * star (z 1 j)‖ ≤ ∑ j, ‖z 0 j‖ * ‖z 1 j‖ := by
        refine (norm_sum_le _ _).trans (le_of_eq ?_)
        exact Finset.sum_congr rfl fun j _ => by rw [norm_mul, norm_star]
      have h2 := Finset.sum_mul_sq_le_sq_mul_sq Finset.univ (fun j => ‖z 0 j‖) (fun j => ‖z 1 j‖)
      simp only [Complex.normSq_eq_norm_sq]
      exact (pow_le_pow_left₀ (norm_nonneg _) h1 2).trans h2
    · rintro rfl
      simp [Complex.normSq_mul]
  obtain ⟨A, D, B, h1, h2, h3, h4⟩ := hA
  have htr : trace (z * zᴴ) = ((A + D : ℝ) : ℂ) := by
    rw [h1]; simp [trace_fin_two]
  have hne : trace (z * zᴴ) ≠ 0 := by
    rw [htr]; exact_mod_cast h2.ne'
  have hb : Complex.normSq B = B.re ^ 2 + B.im ^ 2 := by rw [Complex.normSq_apply]; ring
  refine ⟨_, (4 * Complex.normSq B + (A - D) ^ 2) / (A + D) ^ 2,
    by unfold ginibreBloch; dsimp only; rw [if_neg hne], ?_, ?_, ?_⟩
  · refine ⟨_, _, _, rfl, ?_⟩
    rw [htr, h1]
    simp only [trace_fin_two, Matrix.mul_apply, Fin.sum_univ_two, Matrix.smul_apply, Matrix.of_apply,
      cons_val', cons_val_zero, cons_val_one, cons_val_fin_one, smul_eq_mul, ← Complex.ofReal_inv,
      Complex.star_def, Complex.add_re, Complex.mul_re, Complex.conj_re, Complex.conj_im,
      Complex.mul_im, Complex.I_re, Complex.I_im, Complex.neg_re, Complex.neg_im, Complex.zero_re,
      Complex.zero_im, Complex.one_re, Complex.one_im, Complex.ofReal_re, Complex.ofReal_im]
    rw [hb]
    field_simp
    ring
  · rw [div_le_one (by positivity)]
    nlinarith
  · intro hk
    rw [div_eq_one_iff_eq (by positivity), h4 hk]
    ring

/-- C73, finding: `HilbertSchmidtUniform` does not define the abstract method `_sample`, so no object of
the class can be created (it lacks no other method); the other two classes can.  In general a subclass needs all of `n_rvs`, `sample` and `_sample`. -/
theorem C73_hilbert_schmidt_abstract :
    (∀ methods, abcNew singleSampleAbstracts methods = .ok () ↔
      "n_rvs" ∈ methods ∧ "sample" ∈ methods ∧ "_sample" ∈ methods) ∧
    abcNew singleSampleAbstracts hsMethods = .error .typeError ∧
    abcNew singleSampleAbstracts ("_sample" :: hsMethods) = .ok () ∧
    abcNew singleSampleAbstracts blochMethods = .ok () := by
  refine ⟨fun methods => ?_, ?_, ?_, ?_⟩
  · unfold abcNew
    split
    · rename_i h
      exact ⟨fun _ => ⟨h _ (by simp [singleSampleAbstracts]), h _ (by simp [singleSampleAbstracts]),
        h _ (by simp [singleSampleAbstracts])⟩, fun _ => rfl⟩
    · rename_i h
      refine ⟨fun h' => (by cases h'), fun h' => absurd ?_ h⟩
      intro m hm
      simp only [singleSampleAbstracts, List.mem_cons, List.not_mem_nil, or_false] at hm
      rcases hm with rfl | rfl | rfl
      · exact h'.1
      · exact h'.2.1
      · exact h'.2.2
  · rw [abcNew, if_neg]
    intro h
    have := h "_sample" (by simp [singleSampleAbstracts])
    simp [hsMethods] at this
  · rw [abcNew, if_pos]
    intro m hm
    simp only [singleSampleAbstracts, List.mem_cons, List.not_mem_nil, or_false] at hm
    rcases hm with rfl | rfl | rfl <;> simp [hsMethods]
  · rw [abcNew, if_pos]
    intro m hm
    simp only [singleSampleAbstracts, List.mem_cons, List.not_mem_nil, or_false] at hm
    rcases hm with rfl | rfl | rfl <;> simp [blochMethods]

/-- Case for C73: a unitary factor and a diagonal without zeros. -/
example : (1 : Matrix (Fin 2) (Fin 2) ℂ)ᴴ * 1 = 1 ∧ ∀ i, (!![2, 1; 0, -1] : Matrix (Fin 2) (Fin 2) ℂ) i i ≠ 0 := by
  refine ⟨by simp, fun i => ?_⟩
  fin_cases i <;> simp

end QInfer
