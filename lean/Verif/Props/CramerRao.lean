import Verif.Lemmas.RunInfo
import Verif.Props.Bcrb
import Verif.Model.SimpleEst
import Verif.Model.Outcome
import Mathlib.LinearAlgebra.Matrix.PosDef
import Mathlib.Probability.Distributions.Gaussian.Real
import Mathlib.MeasureTheory.Function.LocallyIntegrable

/-!
# C117: the Bayesian Cramér-Rao bound

What the matrices kept by `SMCUpdaterBCRB` are good for: no estimate whatsoever, computed from the
outcomes of experiments that may be chosen adaptively, has mean squared errors below the inverse of
the Bayesian information matrix; and `current_bim` estimates that matrix without bias.
-/

namespace QInfer
open MeasureTheory Matrix

variable {d : Nat} {O E : Type} [Fintype O]

/-! ## Specification -/

/-- Direction of parameter `i`. -/
noncomputable def Spec.dir (i : Fin d) : Fin d → ℝ := Pi.single i 1

/-- Mean squared error matrix of the estimate `est`: true parameters from the density `r`, outcomes
from the probabilities `p`. -/
noncomputable def Spec.mse {D : Type*} [Fintype D] (r : (Fin d → ℝ) → ℝ)
    (p : D → (Fin d → ℝ) → ℝ) (est : D → Fin d → ℝ) : Matrix (Fin d) (Fin d) ℝ :=
  Matrix.of fun i j => ∑ o, ∫ x, (est o i - x i) * (est o j - x j) * (r x * p o x)

/-- Bayesian information matrix: the information of the prior density plus the mean of the information
`I` of the data. -/
noncomputable def Spec.bayesInfo (r : (Fin d → ℝ) → ℝ)
    (I : (Fin d → ℝ) → (Fin d → ℝ) → (Fin d → ℝ) → ℝ) : Matrix (Fin d) (Fin d) ℝ :=
  Matrix.of fun i j => (∫ x, fderiv ℝ r x (Spec.dir i) * fderiv ℝ r x (Spec.dir j) / r x) +
    ∫ x, I x (Spec.dir i) (Spec.dir j) * r x

namespace CramerRao

/-! ## Quadratic forms under the integral sign -/

theorem expand (f : (Fin d → ℝ) →ₗ[ℝ] ℝ) (v : Fin d → ℝ) : f v = ∑ i, v i * f (Spec.dir i) := by
  rw [LinearMap.pi_apply_eq_sum_univ f v]
  refine Finset.sum_congr rfl fun i _ => ?_
  rw [smul_eq_mul]
  congr 2
  funext j
  simp [Spec.dir, Pi.single_apply, eq_comm]

/-- Bilinear forms depending on `x`, integrable on the diagonal, are integrable. -/
theorem integrable_bilin (B : (Fin d → ℝ) → (Fin d → ℝ) →ₗ[ℝ] (Fin d → ℝ) →ₗ[ℝ] ℝ)
    (hs : ∀ x v w, B x v w = B x w v) (hi : ∀ v, Integrable fun x => B x v v) (v w : Fin d → ℝ) :
    Integrable fun x => B x v w := by
  have h : ∀ x, B x v w = 1 / 4 * (B x (v + w) (v + w) - B x (v - w) (v - w)) := by
    intro x
    simp only [map_add, map_sub, LinearMap.add_apply, LinearMap.sub_apply, hs x w v]
    ring
  simp_rw [h]
  exact ((hi (v + w)).sub (hi (v - w))).const_mul _

/-- The quadratic form of the matrix of integrals is the integral of the quadratic form. -/
theorem quad_integral (B : (Fin d → ℝ) → (Fin d → ℝ) →ₗ[ℝ] (Fin d → ℝ) →ₗ[ℝ] ℝ)
    (hs : ∀ x v w, B x v w = B x w v) (hi : ∀ v, Integrable fun x => B x v v) (v : Fin d → ℝ) :
    ∑ i, ∑ j, v i * (∫ x, B x (Spec.dir i) (Spec.dir j)) * v j = ∫ x, B x v v := by
  have h : ∀ x, B x v v = ∑ i, ∑ j, v i * v j * B x (Spec.dir i) (Spec.dir j) := by
    intro x
    rw [expand (B x v) v]
    have : ∀ j, B x v (Spec.dir j) = ∑ i, v i * B x (Spec.dir i) (Spec.dir j) := fun j =>
      expand ((B x).flip (Spec.dir j)) v
    simp_rw [this, Finset.mul_sum]
    rw [Finset.sum_comm]
    exact Finset.sum_congr rfl fun i _ => Finset.sum_congr rfl fun j _ => by ring
  simp_rw [h]
  rw [integral_finsetSum _ fun i _ => integrable_finsetSum _ fun j _ =>
    (integrable_bilin B hs hi _ _).const_mul _]
  refine Finset.sum_congr rfl fun i _ => ?_
  rw [integral_finsetSum _ fun j _ => (integrable_bilin B hs hi _ _).const_mul _]
  refine Finset.sum_congr rfl fun j _ => ?_
  rw [integral_const_mul]
  ring

/-- Product of two linear forms, times a factor. -/
noncomputable def prodForm (f : (Fin d → ℝ) →ₗ[ℝ] ℝ) (c : ℝ) :
    (Fin d → ℝ) →ₗ[ℝ] (Fin d → ℝ) →ₗ[ℝ] ℝ :=
  LinearMap.mk₂ ℝ (fun v w => f v * f w * c) (fun _ _ _ => by simp; ring) (fun _ _ _ => by simp; ring)
    (fun _ _ _ => by simp; ring) (fun _ _ _ => by simp; ring)

@[simp] theorem prodForm_apply (f : (Fin d → ℝ) →ₗ[ℝ] ℝ) (c : ℝ) (v w : Fin d → ℝ) :
    prodForm f c v w = f v * f w * c := rfl

/-- The linear form with coefficients `y`. -/
noncomputable def dotForm (y : Fin d → ℝ) : (Fin d → ℝ) →ₗ[ℝ] ℝ where
  toFun v := ∑ i, v i * y i
  map_add' v w := by simp [add_mul, Finset.sum_add_distrib]
  map_smul' c v := by simp [mul_assoc, Finset.mul_sum]

theorem dotForm_dir (y : Fin d → ℝ) (i : Fin d) : dotForm y (Spec.dir i) = y i := by
  simp [dotForm, Spec.dir, Pi.single_apply]

variable {D : Type*} [Fintype D] {r : (Fin d → ℝ) → ℝ} {p : D → (Fin d → ℝ) → ℝ}

theorem quad_mse (hr : Spec.SmoothPrior r) (hp : Spec.SmoothModel p) (est : D → Fin d → ℝ)
    (u : Fin d → ℝ) :
    ∑ i, ∑ j, u i * Spec.mse r p est i j * u j =
      ∑ o, ∫ x, ((∑ i, u i * est o i) - ∑ i, u i * x i) ^ 2 * (r x * p o x) := by
  have h1 : ∀ o, ∑ i, ∑ j, u i * (∫ x, (est o i - x i) * (est o j - x j) * (r x * p o x)) * u j =
      ∫ x, ((∑ i, u i * est o i) - ∑ i, u i * x i) ^ 2 * (r x * p o x) := by
    intro o
    have hq : ∀ x v, prodForm (dotForm fun i => est o i - x i) (r x * p o x) v v =
        ((∑ i, v i * est o i) - ∑ i, v i * x i) ^ 2 * (r x * p o x) := by
      intro x v
      simp only [prodForm_apply, dotForm, LinearMap.coe_mk, AddHom.coe_mk, mul_sub,
        Finset.sum_sub_distrib]
      ring
    have h2 := quad_integral (fun x => prodForm (dotForm fun i => est o i - x i) (r x * p o x))
      (fun x v w => by simp only [prodForm_apply]; ring) (fun v => by
        simp_rw [hq]; exact VanTrees.integrable_sq_joint hr hp o _ v) u
    simp_rw [hq] at h2
    rw [← h2]
    simp only [prodForm_apply, dotForm_dir]
  simp_rw [← h1]
  simp only [Spec.mse, Matrix.of_apply, Finset.mul_sum, Finset.sum_mul]
  rw [Finset.sum_comm]
  rw [Finset.sum_comm]
  conv_rhs => rw [Finset.sum_comm]
  refine Finset.sum_congr rfl fun i _ => ?_
  rw [Finset.sum_comm]

theorem quad_prior (hr : Spec.SmoothPrior r) (v : Fin d → ℝ) :
    ∑ i, ∑ j, v i * (∫ x, fderiv ℝ r x (Spec.dir i) * fderiv ℝ r x (Spec.dir j) / r x) * v j =
      ∫ x, (fderiv ℝ r x v) ^ 2 / r x := by
  have hq : ∀ x v, prodForm (fderiv ℝ r x).toLinearMap (r x)⁻¹ v v =
      (fderiv ℝ r x v) ^ 2 / r x := by
    intro x v
    simp only [prodForm_apply, ContinuousLinearMap.coe_coe, div_eq_mul_inv]
    ring
  have h := quad_integral (fun x => prodForm (fderiv ℝ r x).toLinearMap (r x)⁻¹)
    (fun x v w => by simp only [prodForm_apply]; ring) (fun v => by simp_rw [hq]; exact hr.info v) v
  simp_rw [hq] at h
  rw [← h]
  simp [div_eq_mul_inv]

/-- The Fisher information as a bilinear form. -/
noncomputable def fisherForm (p : D → (Fin d → ℝ) → ℝ) (c : ℝ) (x : Fin d → ℝ) :
    (Fin d → ℝ) →ₗ[ℝ] (Fin d → ℝ) →ₗ[ℝ] ℝ :=
  ∑ o, prodForm (fderiv ℝ (p o) x).toLinearMap ((p o x)⁻¹ * c)

theorem fisherForm_apply (p : D → (Fin d → ℝ) → ℝ) (c : ℝ) (x v w : Fin d → ℝ) :
    fisherForm p c x v w = Spec.fisherAt p x v w * c := by
  simp only [fisherForm, LinearMap.sum_apply, prodForm_apply, Spec.fisherAt, Finset.sum_mul]
  exact Finset.sum_congr rfl fun o _ => by
    simp [div_eq_mul_inv]; ring

theorem integrable_fisher (hr : Spec.SmoothPrior r) (hp : Spec.SmoothModel p) (v : Fin d → ℝ) :
    Integrable fun x => Spec.fisherAt p x v v * r x := by
  simp only [Spec.fisherAt, Finset.sum_mul]
  refine integrable_finsetSum _ fun o _ => ?_
  have := (VanTrees.integrable_joint_info hr hp o v).2.2
  simpa [sq] using this

theorem fisherAt_comm (p : D → (Fin d → ℝ) → ℝ) (x v w : Fin d → ℝ) :
    Spec.fisherAt p x v w = Spec.fisherAt p x w v :=
  Finset.sum_congr rfl fun o _ => by ring

theorem integrable_fisher' (hr : Spec.SmoothPrior r) (hp : Spec.SmoothModel p) (v w : Fin d → ℝ) :
    Integrable fun x => Spec.fisherAt p x v w * r x := by
  have := integrable_bilin (fun x => fisherForm p (r x) x)
    (fun x v w => by simp only [fisherForm_apply, fisherAt_comm p x v w])
    (fun v => by simp only [fisherForm_apply]; exact integrable_fisher hr hp v) v w
  simpa only [fisherForm_apply] using this

theorem quad_fisher (hr : Spec.SmoothPrior r) (hp : Spec.SmoothModel p) (v : Fin d → ℝ) :
    ∑ i, ∑ j, v i * (∫ x, Spec.fisherAt p x (Spec.dir i) (Spec.dir j) * r x) * v j =
      ∑ o, ∫ x, (fderiv ℝ (p o) x v) ^ 2 / p o x * r x := by
  have h := quad_integral (fun x => fisherForm p (r x) x)
    (fun x v w => by simp only [fisherForm_apply, fisherAt_comm p x v w])
    (fun v => by simp only [fisherForm_apply]; exact integrable_fisher hr hp v) v
  simp only [fisherForm_apply] at h
  rw [h, ← integral_finsetSum _ fun o _ => (VanTrees.integrable_joint_info hr hp o v).2.2]
  simp only [Spec.fisherAt, Finset.sum_mul, sq]

/-- The bound for one outcome of a smooth model. -/
theorem bound_model (hr : Spec.SmoothPrior r) (hp : Spec.SmoothModel p) (est : D → Fin d → ℝ)
    (u v : Fin d → ℝ) :
    (∑ i, u i * v i) ^ 2 ≤ (∑ i, ∑ j, u i * Spec.mse r p est i j * u j) *
      ∑ i, ∑ j, v i * Spec.bayesInfo r (Spec.fisherAt p) i j * v j := by
  rw [quad_mse hr hp est u]
  have : ∑ i, ∑ j, v i * Spec.bayesInfo r (Spec.fisherAt p) i j * v j =
      (∫ x, (fderiv ℝ r x v) ^ 2 / r x) +
        ∑ o, ∫ x, (fderiv ℝ (p o) x v) ^ 2 / p o x * r x := by
    rw [← quad_prior hr v, ← quad_fisher hr hp v]
    simp only [Spec.bayesInfo, Matrix.of_apply, mul_add, add_mul, Finset.sum_add_distrib]
  rw [this]
  exact VanTrees.van_trees hr hp (fun o => ∑ i, u i * est o i) u v

theorem mse_nonneg (hr : Spec.SmoothPrior r) (hp : Spec.SmoothModel p) (est : D → Fin d → ℝ)
    (u : Fin d → ℝ) : 0 ≤ ∑ i, ∑ j, u i * Spec.mse r p est i j * u j := by
  rw [quad_mse hr hp est u]
  exact Finset.sum_nonneg fun o _ => integral_nonneg fun x =>
    mul_nonneg (sq_nonneg _) (mul_nonneg (hr.nonneg x) (hp.nonneg o x))

theorem quad_eq_dot (M : Matrix (Fin d) (Fin d) ℝ) (u : Fin d → ℝ) :
    ∑ i, ∑ j, u i * M i j * u j = u ⬝ᵥ (M *ᵥ u) := by
  simp only [dotProduct, mulVec, Finset.mul_sum, mul_assoc]

end CramerRao

/-! ## The bound -/

open CramerRao in
/-- **C117, the bound.**  True parameters from the prior density `r`; `T` experiments, each chosen in any
way from the outcomes before it; any estimate computed from the outcomes.  Its matrix of mean squared
errors and the Bayesian information matrix (prior information plus the mean of the summed Fisher
informations of the experiments performed) satisfy the Cramér-Rao inequality in every pair of
directions; in particular no diagonal entry lies below the inverse of the diagonal entry of the
information matrix, and if that matrix is positive definite, the error matrix is at least its
inverse. -/
theorem C117_bound (r : (Fin d → ℝ) → ℝ) (hr : Spec.SmoothPrior r) (L : O → (Fin d → ℝ) → E → ℝ)
    (hL : ∀ e, Spec.SmoothModel fun o y => L o y e) (design : List O → E) (T : Nat)
    (est : (Fin T → O) → Fin d → ℝ) :
    let M := Spec.mse r (fun os x => Spec.runProb L design [] (List.ofFn os) x) est
    let J := Spec.bayesInfo r (Spec.meanInfo L design [] T)
    (∀ u v : Fin d → ℝ, (u ⬝ᵥ v) ^ 2 ≤ (u ⬝ᵥ (M *ᵥ u)) * (v ⬝ᵥ (J *ᵥ v))) ∧
    (∀ i, 1 ≤ M i i * J i i) ∧
    (J.PosDef → (M - J⁻¹).PosSemidef) := by
  intro M J
  have hp := RunInfo.runProb_smooth (design := design) hL T []
  have hJ : J = Spec.bayesInfo r
      (Spec.fisherAt fun (os : Fin T → O) x => Spec.runProb L design [] (List.ofFn os) x) := by
    have : Spec.meanInfo L design [] T =
        Spec.fisherAt fun (os : Fin T → O) x => Spec.runProb L design [] (List.ofFn os) x := by
      funext x v w
      exact (RunInfo.fisher_run hL T [] x v w).symm
    simp only [J, this]
  have hb : ∀ u v : Fin d → ℝ, (u ⬝ᵥ v) ^ 2 ≤ (u ⬝ᵥ (M *ᵥ u)) * (v ⬝ᵥ (J *ᵥ v)) := by
    intro u v
    have := bound_model hr hp est u v
    rw [quad_eq_dot, quad_eq_dot, ← hJ] at this
    exact this
  refine ⟨hb, fun i => ?_, fun hpd => ?_⟩
  · have := hb (Pi.single i 1) (Pi.single i 1)
    simpa using this
  · refine Matrix.PosSemidef.of_dotProduct_mulVec_nonneg ?_ fun u => ?_
    · refine Matrix.IsHermitian.sub ?_ hpd.inv.isHermitian
      ext i j
      simp only [M, Spec.mse, Matrix.conjTranspose_apply, Matrix.of_apply, star_trivial]
      refine Finset.sum_congr rfl fun o _ => integral_congr_ae (Filter.Eventually.of_forall fun x => ?_)
      simp only
      ring
    · rw [star_trivial, Matrix.sub_mulVec, dotProduct_sub, sub_nonneg]
      have hu : IsUnit J.det := (Matrix.isUnit_iff_isUnit_det J).1 hpd.isUnit
      have h1 := hb u (J⁻¹ *ᵥ u)
      rw [Matrix.mulVec_mulVec, Matrix.mul_nonsing_inv J hu, Matrix.one_mulVec,
        dotProduct_comm (J⁻¹ *ᵥ u) u] at h1
      have h2 : 0 ≤ u ⬝ᵥ (J⁻¹ *ᵥ u) := by
        have := hpd.inv.posSemidef.dotProduct_mulVec_nonneg u
        simpa using this
      have h3 : 0 ≤ u ⬝ᵥ (M *ᵥ u) := by
        rw [← quad_eq_dot]; exact mse_nonneg hr hp est u
      rcases h2.eq_or_lt with h0 | h0
      · rw [← h0]; exact h3
      · nlinarith

/-! ## The updater's estimate -/

namespace CramerRao

variable {ω : Type}

theorem adapt_snoc (cfg : SmcConfig ℝ) (env : Env ℝ O E ω) (heur : Smc ℝ O ω → E) (s : Smc ℝ O ω)
    (h : List O) (o : O) (hok : (adapt cfg env heur h s).2.2 = .ok ()) :
    adapt cfg env heur (h ++ [o]) s =
      ((adapt cfg env heur h s).1 ++ (adapt cfg env heur [o] (adapt cfg env heur h s).2.1).1,
        (adapt cfg env heur [o] (adapt cfg env heur h s).2.1).2) := by
  induction h generalizing s with
  | nil => simp [adapt]
  | cons a h ih =>
    rcases hu : update cfg env s a (heur s) true with ⟨s', err | ⟨⟨⟩⟩⟩
    · simp [adapt, hu] at hok
    · have hok' : (adapt cfg env heur h s').2.2 = .ok () := by simpa only [adapt, hu] using hok
      have h1 := ih s' hok'
      rw [List.cons_append]
      conv_lhs => rw [adapt]
      simp only [hu, h1]
      have h2 : adapt cfg env heur (a :: h) s =
          ((a, heur s) :: (adapt cfg env heur h s').1, (adapt cfg env heur h s').2) := by
        simp only [adapt, hu]
      rw [h2]
      rfl

theorem adapt_prefix (cfg : SmcConfig ℝ) (env : Env ℝ O E ω) (heur : Smc ℝ O ω → E) (s : Smc ℝ O ω)
    (h os : List O) (hok : (adapt cfg env heur (h ++ os) s).2.2 = .ok ()) :
    (adapt cfg env heur h s).2.2 = .ok () := by
  induction h generalizing s with
  | nil => rfl
  | cons a h ih =>
    rcases hu : update cfg env s a (heur s) true with ⟨s', err | ⟨⟨⟩⟩⟩
    · simp [adapt, hu] at hok
    · simp only [List.cons_append, adapt, hu] at hok ⊢
      exact ih s' hok

theorem runProb_adapt (cfg : SmcConfig ℝ) (env : Env ℝ O E ω) (heur : Smc ℝ O ω → E)
    (s : Smc ℝ O ω) (L : O → (Fin d → ℝ) → E → ℝ)
    (hlike : ∀ o x e, env.likelihood o (List.ofFn x) e = L o x e) (x : Fin d → ℝ) (os h : List O)
    (hok : (adapt cfg env heur (h ++ os) s).2.2 = .ok ()) :
    dataLike env.likelihood (adapt cfg env heur (h ++ os) s).1 (List.ofFn x) =
      dataLike env.likelihood (adapt cfg env heur h s).1 (List.ofFn x) *
        Spec.runProb L (fun h => heur (adapt cfg env heur h s).2.1) h os x := by
  induction os generalizing h with
  | nil => simp [Spec.runProb]
  | cons o os ih =>
    have hsplit : h ++ o :: os = (h ++ [o]) ++ os := by simp
    rw [hsplit] at hok ⊢
    rw [ih (h ++ [o]) hok]
    have hok1 := adapt_prefix cfg env heur s (h ++ [o]) os hok
    have hok0 := adapt_prefix cfg env heur s h [o] hok1
    have h1 := adapt_snoc cfg env heur s h o hok0
    have h2 : (adapt cfg env heur [o] (adapt cfg env heur h s).2.1).1 =
        [(o, heur (adapt cfg env heur h s).2.1)] := by
      rcases hu : update cfg env (adapt cfg env heur h s).2.1 o
        (heur (adapt cfg env heur h s).2.1) true with ⟨s', err | ⟨⟨⟩⟩⟩ <;> simp [adapt, hu]
    rw [h1, h2]
    simp only [dataLike, List.map_append, List.prod_append, List.map_cons, List.map_nil,
      List.prod_cons, List.prod_nil, mul_one, hlike, Spec.runProb]
    ring

end CramerRao

/-- **C117, the updater's estimate.**  The bound applies to the posterior mean of an updater, with any
number of particles, any configuration, with resampling, and with experiments chosen by any heuristic
from the updater.  `design` is the choice made after each sequence of outcomes; for runs without an
exception `runProb` is the likelihood of the data collected. -/
theorem C117_updater {ω : Type} (r : (Fin d → ℝ) → ℝ) (hr : Spec.SmoothPrior r)
    (L : O → (Fin d → ℝ) → E → ℝ) (hL : ∀ e, Spec.SmoothModel fun o y => L o y e)
    (cfg : SmcConfig ℝ) (env : Env ℝ O E ω)
    (hlike : ∀ o x e, env.likelihood o (List.ofFn x) e = L o x e) (heur : Smc ℝ O ω → E)
    (s : Smc ℝ O ω) (T : Nat) :
    let design := fun h => heur (adapt cfg env heur h s).2.1
    let final := fun os : Fin T → O => (adapt cfg env heur (List.ofFn os) s).2.1
    let est := fun os (i : Fin d) => (smcMean d (final os).weights (final os).locs).getD i 0
    (∀ os : List O, (adapt cfg env heur os s).2.2 = .ok () → ∀ x : Fin d → ℝ,
      Spec.runProb L design [] os x =
        dataLike env.likelihood (adapt cfg env heur os s).1 (List.ofFn x)) ∧
    (∀ i, 1 ≤ Spec.mse r (fun os x => Spec.runProb L design [] (List.ofFn os) x) est i i *
      Spec.bayesInfo r (Spec.meanInfo L design [] T) i i) ∧
    ((Spec.bayesInfo r (Spec.meanInfo L design [] T)).PosDef →
      (Spec.mse r (fun os x => Spec.runProb L design [] (List.ofFn os) x) est -
        (Spec.bayesInfo r (Spec.meanInfo L design [] T))⁻¹).PosSemidef) := by
  intro design final est
  refine ⟨fun os hok x => ?_, (C117_bound r hr L hL design T est).2⟩
  have := CramerRao.runProb_adapt cfg env heur s L hlike x os [] hok
  rw [List.nil_append] at this
  rw [this]
  simp [dataLike, adapt, design]

/-! ## What the updater tracks -/

namespace CramerRao

theorem overRun_fixed (I : E → ℝ) (e : Nat → E) (os h : List O) :
    Spec.overRun I (fun h => e h.length) h os =
      ∑ k ∈ Finset.range os.length, I (e (h.length + k)) := by
  induction os generalizing h with
  | nil => simp [Spec.overRun]
  | cons o os ih =>
    rw [Spec.overRun, ih, List.length_cons, Finset.sum_range_succ', add_comm]
    simp only [List.length_append, List.length_cons, List.length_nil, add_zero]
    congr 1
    refine Finset.sum_congr rfl fun k _ => ?_
    rw [show h.length + (0 + 1) + k = h.length + (k + 1) by ring]

/-- With experiments fixed in advance the information of the data is the sum. -/
theorem meanInfo_fixed (L : O → (Fin d → ℝ) → E → ℝ) (hL : ∀ e, Spec.SmoothModel fun o y => L o y e)
    (e : Nat → E) (T : Nat) (x v w : Fin d → ℝ) :
    Spec.meanInfo L (fun h => e h.length) [] T x v w =
      ∑ k : Fin T, Spec.fisherAt (fun o y => L o y (e k)) x v w := by
  unfold Spec.meanInfo
  simp only [overRun_fixed, List.length_ofFn, List.length_nil, zero_add]
  rw [← Finset.sum_mul, RunInfo.runProb_total hL, one_mul]
  exact Finset.sum_range fun k => Spec.fisherAt (fun o y => L o y (e k)) x v w

variable {D : Type*} [Fintype D] {r : (Fin d → ℝ) → ℝ} {p : D → (Fin d → ℝ) → ℝ}

theorem measurable_fisher (hp : Spec.SmoothModel p) (v w : Fin d → ℝ) :
    Measurable fun x => Spec.fisherAt p x v w := by
  unfold Spec.fisherAt
  refine Finset.measurable_sum _ fun o _ => ?_
  exact ((measurable_fderiv_apply_const ℝ (p o) v).mul
    (measurable_fderiv_apply_const ℝ (p o) w)).div (hp.diff o).continuous.measurable

/-- The mean of a function of a sample of the prior. -/
theorem law_mean {Ω : Type*} [MeasurableSpace Ω] {P : Measure Ω} (hr : Spec.SmoothPrior r)
    (X : Ω → Fin d → ℝ) (hX : AEMeasurable X P)
    (hlaw : P.map X = volume.withDensity fun x => ENNReal.ofReal (r x)) (f g : (Fin d → ℝ) → ℝ)
    (hfg : ∀ x, 0 < r x → g x = f x) (hf : Measurable f) (hi : Integrable fun x => f x * r x) :
    Integrable (fun z => g (X z)) P ∧ ∫ z, g (X z) ∂P = ∫ x, f x * r x := by
  have hm : Measurable fun x => ENNReal.ofReal (r x) := hr.diff.continuous.measurable.ennreal_ofReal
  have hae : (fun z => g (X z)) =ᵐ[P] fun z => f (X z) := by
    have : ∀ᵐ x ∂(P.map X), g x = f x := by
      rw [hlaw, ae_withDensity_iff hm]
      refine Filter.Eventually.of_forall fun x hx => hfg x ?_
      by_contra hn
      exact hx (ENNReal.ofReal_eq_zero.2 (not_lt.1 hn))
    exact ae_of_ae_map hX this
  have hto : ∀ x, (ENNReal.ofReal (r x)).toReal = r x := fun x => ENNReal.toReal_ofReal (hr.nonneg x)
  have hif : Integrable f (P.map X) := by
    rw [hlaw, integrable_withDensity_iff_integrable_smul' hm
      (Filter.Eventually.of_forall fun x => ENNReal.ofReal_lt_top)]
    simpa only [hto, smul_eq_mul, mul_comm] using hi
  constructor
  · exact ((integrable_map_measure hf.aestronglyMeasurable hX).1 hif).congr hae.symm
  · rw [integral_congr_ae hae, ← integral_map hX hf.aestronglyMeasurable, hlaw,
      integral_withDensity_eq_integral_toReal_smul hm
        (Filter.Eventually.of_forall fun x => ENNReal.ofReal_lt_top)]
    simp only [hto, smul_eq_mul, mul_comm]

/-- The mean of an average over several samples, each from the prior. -/
theorem law_average {Ω : Type*} [MeasurableSpace Ω] {P : Measure Ω} (hr : Spec.SmoothPrior r) {n : Nat}
    (hn : 0 < n) (X : Fin n → Ω → Fin d → ℝ) (hX : ∀ m, AEMeasurable (X m) P)
    (hlaw : ∀ m, P.map (X m) = volume.withDensity fun x => ENNReal.ofReal (r x))
    (f g : (Fin d → ℝ) → ℝ) (hfg : ∀ x, 0 < r x → g x = f x) (hf : Measurable f)
    (hi : Integrable fun x => f x * r x) :
    Integrable (fun z => (∑ m, g (X m z)) / n) P ∧
      ∫ z, (∑ m, g (X m z)) / n ∂P = ∫ x, f x * r x := by
  have h := fun m => law_mean hr (X m) (hX m) (hlaw m) f g hfg hf hi
  refine ⟨(integrable_finsetSum _ fun m _ => (h m).1).div_const _, ?_⟩
  rw [integral_div, integral_finsetSum _ fun m _ => (h m).1]
  simp_rw [(h _).2]
  have : (n : ℝ) ≠ 0 := by exact_mod_cast hn.ne'
  simp only [Finset.sum_const, Finset.card_univ, Fintype.card_fin, nsmul_eq_mul]
  field_simp

theorem score_product (hr : Spec.SmoothPrior r) (x v w : Fin d → ℝ) :
    fderiv ℝ r x v / r x * (fderiv ℝ r x w / r x) * r x = fderiv ℝ r x v * fderiv ℝ r x w / r x := by
  by_cases h : r x = 0
  · simp [h]
  · field_simp

theorem integrable_score (hr : Spec.SmoothPrior r) (v w : Fin d → ℝ) :
    Integrable fun x => fderiv ℝ r x v / r x * (fderiv ℝ r x w / r x) * r x := by
  simp_rw [score_product hr]
  have hq : ∀ x v w, prodForm (fderiv ℝ r x).toLinearMap (r x)⁻¹ v w =
      fderiv ℝ r x v * fderiv ℝ r x w / r x := fun x v w => by
    simp only [prodForm_apply, ContinuousLinearMap.coe_coe, div_eq_mul_inv]
  have := integrable_bilin (fun x => prodForm (fderiv ℝ r x).toLinearMap (r x)⁻¹)
    (fun x v w => by simp only [prodForm_apply]; ring)
    (fun v => by simp_rw [hq]; simpa only [sq] using hr.info v) v w
  simpa only [hq] using this

end CramerRao

open CramerRao in
/-- **C117, the tracked matrix.**  Constructed without `initial_bim`; the particles and the samples of the
prior taken at the updates all follow the density `r`, of which `grad_log_pdf` is the gradient of the
logarithm, and `fisher_information` is that of the model's likelihood.  With `T` experiments fixed in
advance, whatever the outcomes and the resampling, the mean of `current_bim` over the samples is the
Bayesian information matrix, so its inverse bounds the error of every estimate. -/
theorem C117_tracked {ω Ω : Type} [MeasurableSpace Ω] (P : Measure Ω) (r : (Fin d → ℝ) → ℝ)
    (hr : Spec.SmoothPrior r) (L : O → (Fin d → ℝ) → E → ℝ)
    (hL : ∀ e, Spec.SmoothModel fun o y => L o y e) (cfg : SmcConfig ℝ) (env : BEnv d ℝ O E ω)
    (hfisher : ∀ x e i j, 0 < r x → env.fisher (List.ofFn x) e i j =
      Spec.fisherAt (fun o y => L o y e) x (Spec.dir i) (Spec.dir j))
    (hgrad : ∀ x i, 0 < r x → env.gradLogPdf (List.ofFn x) i = fderiv ℝ r x (Spec.dir i) / r x)
    (adaptive : Bool) (fresh : Nat) (h0 h1 h : Ω → Heap d ℝ) (s0 : Ω → Smc ℝ O ω)
    (b0 b : Ω → Bcrb ℝ O E ω) (ops : Ω → List (Op O E))
    (hc : ∀ z, bConstruct env (h0 z) (s0 z) none adaptive fresh = .ok (h1 z, b0 z))
    (hrun : ∀ z, bRun cfg env (ops z) (h1 z) (b0 z) = (h z, b z))
    (N T : Nat) (hN : 0 < N) (n : Fin T → Nat) (hn : ∀ k, 0 < n k) (e : Nat → E)
    (Y : Fin N → Ω → Fin d → ℝ) (X : (k : Fin T) → Fin (n k) → Ω → Fin d → ℝ)
    (hlocs : ∀ z, (s0 z).locs = List.ofFn fun m => List.ofFn (Y m z))
    (hcalls : ∀ z, (b z).log.map (fun c => ((env.prior c.1.seed c.1.locs.length).1, c.2)) =
      List.ofFn fun k : Fin T => (List.ofFn fun m => List.ofFn (X k m z), e k))
    (hYm : ∀ m, AEMeasurable (Y m) P) (hXm : ∀ k m, AEMeasurable (X k m) P)
    (hY : ∀ m, P.map (Y m) = volume.withDensity fun x => ENNReal.ofReal (r x))
    (hX : ∀ k m, P.map (X k m) = volume.withDensity fun x => ENNReal.ofReal (r x)) :
    ∃ B : Ω → Mat d ℝ, (∀ z, currentBim (h z) (b z) = some (B z)) ∧
      ∀ i j, ∫ z, B z i j ∂P =
        Spec.bayesInfo r (Spec.meanInfo L (fun hist => e hist.length) [] T) i j := by
  let B0 : Ω → Mat d ℝ := fun z i j =>
    (∑ m, env.gradLogPdf (List.ofFn (Y m z)) i * env.gradLogPdf (List.ofFn (Y m z)) j) / N
  let B1 : Fin T → Ω → Mat d ℝ := fun k z i j =>
    (∑ m, env.fisher (List.ofFn (X k m z)) (e k) i j) / n k
  refine ⟨fun z i j => B0 z i j + ∑ k, B1 k z i j, fun z => ?_, fun i j => ?_⟩
  · -- the accumulated matrix
    have hne : (s0 z).locs ≠ [] := by
      rw [hlocs]
      intro hnil
      have := congrArg List.length hnil
      rw [List.length_ofFn] at this
      simp only [List.length_nil] at this
      omega
    obtain ⟨hcur, -, -⟩ := C51_default_initial cfg env (h0 z) (h1 z) (s0 z) hne adaptive fresh (b0 z)
      (hc z)
    have hb0 : (b0 z).adapt ≠ some (b0 z).cur ∧ (b0 z).log = [] := by
      have := hc z
      unfold bConstruct at this
      by_cases hdiff : env.differentiable = true
      · rw [if_pos hdiff] at this
        cases adaptive <;> simp only [Bool.false_eq_true, if_true, if_false, Except.ok.injEq,
          Prod.mk.injEq] at this <;> rw [← this.2] <;> simp
      · rw [if_neg hdiff] at this; cases this
    have hacc := bRun_accumulates cfg env (ops z) (h1 z) (b0 z) hb0.1
    rw [hrun z] at hacc
    obtain ⟨q1, -, calls, q3, -, q5, -, -⟩ := hacc
    dsimp only at q1 q3 q5
    have hlog : (b z).log = calls := by rw [q3, hb0.2]; simp
    rw [currentBim] at hcur ⊢
    rw [q1, q5, hcur]
    have hcz := hcalls z
    rw [hlog] at hcz
    rw [foldl_matAdd _ (priorInfo env) calls (fun c hcm => ?_) _]
    · congr 1
      funext i j
      congr 1
      · simp only [B0, hlocs, List.map_ofFn, List.sum_ofFn, List.length_ofFn, Function.comp]
      · have : calls.map (fun c => priorInfo env c i j) =
            (calls.map fun c => ((env.prior c.1.seed c.1.locs.length).1, c.2)).map fun q =>
              (q.1.map fun x => env.fisher x q.2 i j).sum / (q.1.length : ℝ) := by
          rw [List.map_map]; rfl
        rw [this, hcz]
        simp only [List.map_ofFn, List.sum_ofFn, Function.comp, List.length_ofFn, B1]
    · have hmem : ((env.prior c.1.seed c.1.locs.length).1, c.2) ∈
          List.ofFn fun k : Fin T => (List.ofFn fun m => List.ofFn (X k m z), e k) := by
        rw [← hcz]
        exact List.mem_map.2 ⟨c, hcm, rfl⟩
      obtain ⟨k, hk⟩ := List.mem_ofFn.1 hmem
      have hk1 : (env.prior c.1.seed c.1.locs.length).1 ≠ [] := by
        rw [← congrArg Prod.fst hk]
        intro hnil
        have := congrArg List.length hnil
        rw [List.length_ofFn] at this
        simp only [List.length_nil] at this
        have := hn k
        omega
      rw [bimUniform, if_neg (show (priorDraw env c.1).1 ≠ [] from hk1)]
      rfl
  · -- its mean
    have a0 := law_average hr hN Y hYm hY
      (fun x => fderiv ℝ r x (Spec.dir i) / r x * (fderiv ℝ r x (Spec.dir j) / r x))
      (fun x => env.gradLogPdf (List.ofFn x) i * env.gradLogPdf (List.ofFn x) j)
      (fun x hx => by simp only [hgrad x _ hx])
      (((measurable_fderiv_apply_const ℝ r _).div hr.diff.continuous.measurable).mul
        ((measurable_fderiv_apply_const ℝ r _).div hr.diff.continuous.measurable))
      (integrable_score hr _ _)
    have a1 : ∀ k, Integrable (fun z => B1 k z i j) P ∧ ∫ z, B1 k z i j ∂P =
        ∫ x, Spec.fisherAt (fun o y => L o y (e k)) x (Spec.dir i) (Spec.dir j) * r x := fun k =>
      law_average hr (hn k) (X k) (hXm k) (hX k) _ (fun x => env.fisher (List.ofFn x) (e k) i j)
        (fun x hx => hfisher x (e k) i j hx) (measurable_fisher (hL (e k)) _ _)
        (integrable_fisher' hr (hL (e k)) _ _)
    have hB0 : Integrable (fun z => B0 z i j) P := a0.1
    rw [integral_add hB0 (integrable_finsetSum _ fun k _ => (a1 k).1),
      integral_finsetSum _ fun k _ => (a1 k).1]
    simp only [(a1 _).2, Spec.bayesInfo, Matrix.of_apply, meanInfo_fixed L hL, Finset.sum_mul]
    rw [integral_finsetSum _ fun (k : Fin T) _ => integrable_fisher' hr (hL (e k)) _ _]
    congr 1
    rw [show (∫ z, B0 z i j ∂P) = _ from a0.2]
    simp_rw [score_product hr]

/-! ## Experiments chosen on the way -/

/-- Probability of the outcomes `h` under the prior. -/
noncomputable def Spec.runEvidence (r : (Fin d → ℝ) → ℝ) (L : O → (Fin d → ℝ) → E → ℝ)
    (design : List O → E) (h : List O) : ℝ :=
  ∫ x, Spec.runProb L design [] h x * r x

/-- Mean of `f` under the posterior after the outcomes `h`. -/
noncomputable def Spec.runPosteriorMean (r : (Fin d → ℝ) → ℝ) (L : O → (Fin d → ℝ) → E → ℝ)
    (design : List O → E) (h : List O) (f : (Fin d → ℝ) → ℝ) : ℝ :=
  (∫ x, f x * (Spec.runProb L design [] h x * r x)) / Spec.runEvidence r L design h

namespace CramerRao

variable {L : O → (Fin d → ℝ) → E → ℝ} {design : List O → E}

theorem meanInfo_succ (hL : ∀ e, Spec.SmoothModel fun o y => L o y e) (T : Nat) (h : List O)
    (x v w : Fin d → ℝ) :
    Spec.meanInfo L design h (T + 1) x v w =
      Spec.fisherAt (fun o y => L o y (design h)) x v w +
        ∑ o, L o x (design h) * Spec.meanInfo L design (h ++ [o]) T x v w := by
  unfold Spec.meanInfo
  rw [sum_fin_succ _ fun os => Spec.runProb L design h os x *
    Spec.overRun (fun e => Spec.fisherAt (fun o y => L o y e) x v w) design h os]
  simp only [Spec.runProb, Spec.overRun]
  have h1 : ∀ o, ∑ os : Fin T → O, L o x (design h) *
      Spec.runProb L design (h ++ [o]) (List.ofFn os) x *
      (Spec.fisherAt (fun o y => L o y (design h)) x v w +
        Spec.overRun (fun e => Spec.fisherAt (fun o y => L o y e) x v w) design (h ++ [o])
          (List.ofFn os)) =
      L o x (design h) * Spec.fisherAt (fun o y => L o y (design h)) x v w +
        L o x (design h) * ∑ os : Fin T → O, Spec.runProb L design (h ++ [o]) (List.ofFn os) x *
          Spec.overRun (fun e => Spec.fisherAt (fun o y => L o y e) x v w) design (h ++ [o])
            (List.ofFn os) := by
    intro o
    rw [Finset.mul_sum]
    have h2 : L o x (design h) * Spec.fisherAt (fun o y => L o y (design h)) x v w =
        ∑ os : Fin T → O, L o x (design h) * Spec.runProb L design (h ++ [o]) (List.ofFn os) x *
          Spec.fisherAt (fun o y => L o y (design h)) x v w := by
      rw [← Finset.sum_mul, ← Finset.mul_sum, RunInfo.runProb_total hL, mul_one]
    rw [h2, ← Finset.sum_add_distrib]
    exact Finset.sum_congr rfl fun os _ => by ring
  simp_rw [h1]
  rw [Finset.sum_add_distrib, ← Finset.sum_mul, (hL (design h)).total x, one_mul]

theorem runProb_cons (o : O) (h os : List O) (x : Fin d → ℝ) :
    Spec.runProb L design h (o :: os) x = L o x (design h) * Spec.runProb L design (h ++ [o]) os x :=
  rfl

/-- The information of a run, history by history. -/
theorem meanInfo_histories (hL : ∀ e, Spec.SmoothModel fun o y => L o y e) (T : Nat) (h : List O)
    (x v w : Fin d → ℝ) :
    Spec.meanInfo L design h T x v w =
      ∑ t ∈ Finset.range T, ∑ os : Fin t → O, Spec.runProb L design h (List.ofFn os) x *
        Spec.fisherAt (fun o y => L o y (design (h ++ List.ofFn os))) x v w := by
  induction T generalizing h with
  | zero => simp [Spec.meanInfo, Spec.overRun]
  | succ T ih =>
    rw [meanInfo_succ hL, Finset.sum_range_succ', add_comm]
    congr 1
    · simp_rw [ih, Finset.mul_sum]
      rw [Finset.sum_comm]
      refine Finset.sum_congr rfl fun t _ => ?_
      rw [sum_fin_succ _ fun os => Spec.runProb L design h os x *
        Spec.fisherAt (fun o y => L o y (design (h ++ os))) x v w]
      refine Finset.sum_congr rfl fun o _ => Finset.sum_congr rfl fun os _ => ?_
      rw [runProb_cons, List.append_assoc]
      simp only [List.cons_append, List.nil_append]
      ring
    · simp [Spec.runProb]

theorem integrable_run_fisher {r : (Fin d → ℝ) → ℝ} (hr : Spec.SmoothPrior r)
    (hL : ∀ e, Spec.SmoothModel fun o y => L o y e) (h : List O) (e : E) (v w : Fin d → ℝ) :
    Integrable fun x => Spec.fisherAt (fun o y => L o y e) x v w *
      (Spec.runProb L design [] h x * r x) := by
  have h1 := integrable_fisher' hr (hL e) v w
  have h2 : (fun x => Spec.fisherAt (fun o y => L o y e) x v w *
      (Spec.runProb L design [] h x * r x)) =
      fun x => Spec.runProb L design [] h x * (Spec.fisherAt (fun o y => L o y e) x v w * r x) := by
    funext x; ring
  rw [h2]
  refine h1.bdd_mul (c := 1) (RunInfo.runProb_diff hL h []).continuous.aestronglyMeasurable
    (Filter.Eventually.of_forall fun x => ?_)
  rw [Real.norm_of_nonneg (RunInfo.runProb_nonneg hL h [] x)]
  exact RunInfo.runProb_le_one hL h [] x

theorem integrable_run {r : (Fin d → ℝ) → ℝ} (hr : Spec.SmoothPrior r)
    (hL : ∀ e, Spec.SmoothModel fun o y => L o y e) (h : List O) :
    Integrable fun x => Spec.runProb L design [] h x * r x := by
  refine hr.int.bdd_mul (c := 1) (RunInfo.runProb_diff hL h []).continuous.aestronglyMeasurable
    (Filter.Eventually.of_forall fun x => ?_)
  rw [Real.norm_of_nonneg (RunInfo.runProb_nonneg hL h [] x)]
  exact RunInfo.runProb_le_one hL h [] x

end CramerRao

open CramerRao in
/-- **C117, adaptive experiments.**  For experiments chosen from the outcomes the information matrix of
the bound is the information of the prior plus, for every update and averaged over the outcomes before
it, the posterior mean of the Fisher information of the experiment performed: the quantity
`adaptive_bim` adds at each update, for the exact posterior. -/
theorem C117_adaptive (r : (Fin d → ℝ) → ℝ) (hr : Spec.SmoothPrior r) (L : O → (Fin d → ℝ) → E → ℝ)
    (hL : ∀ e, Spec.SmoothModel fun o y => L o y e) (design : List O → E) (T : Nat) (i j : Fin d) :
    Spec.bayesInfo r (Spec.meanInfo L design [] T) i j =
      (∫ x, fderiv ℝ r x (Spec.dir i) * fderiv ℝ r x (Spec.dir j) / r x) +
      ∑ t ∈ Finset.range T, ∑ h : Fin t → O, Spec.runEvidence r L design (List.ofFn h) *
        Spec.runPosteriorMean r L design (List.ofFn h) fun x =>
          Spec.fisherAt (fun o y => L o y (design (List.ofFn h))) x (Spec.dir i) (Spec.dir j) := by
  simp only [Spec.bayesInfo, Matrix.of_apply]
  congr 1
  simp_rw [meanInfo_histories hL, Finset.sum_mul]
  have h1 : ∀ h : List O, (fun x => Spec.runProb L design [] h x *
      Spec.fisherAt (fun o y => L o y (design ([] ++ h))) x (Spec.dir i) (Spec.dir j) * r x) =
      fun x => Spec.fisherAt (fun o y => L o y (design h)) x (Spec.dir i) (Spec.dir j) *
        (Spec.runProb L design [] h x * r x) := by
    intro h; funext x; rw [List.nil_append]; ring
  have hi : ∀ h : List O, Integrable fun x => Spec.runProb L design [] h x *
      Spec.fisherAt (fun o y => L o y (design ([] ++ h))) x (Spec.dir i) (Spec.dir j) * r x := by
    intro h; rw [h1]; exact integrable_run_fisher hr hL h _ _ _
  rw [integral_finsetSum _ fun t _ => integrable_finsetSum _ fun (h : Fin t → O) _ => hi (List.ofFn h)]
  refine Finset.sum_congr rfl fun t _ => ?_
  rw [integral_finsetSum _ fun (h : Fin t → O) _ => hi (List.ofFn h)]
  refine Finset.sum_congr rfl fun h _ => ?_
  rw [h1, Spec.runPosteriorMean]
  by_cases h0 : Spec.runEvidence r L design (List.ofFn h) = 0
  · rw [h0, zero_mul]
    have hae : (fun x => Spec.runProb L design [] (List.ofFn h) x * r x) =ᵐ[volume] 0 :=
      (integral_eq_zero_iff_of_nonneg (fun x => mul_nonneg (RunInfo.runProb_nonneg hL _ _ x)
        (hr.nonneg x)) (integrable_run hr hL _)).1 h0
    rw [integral_congr_ae (g := fun _ => (0 : ℝ)) (by
      filter_upwards [hae] with x hx
      have hx : Spec.runProb L design [] (List.ofFn h) x * r x = 0 := hx
      simp only [hx, mul_zero]), integral_zero]
  · field_simp

/-! ## A normal prior and precession -/

open ProbabilityTheory NNReal

/-- `NormalDistribution(m, σ²)` as a density on vectors with one entry. -/
noncomputable def normalPrior (m : ℝ) (σ2 : ℝ≥0) (x : Fin 1 → ℝ) : ℝ := gaussianPDFReal m σ2 (x 0)

/-- The two outcomes of `SimplePrecessionModel` with evolution time `t`. -/
noncomputable def precessionL (o : Fin 2) (x : Fin 1 → ℝ) (t : ℝ) : ℝ :=
  twoOutcome (precessionPr0 (x 0) t) o.val

namespace CramerRao

theorem fun_one (f : ℝ → ℝ) : (Integrable f → Integrable fun x : Fin 1 → ℝ => f (x 0)) ∧
    ∫ x : Fin 1 → ℝ, f (x 0) = ∫ y, f y := by
  have h := volume_preserving_funUnique (Fin 1) ℝ
  constructor
  · intro hf
    exact (h.integrable_comp_emb (MeasurableEquiv.measurableEmbedding _)).2 hf
  · exact h.integral_comp (MeasurableEquiv.measurableEmbedding _) f

variable {m : ℝ} {σ2 : ℝ≥0}

theorem gauss_deriv (hσ : σ2 ≠ 0) (y : ℝ) :
    HasDerivAt (gaussianPDFReal m σ2) (-(y - m) / σ2 * gaussianPDFReal m σ2 y) y := by
  unfold gaussianPDFReal
  have h1 : HasDerivAt (fun y : ℝ => -(y - m) ^ 2 / (2 * σ2)) (-(2 * (y - m)) / (2 * σ2)) y := by
    refine ((((hasDerivAt_id y).sub_const m).pow 2).neg.div_const (2 * (σ2 : ℝ))).congr_deriv ?_
    simp
  refine ((h1.exp).const_mul (√(2 * Real.pi * σ2))⁻¹).congr_deriv ?_
  have : (σ2 : ℝ) ≠ 0 := by exact_mod_cast hσ
  have h3 : -(2 * (y - m)) / (2 * (σ2 : ℝ)) = -(y - m) / σ2 := by field_simp
  rw [h3]
  ring

theorem gauss_integrable (hσ : σ2 ≠ 0) {f : ℝ → ℝ} (hf : Integrable f (gaussianReal m σ2)) :
    Integrable fun y => f y * gaussianPDFReal m σ2 y := by
  rw [gaussianReal_of_var_ne_zero m hσ, integrable_withDensity_iff_integrable_smul'
    (measurable_gaussianPDF m σ2) (Filter.Eventually.of_forall fun x => gaussianPDF_lt_top)] at hf
  simpa only [toReal_gaussianPDF, smul_eq_mul, mul_comm] using hf

theorem gauss_sq (c : ℝ) : Integrable (fun y => (y - c) ^ 2) (gaussianReal m σ2) :=
  ((memLp_id_gaussianReal (μ := m) (v := σ2) 2).sub (memLp_const c)).integrable_sq

theorem gauss_var (hσ : σ2 ≠ 0) : ∫ y, (y - m) ^ 2 * gaussianPDFReal m σ2 y = σ2 := by
  have h := variance_fun_id_gaussianReal (μ := m) (v := σ2)
  rw [variance_eq_integral (X := fun x : ℝ => x) measurable_id.aemeasurable] at h
  simp only [integral_id_gaussianReal] at h
  rw [integral_gaussianReal_eq_integral_smul hσ] at h
  simpa only [smul_eq_mul, mul_comm] using h

theorem fderiv_normalPrior (hσ : σ2 ≠ 0) (x : Fin 1 → ℝ) :
    HasFDerivAt (normalPrior m σ2) ((-(x 0 - m) / σ2 * normalPrior m σ2 x) •
      (ContinuousLinearMap.proj 0 : (Fin 1 → ℝ) →L[ℝ] ℝ)) x := by
  have h1 := gauss_deriv (m := m) hσ (x 0)
  have h2 : HasFDerivAt (fun x : Fin 1 → ℝ => x 0)
      (ContinuousLinearMap.proj 0 : (Fin 1 → ℝ) →L[ℝ] ℝ) x := hasFDerivAt_apply 0 x
  exact h1.comp_hasFDerivAt x h2

theorem fderiv_normalPrior' (hσ : σ2 ≠ 0) (x v : Fin 1 → ℝ) :
    fderiv ℝ (normalPrior m σ2) x v = -(x 0 - m) / σ2 * normalPrior m σ2 x * v 0 := by
  rw [(fderiv_normalPrior hσ x).fderiv]
  simp

theorem normal_info (hσ : σ2 ≠ 0) (x v w : Fin 1 → ℝ) :
    fderiv ℝ (normalPrior m σ2) x v * fderiv ℝ (normalPrior m σ2) x w / normalPrior m σ2 x =
      v 0 * w 0 / (σ2 : ℝ) ^ 2 * ((x 0 - m) ^ 2 * gaussianPDFReal m σ2 (x 0)) := by
  rw [fderiv_normalPrior' hσ, fderiv_normalPrior' hσ]
  have h1 : (σ2 : ℝ) ≠ 0 := by exact_mod_cast hσ
  have h2 : gaussianPDFReal m σ2 (x 0) ≠ 0 := (gaussianPDFReal_pos m σ2 (x 0) hσ).ne'
  unfold normalPrior
  field_simp

theorem norm_one (x : Fin 1 → ℝ) : ‖x‖ = |x 0| := by
  rw [Pi.norm_def]
  simp [Finset.univ_unique]

theorem normalPrior_smooth (hσ : σ2 ≠ 0) : Spec.SmoothPrior (normalPrior m σ2) where
  diff x := (fderiv_normalPrior hσ x).differentiableAt
  nonneg x := gaussianPDFReal_nonneg m σ2 (x 0)
  int := (fun_one _).1 (integrable_gaussianPDFReal m σ2)
  total := by
    rw [show (∫ x, normalPrior m σ2 x) = _ from (fun_one (gaussianPDFReal m σ2)).2]
    exact integral_gaussianPDFReal_eq_one m hσ
  sq := by
    have := (fun_one _).1 (gauss_integrable hσ (gauss_sq (m := m) (σ2 := σ2) 0))
    simpa only [norm_one, sq_abs, sub_zero, normalPrior] using this
  info v := by
    simp_rw [sq, normal_info hσ]
    exact ((fun_one _).1 (gauss_integrable hσ (gauss_sq (m := m) (σ2 := σ2) m))).const_mul _

/-- The information of a normal distribution is one over its variance. -/
theorem normalPrior_info (hσ : σ2 ≠ 0) :
    (∫ x, fderiv ℝ (normalPrior m σ2) x (Spec.dir 0) * fderiv ℝ (normalPrior m σ2) x (Spec.dir 0) /
      normalPrior m σ2 x) = 1 / (σ2 : ℝ) := by
  simp_rw [normal_info hσ]
  rw [integral_const_mul, (fun_one fun y => (y - m) ^ 2 * gaussianPDFReal m σ2 y).2, gauss_var hσ]
  have h1 : (σ2 : ℝ) ≠ 0 := by exact_mod_cast hσ
  simp [Spec.dir]
  field_simp

theorem precession_fderiv (o : Fin 2) (x : Fin 1 → ℝ) (t : ℝ) :
    HasFDerivAt (fun y => precessionL o y t)
      (((if o = 0 then -1 else 1) * (t * (Real.cos (t * x 0 / 2) * Real.sin (t * x 0 / 2)))) •
        (ContinuousLinearMap.proj 0 : (Fin 1 → ℝ) →L[ℝ] ℝ)) x := by
  have h1 : HasDerivAt (fun y : ℝ => Real.cos (t * y / 2) ^ 2)
      (-(t * (Real.cos (t * x 0 / 2) * Real.sin (t * x 0 / 2)))) (x 0) := by
    have ha : HasDerivAt (fun y : ℝ => t * y / 2) (t / 2) (x 0) := by
      simpa using ((hasDerivAt_id (x 0)).const_mul t).div_const 2
    refine ((ha.cos).pow 2).congr_deriv ?_
    norm_num
    ring
  have h2 : HasFDerivAt (fun x : Fin 1 → ℝ => x 0)
      (ContinuousLinearMap.proj 0 : (Fin 1 → ℝ) →L[ℝ] ℝ) x := hasFDerivAt_apply 0 x
  have h3 := h1.comp_hasFDerivAt x h2
  have h4 : (fun y => precessionL o y t) = fun y : Fin 1 → ℝ =>
      if o = 0 then Real.cos (t * y 0 / 2) ^ 2 else 1 - Real.cos (t * y 0 / 2) ^ 2 := by
    funext y
    simp only [precessionL, twoOutcome, precessionPr0, inversionPr0, sub_zero, Nat.cast_eq_zero,
      Fin.val_eq_zero_iff]
  rw [h4]
  by_cases ho : o = 0
  · simp only [ho, if_true, neg_one_mul]
    exact h3
  · simp only [ho, if_false, one_mul]
    have h5 := h3.const_sub 1
    rw [neg_smul, neg_neg] at h5
    exact h5

theorem precession_fderiv' (o : Fin 2) (x v : Fin 1 → ℝ) (t : ℝ) :
    fderiv ℝ (fun y => precessionL o y t) x v =
      (if o = 0 then -1 else 1) * (t * (Real.cos (t * x 0 / 2) * Real.sin (t * x 0 / 2))) * v 0 := by
  rw [(precession_fderiv o x t).fderiv, ContinuousLinearMap.smul_apply, smul_eq_mul]
  rfl

theorem precession_prob (o : Fin 2) (x : Fin 1 → ℝ) (t : ℝ) :
    precessionL o x t =
      if o = 0 then Real.cos (t * x 0 / 2) ^ 2 else Real.sin (t * x 0 / 2) ^ 2 := by
  simp only [precessionL, twoOutcome, precessionPr0, inversionPr0, sub_zero, Nat.cast_eq_zero,
    Fin.val_eq_zero_iff, Real.sin_sq]

theorem precession_smooth (t : ℝ) : Spec.SmoothModel fun o x => precessionL o x t where
  diff o x := (precession_fderiv o x t).differentiableAt
  nonneg o x := by rw [precession_prob]; split <;> positivity
  total x := by simp [Fin.sum_univ_two, precession_prob]
  bound o := by
    refine ⟨t ^ 2, fun x v => ?_⟩
    have hc := Real.cos_sq_le_one (t * x 0 / 2)
    have hs := Real.sin_sq_le_one (t * x 0 / 2)
    rw [precession_fderiv', precession_prob, norm_one, sq_abs]
    have h0 : 0 ≤ (t * v 0 * Real.cos (t * x 0 / 2)) ^ 2 := sq_nonneg _
    have h1 : 0 ≤ (t * v 0 * Real.sin (t * x 0 / 2)) ^ 2 := sq_nonneg _
    split <;> nlinarith

/-- The Fisher information of a precession experiment is at most the square of the evolution time. -/
theorem precession_info (x : Fin 1 → ℝ) (t : ℝ) :
    Spec.fisherAt (fun o y => precessionL o y t) x (Spec.dir 0) (Spec.dir 0) ≤ t ^ 2 := by
  have h01 : (1 : Fin 2) ≠ 0 := by decide
  simp only [Spec.fisherAt, Fin.sum_univ_two]
  rw [precession_fderiv', precession_fderiv', precession_prob, precession_prob]
  simp only [Spec.dir, Pi.single_eq_same, mul_one, if_true, h01, if_false, one_mul, neg_one_mul,
    neg_mul_neg]
  have h1 := Real.sin_sq_add_cos_sq (t * x 0 / 2)
  have ht := sq_nonneg t
  by_cases hc : Real.cos (t * x 0 / 2) = 0
  · rw [hc]; simpa using ht
  by_cases hs : Real.sin (t * x 0 / 2) = 0
  · rw [hs]; simpa using ht
  apply le_of_eq
  field_simp
  linear_combination t ^ 2 * h1

end CramerRao

open CramerRao in
/-- **C117, precession.**  Estimating a frequency from `SimplePrecessionModel` with a normal prior of
variance `σ²`: whatever the `T` evolution times, each chosen from the outcomes before it and at most
`τ`, and whatever the estimate, its mean squared error is at least `1 / (1 / σ² + T τ²)`. -/
theorem C117_precession (m : ℝ) (σ2 : ℝ≥0) (hσ : σ2 ≠ 0) (T : Nat) (τ : ℝ)
    (design : List (Fin 2) → ℝ) (hτ : ∀ h, |design h| ≤ τ) (est : (Fin T → Fin 2) → Fin 1 → ℝ) :
    1 / (1 / (σ2 : ℝ) + T * τ ^ 2) ≤
      ∑ os : Fin T → Fin 2, ∫ x : Fin 1 → ℝ, (est os 0 - x 0) ^ 2 *
        (gaussianPDFReal m σ2 (x 0) * Spec.runProb precessionL design [] (List.ofFn os) x) := by
  have hr := normalPrior_smooth (m := m) hσ
  have hσ' : (0 : ℝ) < σ2 := by exact_mod_cast pos_iff_ne_zero.2 hσ
  have hb := (C117_bound (normalPrior m σ2) hr precessionL precession_smooth design T est).2.1 0
  have hp := RunInfo.runProb_smooth (design := design) precession_smooth T []
  have hM : Spec.mse (normalPrior m σ2)
      (fun os x => Spec.runProb precessionL design [] (List.ofFn os) x) est 0 0 =
      ∑ os : Fin T → Fin 2, ∫ x : Fin 1 → ℝ, (est os 0 - x 0) ^ 2 *
        (gaussianPDFReal m σ2 (x 0) * Spec.runProb precessionL design [] (List.ofFn os) x) := by
    simp only [Spec.mse, Matrix.of_apply, sq, normalPrior]
  have hJ : Spec.bayesInfo (normalPrior m σ2) (Spec.meanInfo precessionL design [] T) 0 0 ≤
      1 / (σ2 : ℝ) + T * τ ^ 2 := by
    simp only [Spec.bayesInfo, Matrix.of_apply]
    rw [normalPrior_info hσ]
    gcongr
    have hle : ∀ x, Spec.meanInfo precessionL design [] T x (Spec.dir 0) (Spec.dir 0) ≤ T * τ ^ 2 := by
      intro x
      have ho : ∀ (os h : List (Fin 2)), Spec.overRun (fun t => Spec.fisherAt
          (fun o y => precessionL o y t) x (Spec.dir 0) (Spec.dir 0)) design h os ≤
          os.length * τ ^ 2 := by
        intro os
        induction os with
        | nil => intro h; simp [Spec.overRun]
        | cons o os ih =>
          intro h
          have h1 := ih (h ++ [o])
          have h2 := precession_info x (design h)
          have h3 : design h ^ 2 ≤ τ ^ 2 := sq_le_sq' (abs_le.1 (hτ h)).1 (abs_le.1 (hτ h)).2
          simp only [Spec.overRun, List.length_cons, Nat.cast_add, Nat.cast_one]
          linarith
      calc Spec.meanInfo precessionL design [] T x (Spec.dir 0) (Spec.dir 0)
          ≤ ∑ os : Fin T → Fin 2, Spec.runProb precessionL design [] (List.ofFn os) x *
              (T * τ ^ 2) := by
            refine Finset.sum_le_sum fun os _ => mul_le_mul_of_nonneg_left ?_ (hp.nonneg os x)
            simpa using ho (List.ofFn os) []
        _ = T * τ ^ 2 := by
            rw [← Finset.sum_mul, RunInfo.runProb_total precession_smooth, one_mul]
    calc ∫ x, Spec.meanInfo precessionL design [] T x (Spec.dir 0) (Spec.dir 0) * normalPrior m σ2 x
        ≤ ∫ x, T * τ ^ 2 * normalPrior m σ2 x := by
          have hint := integrable_fisher hr hp (Spec.dir 0)
          simp_rw [RunInfo.fisher_run precession_smooth] at hint
          exact integral_mono hint (hr.int.const_mul _) fun x =>
            mul_le_mul_of_nonneg_right (hle x) (hr.nonneg x)
      _ = T * τ ^ 2 := by rw [integral_const_mul, hr.total, mul_one]
  rw [hM] at hb
  have hM0 : 0 ≤ ∑ os : Fin T → Fin 2, ∫ x : Fin 1 → ℝ, (est os 0 - x 0) ^ 2 *
        (gaussianPDFReal m σ2 (x 0) * Spec.runProb precessionL design [] (List.ofFn os) x) :=
    Finset.sum_nonneg fun os _ => integral_nonneg fun x =>
      mul_nonneg (sq_nonneg _) (mul_nonneg (gaussianPDFReal_nonneg _ _ _) (hp.nonneg os x))
  rw [div_le_iff₀ (by positivity)]
  exact hb.trans (mul_le_mul_of_nonneg_left hJ hM0)

/-! ### A concrete tracker -/

namespace Demo

open CramerRao

/-- Precession with a normal prior; the random numbers are a list of samples of the prior. -/
noncomputable def precessionBEnv (m : ℝ) (σ2 : ℝ≥0) : BEnv 1 ℝ (Fin 2) ℝ (List (Fin 1 → ℝ)) where
  likelihood o x t := precessionL o (fun i => x.getD i 0) t
  timestep r l _ := (l, r)
  canon l := l
  clearCacheRaises := false
  prior r n := ((r.take n).map List.ofFn, r.drop n)
  resampler r w l := (.ok (w, l), r)
  kl _ _ _ _ := 0
  fisher x t := fun i j => Spec.fisherAt (fun o y => precessionL o y t) (fun i => x.getD i 0)
    (Spec.dir i) (Spec.dir j)
  gradLogPdf x := fun i => fderiv ℝ (normalPrior m σ2) (fun i => x.getD i 0) (Spec.dir i) /
    normalPrior m σ2 (fun i => x.getD i 0)
  differentiable := true

theorem ofFn_getD (x : Fin 1 → ℝ) : (fun i : Fin 1 => (List.ofFn x).getD i 0) = x := by
  funext i
  fin_cases i
  simp

/-- Case for C117: one particle and one more sample, both from the normal prior, independent of each
other; one update with evolution time `t`. -/
example (m : ℝ) (σ2 : ℝ≥0) (hσ : σ2 ≠ 0) (cfg : SmcConfig ℝ) (h0 : Heap 1 ℝ) (t : ℝ) :
    let μ : Measure (Fin 1 → ℝ) := volume.withDensity fun x => ENNReal.ofReal (normalPrior m σ2 x)
    let s0 : (Fin 1 → ℝ) × (Fin 1 → ℝ) → Smc ℝ (Fin 2) (List (Fin 1 → ℝ)) := fun z =>
      ⟨[1], [List.ofFn z.1], 0, 1, false, [], [], none, [z.2], []⟩
    ∃ (h : (Fin 1 → ℝ) × (Fin 1 → ℝ) → Heap 1 ℝ)
      (b : (Fin 1 → ℝ) × (Fin 1 → ℝ) → Bcrb ℝ (Fin 2) ℝ (List (Fin 1 → ℝ)))
      (B : (Fin 1 → ℝ) × (Fin 1 → ℝ) → Mat 1 ℝ),
      (∀ z, ∃ h1 b0, bConstruct (precessionBEnv m σ2) h0 (s0 z) none true 7 = .ok (h1, b0) ∧
        bRun cfg (precessionBEnv m σ2) [.update 0 t true] h1 b0 = (h z, b z)) ∧
      (∀ z, currentBim (h z) (b z) = some (B z)) ∧
      ∫ z, B z 0 0 ∂(μ.prod μ) =
        1 / (σ2 : ℝ) + ∫ x, Spec.fisherAt (fun o y => precessionL o y t) x (Spec.dir 0) (Spec.dir 0) *
          normalPrior m σ2 x := by
  intro μ s0
  have hr := normalPrior_smooth (m := m) hσ
  have hμ : IsProbabilityMeasure μ := by
    constructor
    rw [withDensity_apply _ MeasurableSet.univ, Measure.restrict_univ,
      ← ofReal_integral_eq_lintegral_ofReal hr.int (Filter.Eventually.of_forall hr.nonneg), hr.total]
    simp
  have hb : ∀ z, ∃ h1 b0, bConstruct (precessionBEnv m σ2) h0 (s0 z) none true 7 = .ok (h1, b0) ∧
      b0 = ⟨s0 z, 7, some 8, []⟩ := fun z => ⟨_, _, rfl, rfl⟩
  choose h1 b0 hc hb0 using hb
  obtain ⟨B, hB, hmean⟩ := C117_tracked (μ.prod μ) (normalPrior m σ2) hr precessionL precession_smooth
    cfg (precessionBEnv m σ2) (fun x e i j _ => by simp only [precessionBEnv, ofFn_getD])
    (fun x i _ => by simp only [precessionBEnv, ofFn_getD]) true 7 (fun _ => h0) h1
    (fun z => (bRun cfg (precessionBEnv m σ2) [.update 0 t true] (h1 z) (b0 z)).1) s0 b0
    (fun z => (bRun cfg (precessionBEnv m σ2) [.update 0 t true] (h1 z) (b0 z)).2)
    (fun _ => [.update 0 t true]) hc (fun _ => rfl) 1 1 one_pos (fun _ => 1) (fun _ => one_pos)
    (fun _ => t) (fun _ z => z.1) (fun _ _ z => z.2) (fun z => by simp [s0])
    (fun z => by rw [hb0]; simp [bRun, bStep, bUpdate, precessionBEnv, s0])
    (fun _ => measurable_fst.aemeasurable) (fun _ _ => measurable_snd.aemeasurable)
    (fun _ => by rw [show (fun z : (Fin 1 → ℝ) × (Fin 1 → ℝ) => z.1) = Prod.fst from rfl,
      Measure.map_fst_prod]; simp [μ])
    (fun _ _ => by rw [show (fun z : (Fin 1 → ℝ) × (Fin 1 → ℝ) => z.2) = Prod.snd from rfl,
      Measure.map_snd_prod]; simp [μ])
  refine ⟨_, _, B, fun z => ⟨h1 z, b0 z, hc z, rfl⟩, hB, ?_⟩
  rw [hmean]
  have hfix := meanInfo_fixed precessionL precession_smooth (fun _ => t) 1
  simp only [Spec.bayesInfo, Matrix.of_apply, hfix]
  rw [normalPrior_info hσ]
  simp

/-- Case for C117: evolution times depending on the outcomes, the estimate too. -/
example : (1 : ℝ) / (1 / ((4 : ℝ≥0) : ℝ) + 3 * (2 : ℝ) ^ 2) ≤
    ∑ os : Fin 3 → Fin 2, ∫ x : Fin 1 → ℝ, ((os 2).val - x 0) ^ 2 *
      (gaussianPDFReal 1 4 (x 0) * Spec.runProb precessionL
        (fun h => if h.getLast? = some 1 then 2 else 1) [] (List.ofFn os) x) := by
  have := C117_precession 1 4 (by norm_num) 3 2 (fun h => if h.getLast? = some 1 then 2 else 1)
    (fun h => by split <;> simp) (fun os _ => (os 2).val)
  simpa using this

end Demo

end QInfer
