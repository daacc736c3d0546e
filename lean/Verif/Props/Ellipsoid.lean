import Verif.Lemmas.MveeLoop
import Verif.Props.Particle
import Mathlib.Analysis.Matrix.Order

/-!
# C79, C80: ellipsoids
-/

namespace QInfer

set_option linter.unusedSectionVars false

open Matrix
open scoped BigOperators

namespace Spec

/-- The quadratic form of `A` about `c`. -/
noncomputable def form {d : Nat} (A : Matrix (Fin d) (Fin d) ℝ) (c x : Fin d → ℝ) : ℝ :=
  ∑ a, ∑ b, (x a - c a) * A a b * (x b - c b)

end Spec

section
variable {n d : Nat}

theorem quad_eq (B : Matrix (Fin d) (Fin d) ℝ) (y : Fin d → ℝ) :
    ∑ j, ∑ l, y j * B j l * y l = y ⬝ᵥ (B *ᵥ y) := by
  simp only [dotProduct, Matrix.mulVec, Finset.mul_sum]
  exact Finset.sum_congr rfl fun a _ => Finset.sum_congr rfl fun b _ => by ring

theorem form_eq (A : Matrix (Fin d) (Fin d) ℝ) (c x : Fin d → ℝ) :
    Spec.form A c x = (x - c) ⬝ᵥ (A *ᵥ (x - c)) := by
  rw [← quad_eq]; rfl

theorem quad_neg (B : Matrix (Fin d) (Fin d) ℝ) (c x : Fin d → ℝ) :
    ∑ j, ∑ l, (c - x) j * B j l * (c - x) l = Spec.form B c x := by
  refine Finset.sum_congr rfl fun a _ => Finset.sum_congr rfl fun b _ => ?_
  simp only [Pi.sub_apply]
  ring

theorem inEllipsoid_eq (x : Fin d → ℝ) (A : Matrix (Fin d) (Fin d) ℝ) (c : Fin d → ℝ) (h : A.det ≠ 0) :
    ∃ b, inEllipsoid x A c = .ok b ∧ (b = true ↔ Spec.form A⁻¹ c x ≤ 1) := by
  refine ⟨_, by unfold inEllipsoid; rw [if_neg h], ?_⟩
  rw [quad_neg]
  exact decide_eq_true_iff

/-! ## C79 -/

/-- C79: `in_ellipsoid` says which points lie in the image of the closed unit ball: for the shape matrix
`L Lᵀ` and centre `c`, the points `c + L z` with `‖z‖ ≤ 1`, and no others. -/
theorem C79_ellipsoid (L : Matrix (Fin d) (Fin d) ℝ) (hL : L.det ≠ 0) (c x : Fin d → ℝ) :
    ∃ b, inEllipsoid x (L * Lᵀ) c = .ok b ∧
      (b = true ↔ ∃ z : Fin d → ℝ, ∑ a, z a ^ 2 ≤ 1 ∧ x = c + L *ᵥ z) := by
  have hA : (L * Lᵀ).det ≠ 0 := by
    rw [Matrix.det_mul, Matrix.det_transpose]; exact mul_ne_zero hL hL
  obtain ⟨b, hb, hiff⟩ := inEllipsoid_eq x (L * Lᵀ) c hA
  have hu := isUnit_iff_ne_zero.2 hL
  have key : ∀ y : Fin d → ℝ, y ⬝ᵥ ((L * Lᵀ)⁻¹ *ᵥ y) = ∑ a, (L⁻¹ *ᵥ y) a ^ 2 := by
    intro y
    rw [Matrix.mul_inv_rev, ← Matrix.transpose_nonsing_inv, ← Matrix.mulVec_mulVec, Matrix.dotProduct_mulVec,
      Matrix.vecMul_transpose, dotProduct]
    exact Finset.sum_congr rfl fun a _ => by ring
  refine ⟨b, hb, hiff.trans ?_⟩
  rw [form_eq, key]
  constructor
  · intro h
    refine ⟨L⁻¹ *ᵥ (x - c), h, ?_⟩
    rw [Matrix.mulVec_mulVec, Matrix.mul_nonsing_inv _ hu, Matrix.one_mulVec]
    abel
  · rintro ⟨z, hz, rfl⟩
    rw [add_sub_cancel_left, Matrix.mulVec_mulVec, Matrix.nonsing_inv_mul _ hu, Matrix.one_mulVec]
    exact hz

/-- C79: a singular shape matrix is an error. -/
theorem C79_singular (A : Matrix (Fin d) (Fin d) ℝ) (hA : A.det = 0) (c x : Fin d → ℝ) :
    inEllipsoid x A c = .error .other := by
  unfold inEllipsoid
  rw [if_pos hA]

theorem smul_inv_form (A : Matrix (Fin d) (Fin d) ℝ) (hA : A.det ≠ 0) (k : ℝ) (hk : k ≠ 0) (c x : Fin d → ℝ) :
    Spec.form (k • A)⁻¹ c x = Spec.form A⁻¹ c x / k := by
  have hi : (k • A)⁻¹ = k⁻¹ • A⁻¹ := by
    apply Matrix.inv_eq_left_inv
    rw [Matrix.smul_mul, Matrix.mul_smul, smul_smul, inv_mul_cancel₀ hk, one_smul,
      Matrix.nonsing_inv_mul _ (isUnit_iff_ne_zero.2 hA)]
  rw [form_eq, form_eq, hi, Matrix.smul_mulVec, dotProduct_smul, smul_eq_mul, div_eq_inv_mul]

theorem smul_det_ne (A : Matrix (Fin d) (Fin d) ℝ) (hA : A.det ≠ 0) (k : ℝ) (hk : k ≠ 0) : (k • A).det ≠ 0 := by
  rw [Matrix.det_smul]; exact mul_ne_zero (pow_ne_zero _ hk) hA

/-- The average squared distance from the mean, in the metric of the covariance, is the dimension. -/
theorem mahalanobis_mean (w : Fin n → ℝ) (x : Fin n → Fin d → ℝ) (h1 : ∑ i, w i = 1)
    (hdet : (pcov w x).det ≠ 0) : ∑ i, w i * Spec.form (pcov w x)⁻¹ (pmean w x) (x i) = d := by
  have e : ∑ i, w i * Spec.form (pcov w x)⁻¹ (pmean w x) (x i) =
      ∑ a, ∑ b, (pcov w x)⁻¹ a b * pcov w x b a := by
    simp only [Spec.form, Finset.mul_sum]
    rw [Finset.sum_comm]
    refine Finset.sum_congr rfl fun a _ => ?_
    rw [Finset.sum_comm]
    refine Finset.sum_congr rfl fun b _ => ?_
    rw [C13_cov_is_centred_moment w x h1, Finset.mul_sum]
    refine Finset.sum_congr rfl fun i _ => ?_
    simp only [pmean]
    ring
  have h2 : ∑ a, ∑ b, (pcov w x)⁻¹ a b * pcov w x b a = Matrix.trace ((pcov w x)⁻¹ * pcov w x) := rfl
  rw [e, h2, Matrix.nonsing_inv_mul _ (isUnit_iff_ne_zero.2 hdet), Matrix.trace_one, Fintype.card_fin]

/-- C79: the covariance ellipsoid leaves out at most the weight `d / mult` of the cloud, for every cloud,
however far from normal. -/
theorem C79_pce_weight (w : Fin n → ℝ) (x : Fin n → Fin d → ℝ) (h0 : ∀ i, 0 ≤ w i) (h1 : ∑ i, w i = 1)
    (hdet : (pcov w x).det ≠ 0) (mult : ℝ) (hm : 0 < mult) :
    ∃ inside : Fin n → Bool, (∀ i, inPce w x mult (x i) = .ok (inside i)) ∧
      ∑ i, (if inside i then 0 else w i) ≤ d / mult := by
  have hdet' := smul_det_ne (pcov w x) hdet mult hm.ne'
  choose b hb hiff using fun i => inEllipsoid_eq (x i) (mult • pcov w x) (pmean w x) hdet'
  refine ⟨b, hb, ?_⟩
  have hpsd := (C13_cov_posSemidef w x h0 h1).inv
  have hnn : ∀ i, 0 ≤ Spec.form (pcov w x)⁻¹ (pmean w x) (x i) := by
    intro i
    rw [form_eq]
    have := hpsd.dotProduct_mulVec_nonneg (x i - pmean w x)
    rwa [star_trivial] at this
  rw [le_div_iff₀ hm, ← mahalanobis_mean w x h1 hdet, Finset.sum_mul]
  refine Finset.sum_le_sum fun i _ => ?_
  cases hc : b i with
  | true => simp only [if_true, zero_mul]; exact mul_nonneg (h0 i) (hnn i)
  | false =>
    have h2 : ¬ Spec.form (mult • pcov w x)⁻¹ (pmean w x) (x i) ≤ 1 := by
      rw [← hiff i, hc]; simp
    rw [smul_inv_form _ hdet _ hm.ne', div_le_one hm] at h2
    push Not at h2
    simp only [Bool.false_eq_true, if_false]
    exact mul_le_mul_of_nonneg_left h2.le (h0 i)

/-- C79: the covariance ellipsoid does not depend on the units or the linear combination of the parameters
in which the cloud is written. -/
theorem C79_pce_units (w : Fin n → ℝ) (x : Fin n → Fin d → ℝ) (h1 : ∑ i, w i = 1)
    (B : Matrix (Fin d) (Fin d) ℝ) (hB : B.det ≠ 0) (s : Fin d → ℝ) (mult : ℝ) (p : Fin d → ℝ) :
    inPce w (fun i => B *ᵥ x i + s) mult (B *ᵥ p + s) = inPce w x mult p := by
  have hmean : pmean w (fun i => B *ᵥ x i + s) = B *ᵥ pmean w x + s := by
    funext a
    simp only [pmean, Pi.add_apply, mul_add, Finset.sum_add_distrib, ← Finset.sum_mul, h1, one_mul,
      Matrix.mulVec, dotProduct, Finset.mul_sum]
    rw [Finset.sum_comm]
    congr 1
    exact Finset.sum_congr rfl fun k _ => Finset.sum_congr rfl fun i _ => by ring
  have hcov : pcov w (fun i => B *ᵥ x i + s) = B * pcov w x * Bᵀ := by
    ext a b
    rw [C13_cov_is_centred_moment w _ h1]
    have hm2 : ∀ a, ∑ k, w k * (B *ᵥ x k + s) a = (B *ᵥ pmean w x + s) a := fun a => congrFun hmean a
    have hc : ∀ i a, (B *ᵥ x i + s) a - (B *ᵥ pmean w x + s) a = ∑ k, B a k * (x i k - pmean w x k) := by
      intro i a
      simp only [Pi.add_apply, Matrix.mulVec, dotProduct, mul_sub, Finset.sum_sub_distrib]
      ring
    simp only [hm2, hc]
    rw [Matrix.mul_apply]
    simp only [Matrix.mul_apply, Matrix.transpose_apply]
    have hp : ∀ k l, pcov w x k l = ∑ i, w i * ((x i k - pmean w x k) * (x i l - pmean w x l)) :=
      fun k l => C13_cov_is_centred_moment w x h1 k l
    simp only [hp, Finset.mul_sum, Finset.sum_mul]
    rw [Finset.sum_comm]
    refine Finset.sum_congr rfl fun l _ => ?_
    rw [Finset.sum_comm]
    exact Finset.sum_congr rfl fun k _ => Finset.sum_congr rfl fun i _ => by ring
  unfold inPce
  rw [hmean, hcov]
  have hsm : mult • (B * pcov w x * Bᵀ) = B * (mult • pcov w x) * Bᵀ := by
    rw [Matrix.mul_smul, Matrix.smul_mul]
  rw [hsm]
  set A := mult • pcov w x with hA
  have hdet : (B * A * Bᵀ).det = 0 ↔ A.det = 0 := by
    rw [Matrix.det_mul, Matrix.det_mul, Matrix.det_transpose]
    constructor
    · intro h
      rcases mul_eq_zero.1 h with h | h
      · rcases mul_eq_zero.1 h with h | h
        · exact absurd h hB
        · exact h
      · exact absurd h hB
    · intro h; rw [h]; ring
  by_cases h : A.det = 0
  · rw [C79_singular _ (hdet.2 h), C79_singular _ h]
  · have hu := isUnit_iff_ne_zero.2 hB
    unfold inEllipsoid
    rw [if_neg h, if_neg (fun hc => h (hdet.1 hc))]
    dsimp only
    rw [quad_neg, quad_neg, form_eq, form_eq]
    have hy : B *ᵥ p + s - (B *ᵥ pmean w x + s) = B *ᵥ (p - pmean w x) := by
      rw [Matrix.mulVec_sub]; abel
    rw [hy, Matrix.mul_inv_rev, Matrix.mul_inv_rev, ← Matrix.mulVec_mulVec, ← Matrix.mulVec_mulVec,
      Matrix.mulVec_mulVec _ B⁻¹, Matrix.nonsing_inv_mul _ hu, Matrix.one_mulVec,
      Matrix.dotProduct_mulVec (B *ᵥ (p - pmean w x)), ← Matrix.transpose_nonsing_inv,
      Matrix.vecMul_transpose, Matrix.mulVec_mulVec, Matrix.nonsing_inv_mul _ hu, Matrix.one_mulVec]

/-- C79: the mean itself is inside. -/
theorem C79_pce_mean (w : Fin n → ℝ) (x : Fin n → Fin d → ℝ) (hdet : (pcov w x).det ≠ 0) (mult : ℝ)
    (hm : mult ≠ 0) : inPce w x mult (pmean w x) = .ok true := by
  obtain ⟨b, hb, hiff⟩ := inEllipsoid_eq (pmean w x) (mult • pcov w x) (pmean w x)
    (smul_det_ne _ hdet _ hm)
  have : b = true := hiff.2 (by rw [form_eq, sub_self]; simp)
  rw [inPce, hb, this]

/-- C79: the three method names choose their estimator; any other name is an error. -/
theorem C79_methods {α : Type} (pce mvee hull : Except PyErr α) :
    credibleMethod "pce" pce mvee hull = pce ∧ credibleMethod "hpd-mvee" pce mvee hull = mvee ∧
    credibleMethod "hpd-hull" pce mvee hull = hull ∧
    ∀ m, m ≠ "pce" → m ≠ "hpd-mvee" → m ≠ "hpd-hull" →
      credibleMethod m pce mvee hull = .error .unboundLocalError := by
  refine ⟨rfl, rfl, rfl, fun m h1 h2 h3 => ?_⟩
  rw [credibleMethod, if_neg h1, if_neg h2, if_neg h3]

end

/-- Case for C79: three particles in the plane. -/
example : (pcov (![1/2, 1/4, 1/4] : Fin 3 → ℚ) ![![0, 0], ![1, 0], ![0, 1]]).det ≠ 0 := by decide +kernel

/-! ## C80 -/

section
variable {N d : Nat} (pts : Fin N → Fin d → ℝ)

theorem mveeX_det_ne (hN : 0 < N) (u : Fin N → ℝ) (hu : ∀ i, 0 < u i)
    (hspan : ∀ (a : Fin d → ℝ) (b : ℝ), (∀ i, a ⬝ᵥ pts i = b) → a = 0) : (mveeX pts u).det ≠ 0 := by
  intro h
  obtain ⟨v, hv0, hv⟩ := Matrix.exists_mulVec_eq_zero_iff.2 h
  have h2 := mveeX_bilin pts u v v
  rw [hv, dotProduct_zero] at h2
  have h3 : ∀ k, mveeq pts k ⬝ᵥ v = 0 := by
    intro k
    have h4 := (Finset.sum_eq_zero_iff_of_nonneg (s := Finset.univ)
      (f := fun k => u k * (mveeq pts k ⬝ᵥ v) * (mveeq pts k ⬝ᵥ v)) (fun k _ => by
        have := mul_nonneg (hu k).le (sq_nonneg (mveeq pts k ⬝ᵥ v))
        nlinarith)).1 h2.symm k (Finset.mem_univ k)
    have h5 : mveeq pts k ⬝ᵥ v = 0 ∨ mveeq pts k ⬝ᵥ v = 0 := by
      rcases mul_eq_zero.1 h4 with h | h
      · rcases mul_eq_zero.1 h with h | h
        · exact absurd h (hu k).ne'
        · exact Or.inl h
      · exact Or.inr h
    exact h5.elim id id
  have h4 : ∀ k, (fun a => v (Sum.inl a)) ⬝ᵥ pts k = -v (Sum.inr ()) := by
    intro k
    have := h3 k
    simp only [dotProduct, mveeq, mveeQ, Fintype.sum_sum_type, Sum.elim_inl, Sum.elim_inr, Finset.univ_unique,
      Finset.sum_singleton, one_mul] at this
    have e : (fun a => v (Sum.inl a)) ⬝ᵥ pts k = ∑ a, pts k a * v (Sum.inl a) := by
      simp only [dotProduct]
      exact Finset.sum_congr rfl fun a _ => by ring
    rw [e]
    linarith [this]
  have h5 := hspan _ _ h4
  have h6 := h4 ⟨0, hN⟩
  rw [h5, zero_dotProduct] at h6
  apply hv0
  funext b
  rcases b with b | b
  · exact congrFun h5 b
  · have : v (Sum.inr ()) = 0 := by linarith
    exact this

open Classical in
/-- What follows the loop. -/
noncomputable def mveeTail : Option (Fin N → ℝ) → Except PyErr (Option (Matrix (Fin d) (Fin d) ℝ × (Fin d → ℝ)))
  | none => .ok none
  | some u => if (mveeS pts u).det = 0 then .error .other
      else .ok (some ((1 / (d : ℝ)) • (mveeS pts u)⁻¹, mveec pts u))

theorem mvee_unfold (hN : 0 < N) (hd : 0 < d) (tol : ℝ) (fuel : Nat) (r : Option (Fin N → ℝ))
    (hr : mveeLoop pts tol fuel (fun _ => 1 / (N : ℝ)) 1 = .ok r) :
    mvee pts tol fuel = mveeTail pts r := by
  unfold mvee
  rw [if_neg (by omega), hr]
  cases r with
  | none => rfl
  | some u =>
    change (if d = 0 then _ else _) = _
    rw [if_neg (by omega)]
    rfl

/-- C80: for points that do not all lie in one hyperplane `mvee` never fails, for any tolerance. -/
theorem C80_no_failure (hN : 0 < N) (hd : 0 < d) (tol : ℝ) (fuel : Nat)
    (hspan : ∀ (a : Fin d → ℝ) (b : ℝ), (∀ i, a ⬝ᵥ pts i = b) → a = 0) :
    ∃ r, mvee pts tol fuel = .ok r := by
  have h := mveeOk_start pts hN (mveeX_det_ne pts hN _ (fun _ => by
    have : (0 : ℝ) < N := by exact_mod_cast hN
    positivity) hspan)
  obtain ⟨⟨r, hr⟩, h2⟩ := mveeLoop_spec pts hd tol fuel _ 1 h
  rw [mvee_unfold pts hN hd tol fuel r hr]
  cases r with
  | none => exact ⟨_, rfl⟩
  | some u =>
    have hu := (h2 u hr).1
    rw [mveeTail, if_neg (by rw [← mveeX_det pts u hu.sum]; exact hu.det.ne')]
    exact ⟨_, rfl⟩

/-- C80: and for a positive tolerance it ends. -/
theorem C80_ends (hN : 0 < N) (hd : 0 < d) (tol : ℝ) (htol : 0 < tol)
    (hspan : ∀ (a : Fin d → ℝ) (b : ℝ), (∀ i, a ⬝ᵥ pts i = b) → a = 0) :
    ∃ fuel A c, mvee pts tol fuel = .ok (some (A, c)) := by
  have h := mveeOk_start pts hN (mveeX_det_ne pts hN _ (fun _ => by
    have : (0 : ℝ) < N := by exact_mod_cast hN
    positivity) hspan)
  obtain ⟨fuel, u, hr⟩ := mveeLoop_ends pts hd tol htol _ 1 h
  have hu := ((mveeLoop_spec pts hd tol fuel _ 1 h).2 u hr).1
  refine ⟨fuel, (1 / (d : ℝ)) • (mveeS pts u)⁻¹, mveec pts u, ?_⟩
  rw [mvee_unfold pts hN hd tol fuel _ hr]
  rw [mveeTail, if_neg (by rw [← mveeX_det pts u hu.sum]; exact hu.det.ne')]

/-- C80: for points in a hyperplane the matrix cannot be inverted. -/
theorem C80_flat_fails (hN : 0 < N) (hd : 0 < d) (tol : ℝ) (fuel : Nat) (a : Fin d → ℝ) (b : ℝ) (ha : a ≠ 0)
    (hflat : ∀ i, a ⬝ᵥ pts i = b) : mvee pts tol (fuel + 1) = .error .other := by
  have hN' : (0 : ℝ) < N := by exact_mod_cast hN
  set u : Fin N → ℝ := fun _ => 1 / (N : ℝ) with hu
  have hsum : ∑ i, u i = 1 := by
    rw [Finset.sum_const, Finset.card_univ, Fintype.card_fin, nsmul_eq_mul]
    field_simp
  have hdet : (mveeX pts u).det = 0 := by
    apply Matrix.exists_mulVec_eq_zero_iff.1
    set v : Fin d ⊕ Unit → ℝ := Sum.elim a (fun _ => -b) with hv
    refine ⟨v, ?_, ?_⟩
    · intro h
      apply ha
      funext i
      exact congrFun h (Sum.inl i)
    · have hq : ∀ k, mveeq pts k ⬝ᵥ v = 0 := by
        intro k
        have h2 : mveeq pts k ⬝ᵥ v = a ⬝ᵥ pts k - b := by
          simp only [dotProduct, mveeq, mveeQ, hv, Fintype.sum_sum_type, Sum.elim_inl, Sum.elim_inr,
            Finset.univ_unique, Finset.sum_singleton, one_mul]
          rw [sub_eq_add_neg]
          congr 1
          exact Finset.sum_congr rfl fun i _ => by ring
        rw [h2, hflat k, sub_self]
      apply dotProduct_eq_zero
      intro w
      rw [dotProduct_comm, mveeX_bilin]
      exact Finset.sum_eq_zero fun k _ => by rw [hq k, mul_zero]
  have hstep : mveeStep pts u = .error .other := by
    unfold mveeStep
    rw [if_pos hdet]
  by_cases hc : (1 : ℝ) ≤ tol
  · rw [mvee_unfold pts hN hd tol (fuel + 1) (some u) (mveeLoop_stop pts tol _ u 1 hc)]
    rw [mveeTail, if_pos (by rw [← mveeX_det pts u hsum]; exact hdet)]
  · unfold mvee
    rw [if_neg (by omega), mveeLoop_succ_err pts tol fuel u 1 hc _ hstep]
    rfl

/-- What is behind a result. -/
theorem mvee_some (hN : 0 < N) (hd : 0 < d) (tol : ℝ) (fuel : Nat) (A : Matrix (Fin d) (Fin d) ℝ)
    (c : Fin d → ℝ) (h : mvee pts tol fuel = .ok (some (A, c))) :
    ∃ u, MveeOk pts u ∧ A = (1 / (d : ℝ)) • (mveeS pts u)⁻¹ ∧ c = mveec pts u ∧
      (1 ≤ tol ∨ ∃ u₀, MveeOk pts u₀ ∧ mveeStep pts u₀ = .ok u ∧
        Real.sqrt (∑ i, (u i - u₀ i) ^ 2) ≤ tol) := by
  have hN' : (0 : ℝ) < N := by exact_mod_cast hN
  have hstart : (mveeX pts fun _ => 1 / (N : ℝ)).det ≠ 0 := by
    intro hdet
    have hsum : ∑ _i : Fin N, 1 / (N : ℝ) = 1 := by
      rw [Finset.sum_const, Finset.card_univ, Fintype.card_fin, nsmul_eq_mul]
      field_simp
    by_cases hc : (1 : ℝ) ≤ tol
    · rw [mvee_unfold pts hN hd tol fuel _ (mveeLoop_stop pts tol _ _ 1 hc)] at h
      rw [mveeTail, if_pos (by rw [← mveeX_det pts _ hsum]; exact hdet)] at h
      cases h
    · cases fuel with
      | zero =>
        rw [mvee_unfold pts hN hd tol 0 _ (mveeLoop_zero pts tol _ 1 hc)] at h
        cases h
      | succ fuel =>
        have hstep : mveeStep pts (fun _ => 1 / (N : ℝ)) = .error .other := by
          unfold mveeStep
          rw [if_pos hdet]
        unfold mvee at h
        rw [if_neg (by omega), mveeLoop_succ_err pts tol fuel _ 1 hc _ hstep] at h
        cases h
  have hs := mveeOk_start pts hN hstart
  obtain ⟨⟨r, hr⟩, h2⟩ := mveeLoop_spec pts hd tol fuel _ 1 hs
  rw [mvee_unfold pts hN hd tol fuel r hr] at h
  cases r with
  | none => cases h
  | some u =>
    obtain ⟨hu, h3⟩ := h2 u hr
    rw [mveeTail, if_neg (by rw [← mveeX_det pts u hu.sum]; exact hu.det.ne')] at h
    have h4 := Option.some.inj (Except.ok.inj h)
    refine ⟨u, hu, (congrArg Prod.fst h4).symm, (congrArg Prod.snd h4).symm, ?_⟩
    rcases h3 with ⟨-, h3⟩ | h3
    · exact Or.inl h3
    · exact Or.inr h3

theorem mvee_form (hd : 0 < d) {u : Fin N → ℝ} (hu : MveeOk pts u) (i : Fin N) :
    Spec.form ((1 / (d : ℝ)) • (mveeS pts u)⁻¹) (mveec pts u) (pts i) = (mveeM pts u i - 1) / d := by
  rw [form_eq, Matrix.smul_mulVec, dotProduct_smul, smul_eq_mul, mveeM_eq_form pts u hu.sum hu.det.ne']
  have hd' : (d : ℝ) ≠ 0 := by exact_mod_cast hd.ne'
  field_simp
  ring

/-- C80: what is returned describes a nondegenerate ellipsoid around a centre in the convex hull of the
points, and with these convex weights, all positive, the quadratic form averages to one over the points. -/
theorem C80_result (hN : 0 < N) (hd : 0 < d) (tol : ℝ) (fuel : Nat) (A : Matrix (Fin d) (Fin d) ℝ)
    (c : Fin d → ℝ) (h : mvee pts tol fuel = .ok (some (A, c))) :
    (∀ a b, A a b = A b a) ∧ (∀ x, x ≠ c → 0 < Spec.form A c x) ∧
    ∃ u : Fin N → ℝ, (∀ i, 0 < u i) ∧ ∑ i, u i = 1 ∧ (∀ a, c a = ∑ i, u i * pts i a) ∧
      ∑ i, u i * Spec.form A c (pts i) = 1 := by
  obtain ⟨u, hu, rfl, rfl, -⟩ := mvee_some pts hN hd tol fuel A c h
  have hd' : (0 : ℝ) < d := by exact_mod_cast hd
  have hcov : mveeS pts u = pcov u pts := by
    ext a b
    simp only [mveeS, pcov, pmean]
    congr 1
    · exact Finset.sum_congr rfl fun i _ => by ring
    · congr 1 <;> exact Finset.sum_congr rfl fun i _ => by ring
  have hS : (mveeS pts u).det ≠ 0 := by rw [← mveeX_det pts u hu.sum]; exact hu.det.ne'
  have hpsd : (mveeS pts u).PosSemidef := by
    rw [hcov]; exact C13_cov_posSemidef u pts (hu.nonneg pts) hu.sum
  have hpd : (mveeS pts u)⁻¹.PosDef :=
    (hpsd.posDef_iff_isUnit.2 ((Matrix.isUnit_iff_isUnit_det _).2 (isUnit_iff_ne_zero.2 hS))).inv
  refine ⟨fun a b => ?_, fun x hx => ?_, u, hu.pos, hu.sum, fun a => ?_, ?_⟩
  · have := hpd.isHermitian.apply b a
    rw [star_trivial] at this
    rw [Matrix.smul_apply, Matrix.smul_apply, this]
  · rw [form_eq, Matrix.smul_mulVec, dotProduct_smul, smul_eq_mul]
    have := hpd.dotProduct_mulVec_pos (sub_ne_zero.2 hx)
    rw [star_trivial] at this
    exact mul_pos (by positivity) this
  · exact Finset.sum_congr rfl fun i _ => by ring
  · simp only [mvee_form pts hd hu]
    have e : ∀ i, u i * ((mveeM pts u i - 1) / d) = (u i * mveeM pts u i - u i) / d := fun i => by ring
    simp only [e]
    rw [← Finset.sum_div, Finset.sum_sub_distrib, mveeM_sum pts u hu.det.ne', hu.sum]
    field_simp
    ring

/-- C80, finding: whatever the tolerance, the ellipsoid encloses all points only if every one of them lies on
its surface. -/
theorem C80_encloses_iff (hN : 0 < N) (hd : 0 < d) (tol : ℝ) (fuel : Nat) (A : Matrix (Fin d) (Fin d) ℝ)
    (c : Fin d → ℝ) (h : mvee pts tol fuel = .ok (some (A, c))) :
    (∀ i, Spec.form A c (pts i) ≤ 1) ↔ ∀ i, Spec.form A c (pts i) = 1 := by
  obtain ⟨-, -, u, hu0, hu1, -, hav⟩ := C80_result pts hN hd tol fuel A c h
  refine ⟨fun hle i => ?_, fun he i => (he i).le⟩
  have h2 : ∑ i, u i * (1 - Spec.form A c (pts i)) = 0 := by
    simp only [mul_sub, mul_one, Finset.sum_sub_distrib, hu1, hav, sub_self]
  have h3 := (Finset.sum_eq_zero_iff_of_nonneg fun k _ =>
    mul_nonneg (hu0 k).le (sub_nonneg.2 (hle k))).1 h2 i (Finset.mem_univ i)
  rcases mul_eq_zero.1 h3 with h4 | h4
  · exact absurd h4 (hu0 i).ne'
  · linarith

/-- C80: some point is on or outside the surface, so the ellipsoid is not needlessly large. -/
theorem C80_touches (hN : 0 < N) (hd : 0 < d) (tol : ℝ) (fuel : Nat) (A : Matrix (Fin d) (Fin d) ℝ)
    (c : Fin d → ℝ) (h : mvee pts tol fuel = .ok (some (A, c))) : ∃ i, 1 ≤ Spec.form A c (pts i) := by
  by_contra hc
  push Not at hc
  have := (C80_encloses_iff pts hN hd tol fuel A c h).1 (fun i => (hc i).le) ⟨0, hN⟩
  exact (hc ⟨0, hN⟩).ne this

/-- C80: with `t = tol (d + 1)² / d` below one, and a tolerance below one so that the loop runs, all points
satisfy the inequality of the ellipsoid up to the factor `1 + (d + 1) / d * t / (1 - t)`.  That they satisfy
it exactly, which is what "enclosing" means, fails: `C80_misses`. -/
theorem C80_nearly_encloses_partial (hN : 0 < N) (hd : 0 < d) (tol : ℝ) (fuel : Nat)
    (A : Matrix (Fin d) (Fin d) ℝ) (c : Fin d → ℝ) (h : mvee pts tol fuel = .ok (some (A, c)))
    (htol : tol < 1) (t : ℝ) (ht : t = tol * ((d : ℝ) + 1) ^ 2 / d) (ht1 : t < 1) (i : Fin N) :
    Spec.form A c (pts i) ≤ 1 + ((d : ℝ) + 1) / d * (t / (1 - t)) := by
  obtain ⟨u, hu, rfl, rfl, h2⟩ := mvee_some pts hN hd tol fuel A c h
  rcases h2 with h2 | ⟨u₀, h₀, hstep, herr⟩
  · linarith
  obtain ⟨j, hmax, hge, s, hs, hs0, hs1, hstep'⟩ := mveeStep_spec pts hd h₀
  rw [hstep'] at hstep
  have hueq : (fun i => (1 - s) * u₀ i + if i.val = j.val then s else 0) = u := Except.ok.inj hstep
  have hd' : (1 : ℝ) ≤ d := by exact_mod_cast hd
  rw [mvee_form pts hd hu]
  subst hueq
  have hM := mveeM_step_le pts h₀ j s hs0 hs1 i
  set m := mveeM pts u₀ j with hm
  have hm1 : 0 < m - 1 := by linarith
  have hs1' : 0 < 1 - s := by linarith
  -- the step is short
  have hlow := (mvee_err_lower (u := u₀) j s).trans herr
  have huj : u₀ j ≤ 1 / ((d : ℝ) + 1) := by
    rw [le_div_iff₀ (by linarith)]
    have h3 := mveeM_mul_le pts u₀ (h₀.nonneg pts) h₀.det.ne' j
    exact (mul_le_mul_of_nonneg_left hge (h₀.nonneg pts j)).trans h3
  have hsd : s * ((d : ℝ) + 1) ≤ t := by
    have h3 : s * (d / ((d : ℝ) + 1)) ≤ tol := by
      refine le_trans (mul_le_mul_of_nonneg_left ?_ hs0) hlow
      have : (d : ℝ) / (d + 1) = 1 - 1 / (d + 1) := by field_simp; ring
      rw [this]; linarith
    rw [ht, le_div_iff₀ (by linarith)]
    have h4 := mul_le_mul_of_nonneg_right h3 (show (0 : ℝ) ≤ (d + 1) ^ 2 by positivity)
    have e : s * (d / ((d : ℝ) + 1)) * (d + 1) ^ 2 = s * (d + 1) * d := by field_simp
    linarith
  -- hence the largest value is close to d + 1
  have hmeq : (m - 1) * (1 - s * (d + 1)) = d := by
    have : s * ((d + 1) * (m - 1)) = m - d - 1 := by
      rw [hs]; field_simp
    linarith
  have hm2 : (m - 1) * (1 - t) ≤ d := by
    rw [← hmeq]
    exact mul_le_mul_of_nonneg_left (by linarith) hm1.le
  have hm3 : m - 1 ≤ d / (1 - t) := by rw [le_div_iff₀ (by linarith)]; exact hm2
  have e2 : m / (1 - s) = (d + 1) * (m - 1) / d := by
    have e3 : 1 - s = d * m / ((d + 1) * (m - 1)) := by
      rw [hs]; field_simp; ring
    have : m ≠ 0 := by linarith
    rw [e3]; field_simp
  have h5 : mveeM pts (fun i => (1 - s) * u₀ i + if i.val = j.val then s else 0) i ≤
      (d + 1) * (m - 1) / d := by
    rw [← e2]
    exact hM.trans (div_le_div_of_nonneg_right (hmax i) hs1'.le)
  have h6 : ((d : ℝ) + 1) * (m - 1) / d ≤ (d + 1) / (1 - t) := by
    rw [div_le_iff₀ (by linarith)]
    calc ((d : ℝ) + 1) * (m - 1) ≤ (d + 1) * (d / (1 - t)) :=
          mul_le_mul_of_nonneg_left hm3 (by linarith)
      _ = _ := by ring
  rw [div_le_iff₀ (by linarith)]
  have e4 : (1 + ((d : ℝ) + 1) / d * (t / (1 - t))) * d = (d + 1) / (1 - t) - 1 := by
    have : 1 - t ≠ 0 := by linarith
    field_simp
    ring
  rw [e4]
  linarith

/-- C80: each pass of the loop leaves the determinant of the weighted covariance of the points, whose
maximum gives the minimal ellipsoid, no smaller. -/
theorem C80_progress (hd : 0 < d) (u u' : Fin N → ℝ) (hu0 : ∀ i, 0 < u i) (hu1 : ∑ i, u i = 1)
    (hstep : mveeStep pts u = .ok u') :
    (∀ i, 0 < u' i) ∧ ∑ i, u' i = 1 ∧ (pcov u pts).det ≤ (pcov u' pts).det := by
  have hcov : ∀ v : Fin N → ℝ, mveeS pts v = pcov v pts := by
    intro v
    ext a b
    simp only [mveeS, pcov, pmean]
    congr 1
    · exact Finset.sum_congr rfl fun i _ => by ring
    · congr 1 <;> exact Finset.sum_congr rfl fun i _ => by ring
  have hdet : (mveeX pts u).det ≠ 0 := by
    intro h
    unfold mveeStep at hstep
    rw [if_pos h] at hstep
    cases hstep
  have hok : MveeOk pts u := ⟨hu0, hu1, lt_of_le_of_ne
    (mveeX_posSemidef pts u fun i => (hu0 i).le).det_nonneg (Ne.symm hdet)⟩
  obtain ⟨j, -, hge, s, hs, hs0, hs1, hstep'⟩ := mveeStep_spec pts hd hok
  rw [hstep'] at hstep
  have hueq : (fun i => (1 - s) * u i + if i.val = j.val then s else 0) = u' := Except.ok.inj hstep
  subst hueq
  have hok' := mveeOk_step pts hok j s hs0 hs1
  refine ⟨hok'.pos, hok'.sum, ?_⟩
  have h3 := mvee_det_gain pts hd hok j hge s 0 hs hs1 le_rfl hs0
  rw [mveeX_det pts _ hok'.sum, mveeX_det pts u hu1, hcov, hcov] at h3
  have : mveeGain d 0 = 1 := by simp [mveeGain]
  rwa [this, one_mul] at h3

end

/-- C80, finding: for three or more distinct points on a line the interval found always misses one. -/
theorem C80_misses {N : Nat} (pts : Fin N → Fin 1 → ℝ) (hN : 3 ≤ N) (hinj : Function.Injective pts) (tol : ℝ)
    (fuel : Nat) (A : Matrix (Fin 1) (Fin 1) ℝ) (c : Fin 1 → ℝ)
    (h : mvee pts tol fuel = .ok (some (A, c))) : ∃ i, 1 < Spec.form A c (pts i) := by
  by_contra hc
  push Not at hc
  have h2 := (C80_encloses_iff pts (by omega) one_pos tol fuel A c h).1 hc
  have hA : ∀ i, A 0 0 * (pts i 0 - c 0) ^ 2 = 1 := by
    intro i
    rw [← h2 i]
    simp [Spec.form]
    ring
  have hA0 : A 0 0 ≠ 0 := by
    intro h0
    have := hA ⟨0, by omega⟩
    rw [h0] at this
    simp at this
  have hsq : ∀ i k, (pts i 0 - c 0) ^ 2 = (pts k 0 - c 0) ^ 2 := fun i k =>
    mul_left_cancel₀ hA0 ((hA i).trans (hA k).symm)
  have hne : ∀ i k, i ≠ k → pts i 0 - c 0 = -(pts k 0 - c 0) := by
    intro i k hik
    rcases sq_eq_sq_iff_eq_or_eq_neg.1 (hsq i k) with h3 | h3
    · exfalso
      apply hik
      apply hinj
      funext a
      have : a = 0 := Subsingleton.elim _ _
      rw [this]
      linarith
    · exact h3
  have h01 := hne ⟨0, by omega⟩ ⟨1, by omega⟩ (by simp)
  have h02 := hne ⟨0, by omega⟩ ⟨2, by omega⟩ (by simp)
  have h12 := hne ⟨1, by omega⟩ ⟨2, by omega⟩ (by simp)
  have h3 := hA ⟨2, by omega⟩
  have h4 : pts ⟨2, by omega⟩ 0 - c 0 = 0 := by linarith
  rw [h4] at h3
  simp at h3

/-- C80, finding: the matrix returned is that of the quadratic form itself, not its inverse as documented.
For the points 0 and 4 on a line it is 1/4 with centre 2; the documented condition with the inverse is
false for both points, while the test made by `in_credible_region` is true for them. -/
theorem C80_matrix_is_inverse (tol : ℝ) (htol : 0 ≤ tol) (fuel : Nat) :
    let pts : Fin 2 → Fin 1 → ℝ := ![fun _ => 0, fun _ => 4]
    ∃ A c, mvee pts tol (fuel + 1) = .ok (some (A, c)) ∧ A 0 0 = 1 / 4 ∧ c 0 = 2 ∧
      ∀ i, ¬ Spec.form A⁻¹ c (pts i) ≤ 1 ∧ inMvee (pts i) A c = .ok true := by
  intro pts
  have hspan : ∀ (a : Fin 1 → ℝ) (b : ℝ), (∀ i, a ⬝ᵥ pts i = b) → a = 0 := by
    intro a b hab
    have h0 := hab 0
    have h1 := hab 1
    simp [pts, dotProduct] at h0 h1
    funext i
    have : i = 0 := Subsingleton.elim _ _
    rw [this]
    simp only [Pi.zero_apply]
    linarith
  set u : Fin 2 → ℝ := fun _ => 1 / ((2 : ℕ) : ℝ) with hu
  have hok : MveeOk pts u := mveeOk_start pts two_pos (mveeX_det_ne pts two_pos _ (fun _ => by positivity) hspan)
  have hloop : mveeLoop pts tol (fuel + 1) u 1 = .ok (some u) := by
    by_cases hc : (1 : ℝ) ≤ tol
    · exact mveeLoop_stop pts tol _ u 1 hc
    · obtain ⟨j, -, hge, s, hs, -, -, hstep⟩ := mveeStep_spec pts one_pos hok
      have h3 := mveeM_mul_le pts u (hok.nonneg pts) hok.det.ne' j
      have hm : mveeM pts u j = 2 := by
        have huj : u j = 1 / 2 := by simp [hu]
        rw [huj] at h3
        push_cast at hge
        linarith
      have hs0 : s = 0 := by rw [hs, hm]; norm_num
      have hst : mveeStep pts u = .ok u := by
        rw [hstep, hs0]
        congr 1
        funext i
        simp
      rw [mveeLoop_succ pts tol fuel u u 1 hc hst]
      apply mveeLoop_stop
      simpa using htol
  have hS : mveeS pts u = fun _ _ => 4 := by
    ext a b
    simp only [mveeS, Fin.sum_univ_two, pts, hu]
    norm_num
  have hSm : mveeS pts u = (4 : ℝ) • (1 : Matrix (Fin 1) (Fin 1) ℝ) := by
    rw [hS]
    ext a b
    have ha : a = 0 := Subsingleton.elim _ _
    have hb : b = 0 := Subsingleton.elim _ _
    simp [ha, hb]
  have hSdet : (mveeS pts u).det ≠ 0 := by
    rw [hSm]; simp
  have hinv : (mveeS pts u)⁻¹ = (1 / 4 : ℝ) • (1 : Matrix (Fin 1) (Fin 1) ℝ) := by
    rw [hSm]
    apply Matrix.inv_eq_left_inv
    rw [Matrix.smul_mul, Matrix.mul_smul, smul_smul, Matrix.one_mul]
    norm_num
  have hc0 : ∀ a, mveec pts u a = 2 := by
    intro a
    simp only [mveec, Fin.sum_univ_two, pts, hu]
    norm_num
  have hmv : mvee pts tol (fuel + 1) = .ok (some ((1 / 4 : ℝ) • (1 : Matrix (Fin 1) (Fin 1) ℝ), mveec pts u)) := by
    rw [mvee_unfold pts two_pos one_pos tol (fuel + 1) _ hloop]
    rw [mveeTail, if_neg hSdet, hinv]
    norm_num
  have hAi : ((1 / 4 : ℝ) • (1 : Matrix (Fin 1) (Fin 1) ℝ))⁻¹ = (4 : ℝ) • 1 := by
    apply Matrix.inv_eq_left_inv
    rw [Matrix.smul_mul, Matrix.mul_smul, smul_smul, Matrix.one_mul]
    norm_num
  have hAi2 : ((4 : ℝ) • (1 : Matrix (Fin 1) (Fin 1) ℝ))⁻¹ = (1 / 4 : ℝ) • 1 := by
    apply Matrix.inv_eq_left_inv
    rw [Matrix.smul_mul, Matrix.mul_smul, smul_smul, Matrix.one_mul]
    norm_num
  refine ⟨_, _, hmv, by simp, hc0 0, fun i => ⟨?_, ?_⟩⟩
  · rw [hAi]
    fin_cases i <;> simp [Spec.form, hc0, pts] <;> norm_num
  · have hdet4 : ((4 : ℝ) • (1 : Matrix (Fin 1) (Fin 1) ℝ)).det ≠ 0 := by simp
    obtain ⟨b, hb, hiff⟩ := inEllipsoid_eq (pts i) ((4 : ℝ) • 1) (mveec pts u) hdet4
    rw [inMvee, hAi, hb]
    congr 1
    rw [hiff, hAi2]
    fin_cases i <;> simp [Spec.form, hc0, pts] <;> norm_num

/-- Case for C80: the corners of a triangle do not lie on a line. -/
example : ∀ (a : Fin 2 → ℝ) (b : ℝ),
    (∀ i, a ⬝ᵥ (![![0, 0], ![1, 0], ![0, 1]] : Fin 3 → Fin 2 → ℝ) i = b) → a = 0 := by
  intro a b h
  have h0 := h 0
  have h1 := h 1
  have h2 := h 2
  simp [dotProduct, Fin.sum_univ_two] at h0 h1 h2
  funext i
  fin_cases i <;> simp <;> linarith

end QInfer
