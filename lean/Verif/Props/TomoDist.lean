import Verif.Model.TomoDist
import Verif.Lemmas.Tomo
import Verif.Lemmas.TomoModel
import Verif.Props.Bases
import Mathlib.LinearAlgebra.Matrix.Rank
import Mathlib.Probability.Distributions.Beta
import Mathlib.Analysis.Matrix.PosDef
import Mathlib.MeasureTheory.Integral.Bochner.ContinuousLinearMap
import Mathlib.Tactic.FieldSimp
import Mathlib.Tactic.Ring
import Mathlib.Tactic.NormNum
import Mathlib.Tactic.Positivity
import Mathlib.Tactic.FinCases

/-!
# C66-C69: matrix roots, random density operators, Pauli measurements
-/

set_option linter.unusedSectionVars false

namespace QInfer

open Matrix
open scoped BigOperators ComplexOrder

/-! ## C66: `sqrtm_psd` -/

theorem hermLower_eq {d : Nat} (A : Matrix (Fin d) (Fin d) ℂ) (hA : A.IsHermitian) :
    hermLower A = A := by
  ext i j
  simp only [hermLower, Matrix.of_apply]
  by_cases h1 : j < i
  · rw [if_pos h1]
  · rw [if_neg h1]
    by_cases h2 : i = j
    · subst h2
      rw [if_pos rfl]
      have := hA.apply i i
      rw [Complex.star_def] at this
      exact Complex.conj_eq_iff_re.1 this
    · rw [if_neg h2]; exact hA.apply i j

theorem hermLower_isHermitian {d : Nat} (A : Matrix (Fin d) (Fin d) ℂ) :
    (hermLower A).IsHermitian := by
  ext i j
  simp only [hermLower, Matrix.of_apply, Matrix.conjTranspose_apply]
  rcases lt_trichotomy i j with h | h | h
  · rw [if_pos h, if_neg (by omega), if_neg (by omega)]
  · subst h; simp
  · rw [if_neg (by omega), if_neg (by omega), if_pos h, star_star]

section
variable {d : Nat} {A : Matrix (Fin d) (Fin d) ℂ} {w : Fin d → ℝ} {v : Matrix (Fin d) (Fin d) ℂ}

theorem sqrtmPsd_fst (e : Bool) : (sqrtmPsd A w v e).1 =
    v * diagonal (fun k => ((Real.sqrt (if w k ≤ 0 then 0 else w k) : ℝ) : ℂ)) * vᴴ := by
  unfold sqrtmPsd
  dsimp only
  congr 1
  ext i k
  rw [Matrix.of_apply, Matrix.mul_diagonal]

theorem sqrtmPsd_sq (e : Bool) (hu : vᴴ * v = 1) : (sqrtmPsd A w v e).1 * (sqrtmPsd A w v e).1 =
    v * diagonal (fun k => (((if w k ≤ 0 then 0 else w k) : ℝ) : ℂ)) * vᴴ := by
  rw [sqrtmPsd_fst]
  set D : Fin d → ℂ := fun k => ((Real.sqrt (if w k ≤ 0 then 0 else w k) : ℝ) : ℂ) with hD
  have : v * diagonal D * vᴴ * (v * diagonal D * vᴴ) = v * (diagonal D * (vᴴ * v) * diagonal D) * vᴴ := by
    simp only [Matrix.mul_assoc]
  rw [this, hu, Matrix.mul_one, Matrix.diagonal_mul_diagonal]
  congr 3
  funext k
  simp only [hD]
  rw [← Complex.ofReal_mul, Real.mul_self_sqrt]
  split_ifs with h
  · exact le_rfl
  · exact (not_le.1 h).le

/-- C66: `sqrtm_psd` returns a positive matrix whose square is the positive part of the Hermitian
matrix read off the lower triangle (of `A` itself if `A` is Hermitian). -/
theorem C66_root (hE : hermLower A * v = v * diagonal fun k => (w k : ℂ)) (hu : vᴴ * v = 1)
    (e : Bool) :
    (sqrtmPsd A w v e).1.PosSemidef ∧
      Spec.IsPosPart (hermLower A) ((sqrtmPsd A w v e).1 * (sqrtmPsd A w v e).1) ∧
      (A.IsHermitian → Spec.IsPosPart A ((sqrtmPsd A w v e).1 * (sqrtmPsd A w v e).1)) := by
  have heig : Spec.IsEig (hermLower A) (fun k => (w k : ℂ)) v :=
    ⟨hE, fun k => by rw [hu, Matrix.one_apply_eq],
      ⟨⟨v, vᴴ, mul_eq_one_comm.1 hu, hu⟩, rfl⟩⟩
  have hpos : Spec.IsPosPart (hermLower A) ((sqrtmPsd A w v e).1 * (sqrtmPsd A w v e).1) := by
    rw [sqrtmPsd_sq e hu]
    refine Spec.rebuilt_posPart heig hu _ (fun k => ?_) (fun k => ?_) (fun k => ?_)
    · rw [Complex.zero_le_real]; split_ifs with h
      · exact le_rfl
      · exact (not_le.1 h).le
    · rw [← Complex.ofReal_sub, Complex.zero_le_real]; split_ifs with h
      · linarith
      · simp
    · rw [← Complex.ofReal_sub, ← Complex.ofReal_mul]; split_ifs with h <;> simp
  refine ⟨?_, hpos, fun hA => ?_⟩
  · rw [sqrtmPsd_fst]
    exact Spec.rebuilt_pos v _ fun k => by rw [Complex.zero_le_real]; exact Real.sqrt_nonneg _
  · rwa [hermLower_eq A hA] at hpos

theorem frobenius_zero_iff (B : Matrix (Fin d) (Fin d) ℂ) :
    Real.sqrt (∑ i, ∑ j, ‖B i j‖ ^ 2) = 0 ↔ B = 0 := by
  rw [Real.sqrt_eq_zero (Finset.sum_nonneg fun i _ => Finset.sum_nonneg fun j _ => sq_nonneg _)]
  constructor
  · intro h
    ext i j
    rw [Finset.sum_eq_zero_iff_of_nonneg fun i _ => Finset.sum_nonneg fun j _ => sq_nonneg _] at h
    have h1 := h i (Finset.mem_univ i)
    rw [Finset.sum_eq_zero_iff_of_nonneg fun j _ => sq_nonneg _] at h1
    have h2 := h1 j (Finset.mem_univ j)
    simpa using h2
  · rintro rfl; simp

/-- C66: the reported error is the Frobenius distance of the square from `A`.  For Hermitian `A` it is
zero exactly if `A` is positive, and then the root is exact. -/
theorem C66_error (hE : hermLower A * v = v * diagonal fun k => (w k : ℂ)) (hu : vᴴ * v = 1) :
    (sqrtmPsd A w v false).2 = none ∧
    ∃ err, (sqrtmPsd A w v true).2 = some err ∧
      err = Real.sqrt (∑ i, ∑ j,
        ‖((sqrtmPsd A w v true).1 * (sqrtmPsd A w v true).1) i j - A i j‖ ^ 2) ∧
      (err = 0 ↔ A.PosSemidef) := by
  refine ⟨rfl, _, rfl, rfl, ?_⟩
  rw [frobenius_zero_iff]
  obtain ⟨h1, h2, h3⟩ := C66_root hE hu true
  constructor
  · intro h
    have h4 := sub_eq_zero.1 h
    rw [← h4]
    exact h2.pos
  · intro h
    have hself : Spec.IsPosPart A A := ⟨h, by rw [sub_self]; exact PosSemidef.zero, by simp⟩
    rw [sub_eq_zero]
    exact Spec.isPosPart_unique (h3 h.1) hself

/-- C66: a positive matrix has only one positive square root, so the result does not depend on the
eigenvectors. -/
theorem C66_unique (hE : hermLower A * v = v * diagonal fun k => (w k : ℂ)) (hu : vᴴ * v = 1)
    (w' : Fin d → ℝ) (v' : Matrix (Fin d) (Fin d) ℂ)
    (hE' : hermLower A * v' = v' * diagonal fun k => (w' k : ℂ)) (hu' : v'ᴴ * v' = 1) (e e' : Bool) :
    (sqrtmPsd A w v e).1 = (sqrtmPsd A w' v' e').1 := by
  obtain ⟨h1, h2, -⟩ := C66_root hE hu e
  obtain ⟨h1', h2', -⟩ := C66_root hE' hu' e'
  have hsq := Spec.isPosPart_unique h2 h2'
  -- both diagonalise: compare through the eigenvectors
  set D := (fun k => ((Real.sqrt (if w k ≤ 0 then 0 else w k) : ℝ) : ℂ)) with hD
  set D' := (fun k => ((Real.sqrt (if w' k ≤ 0 then 0 else w' k) : ℝ) : ℂ)) with hD'
  have hv : v * vᴴ = 1 := mul_eq_one_comm.1 hu
  have hv' : v' * v'ᴴ = 1 := mul_eq_one_comm.1 hu'
  -- `U = v† v'` intertwines the eigenvalues
  have hU : diagonal (fun k => (w k : ℂ)) * (vᴴ * v') = (vᴴ * v') * diagonal fun k => (w' k : ℂ) := by
    have a1 : diagonal (fun k => (w k : ℂ)) = vᴴ * hermLower A * v := by
      rw [Matrix.mul_assoc, hE, ← Matrix.mul_assoc, hu, Matrix.one_mul]
    have a2 : diagonal (fun k => (w' k : ℂ)) = v'ᴴ * hermLower A * v' := by
      rw [Matrix.mul_assoc, hE', ← Matrix.mul_assoc, hu', Matrix.one_mul]
    rw [a1, a2]
    calc vᴴ * hermLower A * v * (vᴴ * v') = vᴴ * hermLower A * (v * vᴴ) * v' := by
          simp only [Matrix.mul_assoc]
      _ = vᴴ * (v' * v'ᴴ) * hermLower A * v' := by rw [hv, hv', Matrix.mul_one, Matrix.mul_one]
      _ = _ := by simp only [Matrix.mul_assoc]
  have hUD : diagonal D * (vᴴ * v') = (vᴴ * v') * diagonal D' := by
    ext k l
    have := congrFun (congrFun hU k) l
    rw [Matrix.diagonal_mul, Matrix.mul_diagonal] at this ⊢
    by_cases h0 : (vᴴ * v') k l = 0
    · rw [h0]; simp
    · rw [mul_comm] at this
      have hw : w k = w' l := by exact_mod_cast mul_left_cancel₀ h0 this
      simp only [hD, hD', hw]
      ring
  rw [sqrtmPsd_fst, sqrtmPsd_fst, ← hD, ← hD']
  calc v * diagonal D * vᴴ = v * (diagonal D * (vᴴ * v')) * v'ᴴ := by
        have : v * (diagonal D * (vᴴ * v')) * v'ᴴ = v * diagonal D * vᴴ * (v' * v'ᴴ) := by
          simp only [Matrix.mul_assoc]
        rw [this, hv', Matrix.mul_one]
    _ = v * vᴴ * (v' * diagonal D' * v'ᴴ) := by rw [hUD]; simp only [Matrix.mul_assoc]
    _ = _ := by rw [hv, Matrix.one_mul]

end

/-- Case for C66: the Hermitian matrix `diag(4, -9)` has root `diag(2, 0)` and error 9. -/
example :
    let A : Matrix (Fin 2) (Fin 2) ℂ := diagonal ![4, -9]
    hermLower A * 1 = 1 * diagonal (fun k => ((![4, -9] k : ℝ) : ℂ)) ∧
      (sqrtmPsd A ![4, -9] 1 true).1 = diagonal ![2, 0] ∧ (sqrtmPsd A ![4, -9] 1 true).2 = some 9 := by
  intro A
  have hroot : (sqrtmPsd A ![4, -9] 1 true).1 = diagonal ![2, 0] := by
    rw [sqrtmPsd_fst, Matrix.one_mul, Matrix.conjTranspose_one, Matrix.mul_one]
    congr 1
    funext k
    have h4 : Real.sqrt 4 = 2 := by
      rw [show (4 : ℝ) = 2 ^ 2 by norm_num]; exact Real.sqrt_sq (by norm_num)
    fin_cases k
    · norm_num [h4]
    · norm_num
  refine ⟨?_, hroot, ?_⟩
  · rw [Matrix.mul_one, Matrix.one_mul, hermLower_eq]
    · have : (![4, -9] : Fin 2 → ℂ) = fun k => ((![4, -9] k : ℝ) : ℂ) := by
        funext k; fin_cases k <;> simp
      change diagonal _ = _
      rw [this]
    · rw [Matrix.isHermitian_diagonal_iff]
      intro k; fin_cases k <;> simp [isSelfAdjoint_iff]
  · have : (sqrtmPsd A ![4, -9] 1 true).2 = some (Real.sqrt (∑ i, ∑ j,
        ‖((sqrtmPsd A ![4, -9] 1 true).1 * (sqrtmPsd A ![4, -9] 1 true).1 - A) i j‖ ^ 2)) := rfl
    rw [this, hroot]
    have h81 : Real.sqrt 81 = 9 := by
      rw [show (81 : ℝ) = 9 ^ 2 by norm_num]; exact Real.sqrt_sq (by norm_num)
    simp [Fin.sum_univ_two, A, Matrix.diagonal_mul_diagonal, Matrix.sub_apply]
    norm_num [h81]

/-! ## C67: samples are density operators -/

theorem mat_toPlane {d : Nat} (M : Matrix (Fin d) (Fin d) ℂ) : Spec.mat d (toPlane M) = M := by
  ext i j
  simp [Spec.mat, toPlane]

theorem op_of_state (b : TomoBasis) (h : Spec.IsTomoBasis b.side b.data) (f : Plane)
    (hf : (Spec.mat b.side f).IsHermitian) :
    ∃ x, stateToModelparams b b.side f = .ok x ∧ x.length = b.data.length ∧
      Spec.op b.side b.data x = Spec.mat b.side f := by
  obtain ⟨x, h1, hx, -⟩ := C40_params_of_state b f
  obtain ⟨g, h2, h3⟩ := C40_state_round_trip b h f hf
  refine ⟨x, h1, hx, ?_⟩
  rw [h1] at h2
  have h4 : modelparamsToState b x = .ok g := h2
  rw [modelparamsToState, if_neg (by simpa using hx), Except.ok.injEq] at h4
  rw [← mat_opPlane _ _ _ hx, ← h3, ← h4]
  rfl

theorem psd_trace_real {d : Nat} {M : Matrix (Fin d) (Fin d) ℂ} (hM : M.PosSemidef) :
    0 ≤ trace M := hM.trace_nonneg

/-- C67: whatever positive operator of nonzero trace the sampler draws, the sample is the parameter
vector of the density operator proportional to it; its first entry is `1/√dim`. -/
theorem C67_density (b : TomoBasis) (h : Spec.IsTomoBasis b.side b.data) (hs : 0 < b.side)
    (M : Matrix (Fin b.side) (Fin b.side) ℂ) (hM : M.PosSemidef) (hM0 : M ≠ 0) :
    ∃ x, dmSample b M = .ok (some x) ∧ x.length = b.data.length ∧
      Spec.op b.side b.data x = (trace M)⁻¹ • M ∧ Spec.IsDensity (Spec.op b.side b.data x) ∧
      x.headD 0 = 1 / Real.sqrt b.side := by
  have ht : trace M ≠ 0 := fun h0 => hM0 (hM.trace_eq_zero_iff.1 h0)
  have hnn := hM.trace_nonneg
  have hpsd : ((trace M)⁻¹ • M).PosSemidef := by
    apply hM.smul
    rw [inv_nonneg]
    exact hnn
  obtain ⟨x, h1, h2, h3⟩ := op_of_state b h (toPlane ((trace M)⁻¹ • M)) (by
    rw [mat_toPlane]; exact hpsd.1)
  rw [mat_toPlane] at h3
  have htr : trace ((trace M)⁻¹ • M) = 1 := by
    rw [Matrix.trace_smul, smul_eq_mul, inv_mul_cancel₀ ht]
  refine ⟨x, ?_, h2, h3, ?_, ?_⟩
  · unfold dmSample
    rw [if_neg ht, h1]
    rfl
  · rw [h3]; exact ⟨hpsd, htr⟩
  · have := op_trace b.side b.data x h h2
    rw [h3, htr] at this
    have h5 : (1 : ℝ) = x.headD 0 * Real.sqrt b.side := by exact_mod_cast this
    have h6 : 0 < Real.sqrt b.side := Real.sqrt_pos.2 (by exact_mod_cast hs)
    rw [eq_div_iff h6.ne', ← h5]

/-- C67: `sample(n)` returns `n` such vectors. -/
theorem C67_samples (b : TomoBasis) (h : Spec.IsTomoBasis b.side b.data) (hs : 0 < b.side)
    (Ms : List (Matrix (Fin b.side) (Fin b.side) ℂ)) (hM : ∀ M ∈ Ms, M.PosSemidef ∧ M ≠ 0) :
    ∃ xs, dmSamples b Ms = .ok xs ∧ xs.length = Ms.length ∧
      ∀ y ∈ xs, ∃ x, y = some x ∧ x.length = b.data.length ∧
        Spec.IsDensity (Spec.op b.side b.data x) := by
  induction Ms with
  | nil => exact ⟨[], rfl, rfl, by simp⟩
  | cons M Ms ih =>
    obtain ⟨xs, h1, h2, h3⟩ := ih fun N hN => hM N (by simp [hN])
    obtain ⟨x, g1, g2, -, g3, -⟩ := C67_density b h hs M (hM M (by simp)).1 (hM M (by simp)).2
    refine ⟨some x :: xs, ?_, by simp [h2], ?_⟩
    · unfold dmSamples at h1 ⊢
      rw [List.mapM_cons, g1, h1]
      rfl
    · intro y hy
      rcases List.mem_cons.1 hy with rfl | hy
      · exact ⟨x, rfl, g2, g3⟩
      · exact h3 y hy

/-- C67: a real Ginibre sample is a real density operator of rank at most the number of columns;
without any nonzero variate (in particular for rank zero) the result is NaN. -/
theorem C67_ginibre_redit {N r : Nat} (X : Matrix (Fin N) (Fin r) ℝ) :
    (X ≠ 0 → ∃ ρ : Matrix (Fin N) (Fin N) ℂ, ginibreRedit X = some ρ ∧ Spec.IsDensity ρ ∧
      (∀ i j, (ρ i j).im = 0) ∧ ρ.rank ≤ r) ∧
    (X = 0 → ginibreRedit X = none) := by
  constructor
  · intro hX
    have hpsd : (X * Xᵀ).PosSemidef := by
      have := Matrix.posSemidef_self_mul_conjTranspose X
      rwa [Matrix.conjTranspose_eq_transpose_of_trivial] at this
    have hne : X * Xᵀ ≠ 0 := by
      intro h0
      apply hX
      have := (Matrix.self_mul_conjTranspose_eq_zero (A := X)).1
        (by rw [Matrix.conjTranspose_eq_transpose_of_trivial]; exact h0)
      exact this
    have ht : trace (X * Xᵀ) ≠ 0 := fun h0 => hne (hpsd.trace_eq_zero_iff.1 h0)
    have hpos : 0 < trace (X * Xᵀ) := lt_of_le_of_ne hpsd.trace_nonneg ht.symm
    -- the complex matrix as a product
    set c : ℂ := ((trace (X * Xᵀ) : ℝ) : ℂ) with hc
    set Y : Matrix (Fin N) (Fin r) ℂ := X.map fun x => (x : ℂ) with hY
    have hYY : ((trace (X * Xᵀ))⁻¹ • (X * Xᵀ)).map (fun x => (x : ℂ)) = c⁻¹ • (Y * Yᴴ) := by
      ext i j
      simp only [Matrix.map_apply, Matrix.smul_apply, Matrix.mul_apply, hY, hc, smul_eq_mul,
        Matrix.conjTranspose_apply, Complex.star_def, Complex.conj_ofReal, Matrix.transpose_apply]
      push_cast
      rfl
    have hc0 : 0 ≤ c⁻¹ := by
      rw [inv_nonneg, hc, Complex.zero_le_real]; exact hpos.le
    refine ⟨_, by rw [ginibreRedit, if_neg ht], ⟨?_, ?_⟩, ?_, ?_⟩
    · rw [hYY]; exact (Matrix.posSemidef_self_mul_conjTranspose Y).smul hc0
    · have : trace (((trace (X * Xᵀ))⁻¹ • (X * Xᵀ)).map fun x => (x : ℂ)) =
          (((trace (X * Xᵀ))⁻¹ * trace (X * Xᵀ) : ℝ) : ℂ) := by
        rw [← smul_eq_mul, ← Matrix.trace_smul]
        simp [Matrix.trace]
      rw [this, inv_mul_cancel₀ ht]
      simp
    · intro i j
      simp only [Matrix.map_apply, Complex.ofReal_im]
    · rw [hYY, ← Matrix.smul_mul]
      exact (Matrix.rank_mul_le_left _ _).trans ((Matrix.rank_le_width _))
  · rintro rfl
    unfold ginibreRedit
    dsimp only
    rw [if_pos (by simp)]

/-- C67: the default rank is the dimension; `GinibreDistribution` refuses a rank above it. -/
theorem C67_ranks (N : Nat) :
    rediRank N none = N ∧ (∀ r, rediRank N (some r) = r) ∧ ginibreInit N none = .ok none ∧
    (∀ r : Int, r ≤ N → ginibreInit N (some r) = .ok (some r)) ∧
    (∀ r : Int, (N : Int) < r → ginibreInit N (some r) = .error .valueError) := by
  refine ⟨rfl, fun r => rfl, rfl, fun r h => ?_, fun r h => ?_⟩
  · simp only [ginibreInit]; rw [if_neg (by omega)]
  · simp only [ginibreInit]; rw [if_pos h]

/-- C67: `TensorProductDistribution` cannot be constructed: its generator of bases is taken for a
basis.  Passing the bases one by one, as the documentation of `tensor_product_basis` says, works. -/
theorem C67_tensor_product_fails (bs : List TomoBasis) :
    tensorProductDistInit bs = .error .attributeError ∧
      tensorProductBasisPy (bs.map .basis) = tensorProductBasis bs := by
  refine ⟨rfl, ?_⟩
  unfold tensorProductBasisPy
  have : (bs.map BasisArg.basis).mapM BasisArg.get = .ok bs := by
    induction bs with
    | nil => rfl
    | cons b bs ih => rw [List.map_cons, List.mapM_cons, ih]; rfl
  rw [this]
  rfl

/-- Case for C67: a rank-one sample in dimension two. -/
example : ∃ ρ, ginibreRedit (!![3; 4] : Matrix (Fin 2) (Fin 1) ℝ) = some ρ ∧ Spec.IsDensity ρ := by
  obtain ⟨ρ, h1, h2, -⟩ := (C67_ginibre_redit (!![3; 4] : Matrix (Fin 2) (Fin 1) ℝ)).1 (by
    intro h
    have := congrFun (congrFun h 0) 0
    norm_num at this)
  exact ⟨ρ, h1, h2⟩

/-! ## C68: the GADFLI prior -/

/-- `lam` is the smallest eigenvalue of `M`. -/
structure Spec.IsMinEig {d : Nat} (M : Matrix (Fin d) (Fin d) ℂ) (lam : ℝ) : Prop where
  lower : (M - (lam : ℂ) • 1).PosSemidef
  attained : ∃ v : Fin d → ℂ, v ≠ 0 ∧ M *ᵥ v = (lam : ℂ) • v

theorem minEig_le {d : Nat} (M : Matrix (Fin d) (Fin d) ℂ) (lam : ℝ) (h : Spec.IsMinEig M lam)
    (ht : trace M = 1) : d * lam ≤ 1 := by
  have := h.lower.trace_nonneg
  rw [Matrix.trace_sub, ht, Matrix.trace_smul, Matrix.trace_one, smul_eq_mul, Fintype.card_fin] at this
  have h2 : (0 : ℂ) ≤ ((1 - lam * d : ℝ) : ℂ) := by push_cast; exact this
  rw [Complex.zero_le_real] at h2
  linarith

/-- C68: for a full-rank mean other than the maximally mixed state, in dimension two or more, the
construction succeeds.  `ρ*` is a density operator on the boundary of state space, and every sample
made from a fiducial density operator and `0 ≤ ε ≤ 1` is a density operator. -/
theorem C68_samples {d : Nat} (hd : 2 ≤ d) (mean : Matrix (Fin d) (Fin d) ℂ) (lam : ℝ)
    (hm : Spec.IsDensity mean) (hl : Spec.IsMinEig mean lam) (h0 : 0 < lam) (h1 : d * lam < 1) :
    ∃ (g : Gadfli d) (beta : ℝ) (star : Matrix (Fin d) (Fin d) ℂ),
      gadfliInit mean lam = .ok g ∧ g.beta = some beta ∧ g.rhoStar = some star ∧ 0 < beta ∧
      Spec.IsDensity star ∧ (∃ v : Fin d → ℂ, v ≠ 0 ∧ star *ᵥ v = 0) ∧
      ∀ fid eps, Spec.IsDensity fid → 0 ≤ eps → eps ≤ 1 →
        ∃ ρ, gadfliSample g fid eps = .ok (some ρ) ∧ Spec.IsDensity ρ := by
  have hd' : (2 : ℝ) ≤ d := by exact_mod_cast hd
  have hhalf : ¬ 1 / 2 < lam := by
    intro h
    nlinarith
  have hne : 1 - d * lam ≠ 0 := by linarith
  set beta := d * lam / (1 - d * lam) with hb
  have hbpos : 0 < beta := by
    rw [hb]; apply div_pos <;> nlinarith
  have hbeta : gadfliBeta d lam = some beta := by
    rw [gadfliBeta, if_neg hhalf, if_neg hne]
  have hdC : (d : ℂ) ≠ 0 := by
    have : d ≠ 0 := by omega
    exact_mod_cast this
  have hdR : (d : ℝ) ≠ 0 := by linarith
  -- the state `ρ*`
  set star : Matrix (Fin d) (Fin d) ℂ := (((1 + beta : ℝ) / 1 : ℂ)) •
    (mean - ((beta / (1 + beta) : ℝ) : ℂ) • ((1 / (d : ℂ)) • (1 : Matrix (Fin d) (Fin d) ℂ))) with hstar
  have hinit : gadfliInit mean lam = .ok ⟨some beta, some star⟩ := by
    unfold gadfliInit
    rw [if_neg (not_lt.2 h0.le), hbeta]
    dsimp only
    rw [if_neg (not_lt.2 hbpos.le)]
  have hkey : beta / (1 + beta) / d = lam := by
    rw [hb]
    field_simp
    ring
  have hs2 : star = ((1 + beta : ℝ) : ℂ) • (mean - (lam : ℂ) • 1) := by
    rw [hstar, div_one, smul_smul]
    congr 3
    rw [mul_one_div, ← hkey]
    push_cast
    rfl
  have hdens : Spec.IsDensity star := by
    constructor
    · rw [hs2]
      exact hl.lower.smul (by rw [Complex.zero_le_real]; linarith)
    · rw [hs2, Matrix.trace_smul, Matrix.trace_sub, hm.2, Matrix.trace_smul, Matrix.trace_one,
        Fintype.card_fin, smul_eq_mul, smul_eq_mul]
      have : (1 + beta) * (1 - lam * d) = 1 := by
        rw [hb]
        field_simp
        ring
      exact_mod_cast this
  refine ⟨_, beta, star, hinit, rfl, rfl, hbpos, hdens, ?_, ?_⟩
  · obtain ⟨v, hv, hev⟩ := hl.attained
    refine ⟨v, hv, ?_⟩
    rw [hs2, Matrix.smul_mulVec, Matrix.sub_mulVec, hev, Matrix.smul_mulVec, Matrix.one_mulVec,
      sub_self, smul_zero]
  · intro fid eps hf e0 e1
    refine ⟨_, by
      unfold gadfliSample
      dsimp only
      rw [if_neg (not_le.2 hbpos)]
      rfl, ?_, ?_⟩
    · exact (hf.1.smul (by rw [Complex.zero_le_real]; linarith)).add
        (hdens.1.smul (by rw [Complex.zero_le_real]; exact e0))
    · rw [Matrix.trace_add, Matrix.trace_smul, Matrix.trace_smul, hf.2, hdens.2]
      simp

/-- The mean of a beta distribution. -/
theorem fiducial_beta_mean (a b : ℝ) (ha : 0 < a) (hb : 0 < b) :
    ∫ x, x ∂(ProbabilityTheory.betaMeasure a b) = a / (a + b) := by
  open ProbabilityTheory MeasureTheory in
  have ha1 : 0 < a + 1 := by linarith
  have hnn : ∀ c d x, 0 < c → 0 < d → 0 ≤ betaPDFReal c d x := by
    intro c d x hc hd
    by_cases hx : 0 < x ∧ x < 1
    · exact (betaPDFReal_pos hx.1 hx.2 hc hd).le
    · rw [betaPDFReal, if_neg hx]
  have hone : ∫ x, betaPDFReal (a + 1) b x = 1 := by
    rw [integral_eq_lintegral_of_nonneg_ae (Filter.Eventually.of_forall fun x => hnn _ _ x ha1 hb)
      (measurable_betaPDFReal _ _).aestronglyMeasurable]
    have := lintegral_betaPDF_eq_one ha1 hb
    unfold betaPDF at this
    rw [this, ENNReal.toReal_one]
  unfold betaMeasure
  rw [integral_withDensity_eq_integral_toReal_smul (by unfold betaPDF; fun_prop)
    (Filter.Eventually.of_forall fun x => by unfold betaPDF; exact ENNReal.ofReal_lt_top)]
  have hpt : ∀ x, (betaPDF a b x).toReal • x = a / (a + b) * betaPDFReal (a + 1) b x := by
    intro x
    unfold betaPDF
    rw [ENNReal.toReal_ofReal (hnn _ _ x ha hb), smul_eq_mul]
    unfold betaPDFReal
    by_cases hx : 0 < x ∧ x < 1
    · rw [if_pos hx, if_pos hx]
      have h1 : x ^ (a + 1 - 1) = x ^ (a - 1) * x := by
        rw [← Real.rpow_add_one hx.1.ne']; ring_nf
      have h2 : 1 / beta (a + 1) b = (a + b) / a * (1 / beta a b) := by
        unfold beta
        have g1 := Real.Gamma_add_one ha.ne'
        have g2 := Real.Gamma_add_one (s := a + b) (by positivity)
        rw [show a + 1 + b = a + b + 1 by ring, g1, g2]
        have p1 := Real.Gamma_pos_of_pos ha
        have p2 := Real.Gamma_pos_of_pos hb
        have p3 := Real.Gamma_pos_of_pos (add_pos ha hb)
        field_simp
      rw [h1, h2]
      have : a + b ≠ 0 := by positivity
      field_simp
    · rw [if_neg hx, if_neg hx]; simp
  simp only [hpt]
  rw [integral_const_mul, hone, mul_one]

theorem integrable_id_beta (a b : ℝ) (ha : 0 < a) (hb : 0 < b) :
    MeasureTheory.Integrable (fun x : ℝ => x) (ProbabilityTheory.betaMeasure a b) := by
  by_contra h
  have := fiducial_beta_mean a b ha hb
  rw [MeasureTheory.integral_undef h] at this
  have h2 : 0 < a / (a + b) := by positivity
  linarith

/-- C68: the mean of the samples is the prescribed state: `ε` is drawn from the beta distribution
with parameters 1 and `beta`, independently of a fiducial sample whose mean is maximally mixed. -/
theorem C68_mean {d : Nat} (hd : 2 ≤ d) (mean : Matrix (Fin d) (Fin d) ℂ) (lam : ℝ)
    (hm : Spec.IsDensity mean) (hl : Spec.IsMinEig mean lam) (h0 : 0 < lam) (h1 : d * lam < 1)
    {Ω : Type} [MeasurableSpace Ω] (ν : MeasureTheory.Measure Ω)
    [MeasureTheory.IsProbabilityMeasure ν] (fid : Ω → Matrix (Fin d) (Fin d) ℂ)
    (hint : ∀ i j, MeasureTheory.Integrable (fun ω => fid ω i j) ν)
    (hfid : ∀ i j, ∫ ω, fid ω i j ∂ν = ((1 / (d : ℂ)) • (1 : Matrix (Fin d) (Fin d) ℂ)) i j) :
    ∃ (g : Gadfli d) (beta : ℝ), gadfliInit mean lam = .ok g ∧ g.beta = some beta ∧
      ∃ S : ℝ → Ω → Matrix (Fin d) (Fin d) ℂ,
        (∀ eps ω, gadfliSample g (fid ω) eps = .ok (some (S eps ω))) ∧
        ∀ i j, ∫ eps, ∫ ω, S eps ω i j ∂ν ∂(ProbabilityTheory.betaMeasure 1 beta) = mean i j := by
  obtain ⟨g, beta, star, e1, e2, e3, hb, -⟩ := C68_samples hd mean lam hm hl h0 h1
  refine ⟨g, beta, e1, e2, fun eps ω => ((1 - eps : ℝ) : ℂ) • fid ω + (eps : ℂ) • star, ?_, ?_⟩
  · intro eps ω
    unfold gadfliSample
    rw [e2]
    dsimp only
    rw [if_neg (not_le.2 hb), e3]
    rfl
  · intro i j
    have hin : ∀ eps : ℝ, ∫ ω, (((1 - eps : ℝ) : ℂ) • fid ω + (eps : ℂ) • star) i j ∂ν =
        ((1 - eps : ℝ) : ℂ) * ((1 / (d : ℂ)) • (1 : Matrix (Fin d) (Fin d) ℂ)) i j +
          (eps : ℂ) * star i j := by
      intro eps
      simp only [Matrix.add_apply, Matrix.smul_apply _ (fid _), Matrix.smul_apply _ star, smul_eq_mul]
      rw [MeasureTheory.integral_add ((hint i j).const_mul _) (MeasureTheory.integrable_const _),
        MeasureTheory.integral_const_mul, hfid]
      simp
    simp only [hin]
    have hstar : star = ((1 + beta : ℝ) : ℂ) •
        (mean - ((beta / (1 + beta) : ℝ) : ℂ) • ((1 / (d : ℂ)) • (1 : Matrix (Fin d) (Fin d) ℂ))) := by
      unfold gadfliInit at e1
      rw [if_neg (not_lt.2 h0.le)] at e1
      cases hbeta : gadfliBeta d lam with
      | none =>
        rw [hbeta] at e1
        dsimp only at e1
        rw [Except.ok.injEq] at e1
        rw [← e1] at e2
        cases e2
      | some b' =>
        rw [hbeta] at e1
        dsimp only at e1
        by_cases hb' : b' < 0
        · rw [if_pos hb'] at e1; cases e1
        · rw [if_neg hb', Except.ok.injEq] at e1
          rw [← e1] at e2 e3
          dsimp only at e2 e3
          rw [Option.some.injEq] at e2 e3
          rw [← e3, e2, div_one]
    haveI := ProbabilityTheory.isProbabilityMeasureBeta (α := 1) (β := beta) one_pos hb
    have hI : MeasureTheory.Integrable (fun x : ℝ => (x : ℂ)) (ProbabilityTheory.betaMeasure 1 beta) :=
      (integrable_id_beta 1 beta one_pos hb).ofReal
    set c : ℂ := ((1 / (d : ℂ)) • (1 : Matrix (Fin d) (Fin d) ℂ)) i j with hc
    have hrw : ∀ eps : ℝ, ((1 - eps : ℝ) : ℂ) * c + (eps : ℂ) * star i j =
        c + (eps : ℂ) * (star i j - c) := fun eps => by push_cast; ring
    simp only [hrw]
    rw [MeasureTheory.integral_add (MeasureTheory.integrable_const _) (hI.mul_const _),
      MeasureTheory.integral_mul_const, integral_complex_ofReal, fiducial_beta_mean 1 beta one_pos hb]
    have hsij : star i j = ((1 + beta : ℝ) : ℂ) * (mean i j - ((beta / (1 + beta) : ℝ) : ℂ) * c) := by
      rw [hstar, Matrix.smul_apply, Matrix.sub_apply, Matrix.smul_apply, smul_eq_mul, smul_eq_mul]
    rw [hsij]
    have hne : ((1 : ℂ) + (beta : ℂ)) ≠ 0 := by
      have : (1 + beta : ℝ) ≠ 0 := by positivity
      exact_mod_cast this
    simp only [MeasureTheory.integral_const, MeasureTheory.probReal_univ, one_smul]
    push_cast
    field_simp
    ring

/-- C68: the remaining means.  Negative eigenvalues are refused.  With a singular mean (such as a pure
state) the construction succeeds but every sample raises `ValueError`; for the maximally mixed state
every sample is NaN. -/
theorem C68_degenerate {d : Nat} (mean : Matrix (Fin d) (Fin d) ℂ) :
    (∀ lam < 0, gadfliInit mean lam = .error .valueError) ∧
    (∃ g, gadfliInit mean 0 = .ok g ∧
      ∀ fid eps, gadfliSample g fid eps = .error .valueError) ∧
    (∀ lam : ℝ, 0 < d → d * lam = 1 → ∃ g, gadfliInit mean lam = .ok g ∧
      ∀ fid eps, gadfliSample g fid eps = .ok none) := by
  refine ⟨fun lam h => by rw [gadfliInit, if_pos h], ?_, ?_⟩
  · refine ⟨_, by
      unfold gadfliInit
      rw [if_neg (lt_irrefl _)]
      have : gadfliBeta d 0 = some 0 := by
        rw [gadfliBeta, if_neg (by norm_num), if_neg (by norm_num)]
        simp
      rw [this]
      dsimp only
      rw [if_neg (lt_irrefl _)], fun fid eps => ?_⟩
    unfold gadfliSample
    dsimp only
    rw [if_pos le_rfl]
  · intro lam hd h
    have hl : ¬ lam < 0 := by
      intro hl
      have : (0 : ℝ) < d := by exact_mod_cast hd
      nlinarith
    refine ⟨⟨none, none⟩, ?_, fun fid eps => rfl⟩
    unfold gadfliInit
    rw [if_neg hl]
    have : gadfliBeta d lam = none := by
      unfold gadfliBeta
      rw [if_pos (show d * lam - 1 = 0 by rw [h]; norm_num),
        if_pos (show 1 - d * lam = 0 by rw [h]; norm_num), ite_self]
    rw [this]

/-- Case for C68: the qubit mean `diag(3/4, 1/4)`. -/
example : Spec.IsDensity (diagonal ![3/4, 1/4] : Matrix (Fin 2) (Fin 2) ℂ) ∧
    Spec.IsMinEig (diagonal ![3/4, 1/4] : Matrix (Fin 2) (Fin 2) ℂ) (1/4) := by
  refine ⟨⟨?_, ?_⟩, ?_, ?_⟩
  · refine PosSemidef.diagonal fun k => ?_
    fin_cases k <;> norm_num [Complex.le_def]
  · rw [Matrix.trace_diagonal]; simp [Fin.sum_univ_two]; norm_num
  · have : (diagonal ![3/4, 1/4] : Matrix (Fin 2) (Fin 2) ℂ) - ((1/4 : ℝ) : ℂ) • 1 =
        diagonal ![1/2, 0] := by
      ext i j; fin_cases i <;> fin_cases j <;> norm_num
    rw [this]
    refine PosSemidef.diagonal fun k => ?_
    fin_cases k <;> norm_num [Complex.le_def]
  · refine ⟨![0, 1], fun h => ?_, ?_⟩
    · have := congrFun h 1
      norm_num at this
    · funext k
      rw [Matrix.mulVec_diagonal]
      fin_cases k <;> norm_num

/-! ## C69: random Pauli measurements -/

theorem pairList_square (m p : Nat) (F G : List Plane)
    (hF : ∀ f ∈ F, Spec.mat m f * Spec.mat m f = (1 / (m : ℂ)) • 1)
    (hG : ∀ g ∈ G, Spec.mat p g * Spec.mat p g = (1 / (p : ℂ)) • 1) :
    ∀ f ∈ pairList p F G,
      Spec.mat (m * p) f * Spec.mat (m * p) f = (1 / ((m * p : Nat) : ℂ)) • 1 := by
  intro x hx
  unfold pairList at hx
  obtain ⟨f, hf, hx⟩ := List.mem_flatMap.1 hx
  obtain ⟨g, hg, rfl⟩ := List.mem_map.1 hx
  rw [mat_kron, Matrix.reindex_apply, Matrix.submatrix_mul_equiv, ← Matrix.mul_kronecker_mul, hF f hf,
    hG g hg, Matrix.smul_kronecker, Matrix.kronecker_smul, smul_smul, Matrix.one_kronecker_one,
    Matrix.submatrix_smul]
  change (1 / (m : ℂ) * (1 / (p : ℂ))) • submatrix 1 finProdFinEquiv.symm finProdFinEquiv.symm = _
  rw [Matrix.submatrix_one_equiv]
  congr 1
  push_cast
  rw [div_mul_div_comm, one_mul]

theorem tensorPlanes_square (b : TomoBasis) (bs : List TomoBasis)
    (h : ∀ c ∈ b :: bs, ∀ f ∈ c.data, Spec.mat c.side f * Spec.mat c.side f = (1 / (c.side : ℂ)) • 1) :
    ∀ f ∈ (tensorPlanes b bs).2, Spec.mat (tensorPlanes b bs).1 f * Spec.mat (tensorPlanes b bs).1 f =
      (1 / ((tensorPlanes b bs).1 : ℂ)) • 1 := by
  induction bs using List.reverseRecOn with
  | nil => exact h b (by simp)
  | append_singleton bs c ih =>
    have h2 : tensorPlanes b (bs ++ [c]) = ((tensorPlanes b bs).1 * c.side,
        pairList c.side (tensorPlanes b bs).2 c.data) := by
      unfold tensorPlanes; rw [List.foldl_append]; rfl
    rw [h2]
    refine pairList_square _ _ _ _ (ih fun x hx => h x ?_) (h c (by simp))
    simp only [List.mem_cons, List.mem_append] at hx ⊢
    tauto

theorem pauliMat_sq (a : Fin 4) : pauliMat a * pauliMat a = 1 := by
  fin_cases a <;>
  · ext i j
    fin_cases i <;> fin_cases j <;> simp [pauliMat]

/-- Every element of the Pauli basis squares to `1 / 2ⁿ`. -/
theorem pauli_square (nq : Nat) (hq : 0 < nq) (t : TomoBasis) (ht : pauliBasis nq = .ok t) :
    ∀ f ∈ t.data, Spec.mat (2 ^ nq) f * Spec.mat (2 ^ nq) f = (1 / ((2 ^ nq : Nat) : ℂ)) • 1 := by
  obtain ⟨one, h1, hs1, -, hT1, -, hel⟩ := C40_pauli 1 one_pos
  obtain ⟨-, hel⟩ := hel rfl
  have hone : ∀ f ∈ one.data, Spec.mat one.side f * Spec.mat one.side f = (1 / (one.side : ℂ)) • 1 := by
    intro f hf
    obtain ⟨a, ha, rfl⟩ := List.getElem_of_mem hf
    have hlen : one.data.length = 4 := by rw [hT1.len]; norm_num
    rw [hs1, pow_one]
    have : Spec.mat 2 one.data[a] = (1 / (Real.sqrt 2 : ℂ)) • pauliMat ⟨a, by omega⟩ :=
      hel ⟨a, by omega⟩ ha
    rw [this, Matrix.smul_mul, Matrix.mul_smul, smul_smul, pauliMat_sq, inv_sqrt_two_mul]
    norm_num
  obtain ⟨gm, ps, g1, g2, g3⟩ := pauli_planes
  set o : TomoBasis := tomoBasisInit ps 2 [2] (.list ["𝟙", "\\sigma_x", "\\sigma_y", "\\sigma_z"]) with ho
  have hp : ∀ n : Nat, pauliBasis n = tensorProductBasis (List.replicate n o) := by
    intro n
    unfold pauliBasis
    rw [g1]
    dsimp only [bind, Except.bind]
    rw [g2]
    rfl
  have hlen : o.data.length = o.side * o.side := by
    have := pauli_one_isTomoBasis.len
    rw [← g3] at this
    exact this
  have e1 := tensorProductBasis_eq o [] (by
    intro c hc
    rw [List.mem_singleton] at hc
    rw [hc]; exact hlen)
  have h1' := hp 1
  rw [show List.replicate 1 o = [o] from rfl, e1, h1, Except.ok.injEq] at h1'
  have hdata : one.data = o.data := by rw [h1']; rfl
  have hside : one.side = o.side := by rw [hs1]; rfl
  rw [hdata, hside] at hone
  obtain ⟨n, rfl⟩ : ∃ n, nq = n + 1 := ⟨nq - 1, by omega⟩
  have hrep : List.replicate (n + 1) o = o :: List.replicate n o := rfl
  have hall : ∀ c ∈ o :: List.replicate n o, c = o := by
    intro c hc
    rw [← hrep] at hc
    exact List.eq_of_mem_replicate hc
  have e2 := tensorProductBasis_eq o (List.replicate n o) (by
    intro c hc
    rw [hall c hc]; exact hlen)
  rw [hp (n + 1), hrep, e2, Except.ok.injEq] at ht
  have hsq := tensorPlanes_square o (List.replicate n o) (by
    intro c hc
    rw [hall c hc]; exact hone)
  have hsd : (tensorPlanes o (List.replicate n o)).1 = 2 ^ (n + 1) := by
    rw [tensorPlanes_side, ← hrep, List.map_replicate, List.prod_replicate]; rfl
  rw [← ht]
  rw [hsd] at hsq
  exact hsq

/-- C69: on `n ≥ 1` qubits, the measurement drawn by `RandomPauliHeuristic` is, for each of the
`4ⁿ - 1` choices, a Hermitian projector onto half of the space, namely `(1 + P)/2` for the Pauli
operator `P = √d B`. -/
theorem C69_projector (nq : Nat) (hq : 0 < nq) :
    ∃ t, randomPauliInit (2 ^ nq) = .ok (nq, t) ∧ t.data.length = 4 ^ nq ∧
      ∀ c, (hc : 1 + c < t.data.length) → ∃ m, randomPauliMeas (2 ^ nq) t c = .ok m ∧
        (Spec.mat (2 ^ nq) m).IsHermitian ∧
        Spec.mat (2 ^ nq) m * Spec.mat (2 ^ nq) m = Spec.mat (2 ^ nq) m ∧
        trace (Spec.mat (2 ^ nq) m) = 2 ^ nq / 2 ∧
        Spec.mat (2 ^ nq) m =
          (1 / 2 : ℂ) • (1 + (Real.sqrt (2 ^ nq : Nat) : ℂ) • Spec.mat (2 ^ nq) t.data[1 + c]) := by
  obtain ⟨t, ht, hs, -, hT, -⟩ := C40_pauli nq hq
  have hsq := pauli_square nq hq t ht
  have hlen : t.data.length = 4 ^ nq := by rw [hT.len, ← mul_pow]; norm_num
  refine ⟨t, ?_, hlen, ?_⟩
  · unfold randomPauliInit
    dsimp only
    rw [Nat.log_pow (by norm_num), if_neg (by simp), ht]
    rfl
  · intro c hc
    have h0 : 0 < t.data.length := by omega
    refine ⟨fun i j => (t.data[0] i j + t.data[1 + c] i j) * (Real.sqrt (2 ^ nq : Nat) : ℂ) / 2, ?_, ?_⟩
    · unfold randomPauliMeas
      rw [List.getElem?_eq_getElem h0, List.getElem?_eq_getElem hc]
    set d : Nat := 2 ^ nq with hd
    have hdpos : 0 < d := by positivity
    set r : ℂ := (Real.sqrt (d : Nat) : ℂ) with hr
    have hrr : r * r = d := by
      rw [hr, ← Complex.ofReal_mul, Real.mul_self_sqrt (by positivity)]; simp
    have hr0 : r ≠ 0 := by
      intro h
      rw [h, zero_mul] at hrr
      have : (d : ℂ) ≠ 0 := by exact_mod_cast hdpos.ne'
      exact this hrr.symm
    set B := Spec.mat d t.data[1 + c] with hB
    have hB2 : B * B = (1 / (d : ℂ)) • 1 := hsq _ (List.getElem_mem _)
    have hBh : B.IsHermitian := hT.herm _ (List.getElem_mem _)
    have hBt : trace B = 0 := C40_traceless d t.data hT (1 + c) hc (by omega)
    have hm : Spec.mat d (fun i j => (t.data[0] i j + t.data[1 + c] i j) * r / 2) =
        (1 / 2 : ℂ) • (1 + r • B) := by
      have hfirst := hT.first h0
      ext i j
      have hij := congrFun (congrFun hfirst i) j
      simp only [Spec.mat, Matrix.of_apply] at hij
      simp only [Spec.mat, Matrix.of_apply, Matrix.smul_apply, Matrix.add_apply, hB, smul_eq_mul]
      rw [hij, Matrix.smul_apply, smul_eq_mul]
      have : ((1 / Real.sqrt d : ℝ) : ℂ) = 1 / r := by rw [hr]; push_cast; rfl
      rw [this]
      field_simp
    rw [hm]
    have hrstar : star r = r := by rw [hr, Complex.star_def, Complex.conj_ofReal]
    refine ⟨?_, ?_, ?_, rfl⟩
    · unfold Matrix.IsHermitian
      rw [Matrix.conjTranspose_smul, Matrix.conjTranspose_add, Matrix.conjTranspose_one,
        Matrix.conjTranspose_smul, hBh.eq, hrstar]
      congr 1
      simp
    · have hrB : (r • B) * (r • B) = 1 := by
        rw [Matrix.smul_mul, Matrix.mul_smul, smul_smul, hB2, smul_smul, hrr, mul_one_div,
          div_self (by exact_mod_cast hdpos.ne'), one_smul]
      have e : (1 + r • B) * (1 + r • B) = (2 : ℂ) • (1 + r • B) := by
        rw [Matrix.add_mul, Matrix.one_mul, Matrix.mul_add, hrB, Matrix.mul_one, two_smul]
        abel
      rw [Matrix.smul_mul, Matrix.mul_smul, smul_smul, e, smul_smul]
      norm_num
    · rw [Matrix.trace_smul, Matrix.trace_add, Matrix.trace_one, Matrix.trace_smul, hBt,
        Fintype.card_fin, hd]
      simp
      ring

/-- C69: the heuristic is refused for a dimension that is not a power of two, and on a
one-dimensional space building the Pauli basis fails. -/
theorem C69_refused (dim : Nat) :
    ((∀ n, dim ≠ 2 ^ n) → randomPauliInit dim = .error .valueError) ∧
    randomPauliInit 1 = .error .typeError := by
  constructor
  · intro h
    unfold randomPauliInit
    dsimp only
    rw [if_pos fun e => h _ e.symm]
  · obtain ⟨-, -, h⟩ := C40_no_factors.2 0 le_rfl
    unfold randomPauliInit
    dsimp only
    rw [show Nat.log 2 1 = 0 from by simp, if_neg (by simp), Nat.cast_zero, h]
    rfl

/-- On two qubits there are fifteen such measurements, each a projector onto a plane. -/
example : ∃ t, randomPauliInit 4 = .ok (2, t) ∧
    ∀ c, c < 15 → ∃ m, randomPauliMeas 4 t c = .ok m ∧ (Spec.mat 4 m).IsHermitian ∧
      Spec.mat 4 m * Spec.mat 4 m = Spec.mat 4 m ∧ trace (Spec.mat 4 m) = 2 := by
  obtain ⟨t, h1, h2, h3⟩ := C69_projector 2 (by norm_num)
  refine ⟨t, h1, fun c hc => ?_⟩
  obtain ⟨m, g1, g2, g3, g4, -⟩ := h3 c (by rw [h2]; omega)
  exact ⟨m, g1, g2, g3, by rw [show trace (Spec.mat 4 m) = _ from g4]; norm_num⟩

/-- Three-level systems are refused. -/
example : randomPauliInit 3 = .error .valueError :=
  (C69_refused 3).1 fun n h => by
    rcases n with _ | _ | n
    · simp at h
    · simp at h
    · have : 4 ≤ 2 ^ (n + 2) := by
        rw [pow_add]; have := Nat.one_le_two_pow (n := n); omega
      omega

end QInfer
