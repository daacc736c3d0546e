import Verif.Props.InfoComplete
import Verif.Props.TomoHeur

/-!
# C140, continued: stabilizer measurements determine a state
-/

namespace QInfer

open Matrix
open scoped BigOperators ComplexOrder

section
variable {d : ℕ}

/-! ## Real and complex spans -/

/-- A Hermitian operator in the complex span of Hermitian operators is in their real span. -/
theorem real_span_of_complex (S : Set (Matrix (Fin d) (Fin d) ℂ)) (hS : ∀ A ∈ S, A.IsHermitian)
    (H : Matrix (Fin d) (Fin d) ℂ) (hH : H.IsHermitian) (hmem : H ∈ Submodule.span ℂ S) :
    H ∈ Submodule.span ℝ S := by
  have key : ∀ A ∈ Submodule.span ℂ S, A + Aᴴ ∈ Submodule.span ℝ S ∧
      Complex.I • (A - Aᴴ) ∈ Submodule.span ℝ S := by
    intro A hA
    induction hA using Submodule.span_induction with
    | mem A hA =>
      have hm : A ∈ Submodule.span ℝ S := Submodule.subset_span hA
      rw [(hS A hA).eq, sub_self, smul_zero]
      exact ⟨Submodule.add_mem _ hm hm, Submodule.zero_mem _⟩
    | zero => simp
    | add A B _ _ hA hB =>
      refine ⟨?_, ?_⟩
      · rw [conjTranspose_add, show A + B + (Aᴴ + Bᴴ) = (A + Aᴴ) + (B + Bᴴ) from by abel]
        exact Submodule.add_mem _ hA.1 hB.1
      · rw [conjTranspose_add, show A + B - (Aᴴ + Bᴴ) = (A - Aᴴ) + (B - Bᴴ) from by abel, smul_add]
        exact Submodule.add_mem _ hA.2 hB.2
    | smul c A _ hA =>
      have hcs : ∀ (r : ℝ) (B : Matrix (Fin d) (Fin d) ℂ), r • B = (r : ℂ) • B := fun r B => by
        ext i j; simp
      have h1 : c • A + (c • A)ᴴ = c.re • (A + Aᴴ) + c.im • (Complex.I • (A - Aᴴ)) := by
        rw [hcs, hcs, conjTranspose_smul]
        ext i j
        simp only [Matrix.add_apply, Matrix.smul_apply, Matrix.sub_apply, smul_eq_mul, conjTranspose_apply]
        conv_lhs => rw [← Complex.re_add_im c]
        simp only [Complex.star_def, map_add, map_mul, Complex.conj_ofReal, Complex.conj_I]
        ring
      have h2 : Complex.I • (c • A - (c • A)ᴴ) = c.re • (Complex.I • (A - Aᴴ)) - c.im • (A + Aᴴ) := by
        rw [hcs, hcs, conjTranspose_smul]
        ext i j
        simp only [Matrix.add_apply, Matrix.smul_apply, Matrix.sub_apply, smul_eq_mul, conjTranspose_apply]
        conv_lhs => rw [← Complex.re_add_im c]
        simp only [Complex.star_def, map_add, map_mul, Complex.conj_ofReal, Complex.conj_I]
        linear_combination (c.im * (A i j + (starRingEnd ℂ) (A j i))) * Complex.I_sq
      rw [h1, h2]
      exact ⟨Submodule.add_mem _ (Submodule.smul_mem _ _ hA.1) (Submodule.smul_mem _ _ hA.2),
        Submodule.sub_mem _ (Submodule.smul_mem _ _ hA.2) (Submodule.smul_mem _ _ hA.1)⟩
  have h1 := Submodule.smul_mem _ (1 / 2 : ℝ) (key H hmem).1
  rw [hH.eq] at h1
  convert h1 using 1
  ext i j
  simp
  ring

theorem spansHermitian_of_span {nE : ℕ} (M : Fin nE → Matrix (Fin d) (Fin d) ℂ)
    (hM : ∀ e, (M e).IsHermitian) (h : ∀ A, A ∈ Submodule.span ℂ (insert 1 (Set.range M))) :
    Spec.SpansHermitian M := by
  intro H hH
  have h1 := real_span_of_complex _ (by
    rintro A (rfl | ⟨e, rfl⟩)
    · exact isHermitian_one
    · exact hM e) H hH (h H)
  obtain ⟨c₀, B, hB, rfl⟩ := Submodule.mem_span_insert.mp h1
  obtain ⟨c, rfl⟩ := (Submodule.mem_span_range_iff_exists_fun ℝ).mp hB
  refine ⟨c₀, c, ?_⟩
  congr 1

/-! ## Eigenvectors -/

/-- An operator with an orthonormal basis of eigenvectors is a combination of the projectors onto them. -/
theorem eigen_combination (W : Matrix (Fin d) (Fin d) ℂ) (u : Fin d → Fin d → ℂ) (lam : Fin d → ℂ)
    (hu : ∀ k, W *ᵥ u k = lam k • u k) (ho : ∀ k l, star (u k) ⬝ᵥ u l = if k = l then 1 else 0) :
    W = ∑ k, lam k • ket2dm (u k) := by
  obtain ⟨U, hU⟩ : ∃ U : Matrix (Fin d) (Fin d) ℂ, U = Matrix.of fun i k => u k i := ⟨_, rfl⟩
  have hUU : Uᴴ * U = 1 := by
    ext k l
    rw [Matrix.mul_apply, Matrix.one_apply, ← ho k l]
    simp [hU, dotProduct]
  have hUU' : U * Uᴴ = 1 := mul_eq_one_comm.1 hUU
  have hWU : W * U = U * diagonal lam := by
    ext i k
    rw [Matrix.mul_diagonal]
    have := congrFun (hu k) i
    simp only [mulVec, dotProduct, Pi.smul_apply, smul_eq_mul] at this
    rw [Matrix.mul_apply]
    simp only [hU, of_apply]
    rw [this, mul_comm]
  have : W = U * diagonal lam * Uᴴ := by rw [← hWU, Matrix.mul_assoc, hUU', Matrix.mul_one]
  rw [this]
  ext i j
  rw [Matrix.mul_apply, Matrix.sum_apply]
  refine Finset.sum_congr rfl fun k _ => ?_
  rw [Matrix.mul_diagonal]
  simp only [hU, of_apply, conjTranspose_apply, Matrix.smul_apply, smul_eq_mul, ket2dm, vecMulVec_apply, Pi.star_apply]
  ring

/-- Eigenvectors of a unitary operator for different eigenvalues are orthogonal. -/
theorem eigen_orthogonal (W : Matrix (Fin d) (Fin d) ℂ) (hW : W * Wᴴ = 1) (u v : Fin d → ℂ) (a c : ℂ)
    (hu : W *ᵥ u = a • u) (hv : W *ᵥ v = c • v) (hu1 : star u ⬝ᵥ u = 1) (hac : a ≠ c) :
    star u ⬝ᵥ v = 0 := by
  have hW' : Wᴴ * W = 1 := mul_eq_one_comm.1 hW
  have hinner : ∀ y z : Fin d → ℂ, star (W *ᵥ y) ⬝ᵥ (W *ᵥ z) = star y ⬝ᵥ z := by
    intro y z
    rw [Matrix.star_mulVec, Matrix.dotProduct_mulVec, Matrix.vecMul_vecMul, hW', Matrix.vecMul_one]
  have h1 := hinner u u
  rw [hu, star_smul, smul_dotProduct, dotProduct_smul, hu1] at h1
  have h2 := hinner u v
  rw [hu, hv, star_smul, smul_dotProduct, dotProduct_smul] at h2
  simp only [smul_eq_mul, mul_one] at h1 h2
  by_contra hne
  have h3 : star a * c = 1 := by
    have : (star a * c - 1) * (star u ⬝ᵥ v) = 0 := by linear_combination h2
    rcases mul_eq_zero.mp this with h | h
    · exact sub_eq_zero.mp h
    · exact absurd h hne
  have h4 : star a ≠ 0 := fun h0 => by rw [h0, zero_mul] at h1; exact zero_ne_one h1
  exact hac (mul_left_cancel₀ h4 (h1.trans h3.symm))

/-- If `W V = ζ V W` for a root of unity `ζ` of order `d`, then `d` independent eigenvectors of `W` have
different eigenvalues. -/
theorem eigen_distinct (hd : 0 < d) (W V : Matrix (Fin d) (Fin d) ℂ) (ζ : ℂ) (hζ : IsPrimitiveRoot ζ d)
    (hW : W * Wᴴ = 1) (hV : V * Vᴴ = 1) (hWV : W * V = ζ • (V * W)) (u : Fin d → Fin d → ℂ) (lam : Fin d → ℂ)
    (hu : ∀ k, W *ᵥ u k = lam k • u k) (hli : LinearIndependent ℂ u) : Function.Injective lam := by
  have hW' : Wᴴ * W = 1 := mul_eq_one_comm.1 hW
  have hV' : Vᴴ * V = 1 := mul_eq_one_comm.1 hV
  have hWne : ∀ x : Fin d → ℂ, W *ᵥ x = 0 → x = 0 := fun x hx => by
    have := congrArg (Wᴴ *ᵥ ·) hx
    simpa only [mulVec_mulVec, hW', one_mulVec, mulVec_zero] using this
  have hVne : ∀ x : Fin d → ℂ, V *ᵥ x = 0 → x = 0 := fun x hx => by
    have := congrArg (Vᴴ *ᵥ ·) hx
    simpa only [mulVec_mulVec, hV', one_mulVec, mulVec_zero] using this
  have hlam : ∀ k, lam k ≠ 0 := fun k h0 => hli.ne_zero k (hWne _ (by rw [hu k, h0, zero_smul]))
  obtain ⟨z, hz⟩ : ∃ z : Fin d, z = ⟨0, hd⟩ := ⟨_, rfl⟩
  -- moving along `V`
  have hmove : ∀ n : ℕ, ∃ w : Fin d → ℂ, w ≠ 0 ∧ W *ᵥ w = (ζ ^ n * lam z) • w := by
    intro n
    induction n with
    | zero => exact ⟨u z, hli.ne_zero z, by rw [pow_zero, one_mul]; exact hu z⟩
    | succ n ih =>
      obtain ⟨w, hw0, hw⟩ := ih
      refine ⟨V *ᵥ w, fun h0 => hw0 (hVne _ h0), ?_⟩
      rw [mulVec_mulVec, hWV, smul_mulVec, ← mulVec_mulVec, hw, mulVec_smul, smul_smul, pow_succ]
      congr 1
      ring
  -- every eigenvalue occurs
  have hocc : ∀ (μ : ℂ) (w : Fin d → ℂ), w ≠ 0 → W *ᵥ w = μ • w → ∃ k, lam k = μ := by
    intro μ w hw0 hw
    have hspan : Submodule.span ℂ (Set.range u) = ⊤ :=
      hli.span_eq_top_of_card_eq_finrank' (by simp)
    obtain ⟨c, hc⟩ := (Submodule.mem_span_range_iff_exists_fun ℂ).mp (hspan ▸ Submodule.mem_top : w ∈ _)
    by_contra hno
    push Not at hno
    have h0 : ∑ k, (c k * (lam k - μ)) • u k = 0 := by
      have h1 : W *ᵥ w = ∑ k, (c k * lam k) • u k := by
        rw [← hc, mulVec_sum]
        exact Finset.sum_congr rfl fun k _ => by rw [mulVec_smul, hu k, smul_smul]
      have h2 : μ • w = ∑ k, (c k * μ) • u k := by
        rw [← hc, Finset.smul_sum]
        exact Finset.sum_congr rfl fun k _ => by rw [smul_smul, mul_comm]
      simp only [mul_sub, sub_smul, Finset.sum_sub_distrib]
      rw [← h1, ← h2, hw, sub_self]
    have h3 := Fintype.linearIndependent_iff.mp hli _ h0
    refine hw0 ?_
    rw [← hc]
    refine Finset.sum_eq_zero fun k _ => ?_
    rcases mul_eq_zero.mp (h3 k) with h | h
    · rw [h, zero_smul]
    · exact absurd (sub_eq_zero.mp h) (hno k)
  have hf : ∀ n : Fin d, ∃ k, lam k = ζ ^ (n : ℕ) * lam z := fun n => by
    obtain ⟨w, hw0, hw⟩ := hmove n
    exact hocc _ w hw0 hw
  choose f hf using hf
  have hfi : Function.Injective f := fun a c h => by
    have h1 := hf a
    rw [h, hf c] at h1
    exact Fin.ext (hζ.pow_inj a.2 c.2 (mul_right_cancel₀ (hlam z) h1.symm))
  have hfs : Function.Surjective f := Finite.surjective_of_injective hfi
  intro a c h
  obtain ⟨m, rfl⟩ := hfs a
  obtain ⟨n, rfl⟩ := hfs c
  rw [hf, hf] at h
  have : m = n := Fin.ext (hζ.pow_inj m.2 n.2 (mul_right_cancel₀ (hlam z) h))
  rw [this]

/-! ## Products of Heisenberg-Weyl operators -/

theorem hw_swap (j k : ℕ) : hwRoot d ^ (k * j) • (hwZ d ^ j * hwX d ^ k) = hwX d ^ k * hwZ d ^ j := by
  ext a c
  have hd : 0 < d := a.pos
  rw [hw_apply, Matrix.smul_apply, smul_eq_mul, hwZ, Matrix.diagonal_pow, Matrix.diagonal_mul, hwX_pow]
  split_ifs with h
  · rw [mul_one, Pi.pow_apply, ← pow_mul]
    change hwRoot d ^ _ * hwRoot d ^ _ = _
    rw [← pow_add, ← add_mul, pow_mul, pow_mul, h, ← pow_eq_pow_mod _ (hwRoot_prim hd).pow_eq_one, add_comm k]
  · rw [mul_zero, mul_zero]

theorem hw_product (i j k l : ℕ) : hwRoot d ^ (k * j) • (hwX d ^ i * hwZ d ^ j * (hwX d ^ k * hwZ d ^ l)) =
    hwX d ^ (i + k) * hwZ d ^ (j + l) := by
  rw [show hwX d ^ i * hwZ d ^ j * (hwX d ^ k * hwZ d ^ l) = hwX d ^ i * (hwZ d ^ j * hwX d ^ k) * hwZ d ^ l from by
    simp only [Matrix.mul_assoc], ← Matrix.smul_mul, ← Matrix.mul_smul, hw_swap, pow_add, pow_add]
  simp only [Matrix.mul_assoc]

theorem hw_power (i j g : ℕ) : ∃ z : ℂ, z • (hwX d ^ i * hwZ d ^ j) ^ g = hwX d ^ (g * i) * hwZ d ^ (g * j) := by
  induction g with
  | zero => exact ⟨1, by simp⟩
  | succ g ih =>
    obtain ⟨z, hz⟩ := ih
    refine ⟨hwRoot d ^ (i * (g * j)) * z, ?_⟩
    rw [pow_succ (hwX d ^ i * hwZ d ^ j), mul_smul, ← Matrix.smul_mul, hz, hw_product, Nat.succ_mul, Nat.succ_mul]

/-- For coprime `i` and `j` some other operator of the list commutes with `X^i Z^j` up to the root of unity. -/
theorem hw_partner (hd : 0 < d) (i j : ℕ) (hij : Nat.Coprime i j) : ∃ V ∈ heisenbergWeyl d,
    (hwX d ^ i * hwZ d ^ j) * V = hwRoot d • (V * (hwX d ^ i * hwZ d ^ j)) := by
  obtain ⟨a, ha, b, hb, hab⟩ : ∃ a < d, ∃ b < d, (b * i : ℕ) ≡ 1 + a * j [MOD d] := by
    have hd' : (0 : ℤ) < d := by exact_mod_cast hd
    have hA0 := Int.emod_nonneg (Nat.gcdA i j) hd'.ne'
    have hB0 := Int.emod_nonneg (-Nat.gcdB i j) hd'.ne'
    have hA1 := Int.emod_lt_of_pos (Nat.gcdA i j) hd'
    have hB1 := Int.emod_lt_of_pos (-Nat.gcdB i j) hd'
    refine ⟨((-Nat.gcdB i j) % d).toNat, by omega, ((Nat.gcdA i j) % d).toNat, by omega, ?_⟩
    have hbz := Nat.gcd_eq_gcd_ab i j
    rw [hij.gcd_eq_one] at hbz
    rw [← Int.natCast_modEq_iff]
    push_cast
    rw [Int.toNat_of_nonneg hA0, Int.toNat_of_nonneg hB0]
    have h1 : (Nat.gcdA i j % d) * (i : ℤ) ≡ Nat.gcdA i j * i [ZMOD d] := (Int.mod_modEq _ _).mul_right _
    have h2 : 1 + (-Nat.gcdB i j % d) * (j : ℤ) ≡ 1 + -Nat.gcdB i j * j [ZMOD d] :=
      ((Int.mod_modEq _ _).mul_right _).add_left _
    refine h1.trans (Int.ModEq.trans ?_ h2.symm)
    have : Nat.gcdA i j * (i : ℤ) = 1 + -Nat.gcdB i j * j := by
      push_cast at hbz
      linear_combination -hbz
    rw [this]
  refine ⟨hwX d ^ a * hwZ d ^ b, hw_mem.mpr ⟨a, ha, b, hb, rfl⟩, ?_⟩
  have hp := hwRoot_prim hd
  have h1 := hw_product (d := d) i j a b
  have h2 := hw_product (d := d) a b i j
  rw [add_comm a i, add_comm b j, ← h1] at h2
  have h3 : hwRoot d ^ (i * b) = hwRoot d ^ (a * j) * hwRoot d := by
    rw [← pow_succ, pow_eq_pow_mod _ hp.pow_eq_one, pow_eq_pow_mod (a * j + 1) hp.pow_eq_one, mul_comm i b,
      add_comm (a * j) 1]
    exact congrArg _ hab
  rw [h3, mul_smul] at h2
  have h4 : hwRoot d ^ (a * j) ≠ 0 := pow_ne_zero _ (hp.ne_zero hd.ne')
  exact (smul_right_injective _ h4 h2).symm

/-! ## The measurements -/

/-- What QuTiP promises of `eigenstates()` for the operators of the list: `d` linearly independent unit
eigenvectors. -/
def Spec.FullEigenstates (eigenstates : Matrix (Fin d) (Fin d) ℂ → List (Fin d → ℂ)) : Prop :=
  ∀ W ∈ heisenbergWeyl d, ∃ u : Fin d → Fin d → ℂ, eigenstates W = List.ofFn u ∧ LinearIndependent ℂ u ∧
    ∀ k, (∃ c : ℂ, W *ᵥ u k = c • u k) ∧ star (u k) ⬝ᵥ u k = 1

/-- The operators `_next_measurement` can return. -/
def Spec.StabilizerSet (eigenstates : Matrix (Fin d) (Fin d) ℂ → List (Fin d → ℂ)) :
    Set (Matrix (Fin d) (Fin d) ℂ) := {M | ∃ i k, stabilizerMeas d eigenstates i k = .ok M}

theorem stabilizer_mem (eigenstates : Matrix (Fin d) (Fin d) ℂ → List (Fin d → ℂ))
    {M : Matrix (Fin d) (Fin d) ℂ} : M ∈ Spec.StabilizerSet eigenstates ↔
      ∃ W ∈ heisenbergWeyl d, ∃ v ∈ eigenstates W, M = ket2dm v := by
  constructor
  · rintro ⟨i, k, h⟩
    unfold stabilizerMeas at h
    cases hW : (heisenbergWeyl d)[i]? with
    | none => rw [hW] at h; cases h
    | some W =>
      rw [hW] at h
      dsimp only at h
      cases hv : (eigenstates W)[k]? with
      | none => rw [hv] at h; cases h
      | some v =>
        rw [hv] at h
        exact ⟨W, List.mem_of_getElem? hW, v, List.mem_of_getElem? hv, (Except.ok.inj h).symm⟩
  · rintro ⟨W, hW, v, hv, rfl⟩
    obtain ⟨i, hi⟩ := List.getElem?_of_mem hW
    obtain ⟨k, hk⟩ := List.getElem?_of_mem hv
    refine ⟨i, k, ?_⟩
    unfold stabilizerMeas
    rw [hi]
    dsimp only
    rw [hk]

/-- The measurements and the identity span all operators. -/
theorem stabilizer_span (hd : 0 < d) (eigenstates : Matrix (Fin d) (Fin d) ℂ → List (Fin d → ℂ))
    (hE : Spec.FullEigenstates eigenstates) (A : Matrix (Fin d) (Fin d) ℂ) :
    A ∈ Submodule.span ℂ (insert 1 (Spec.StabilizerSet eigenstates)) := by
  -- powers of an operator with coprime exponents
  have hpow : ∀ i < d, ∀ j < d, Nat.Coprime i j → ∀ g : ℕ, (hwX d ^ i * hwZ d ^ j) ^ g ∈
      Submodule.span ℂ (insert 1 (Spec.StabilizerSet eigenstates)) := by
    intro i hi j hj hij g
    have hWm : hwX d ^ i * hwZ d ^ j ∈ heisenbergWeyl d := hw_mem.mpr ⟨i, hi, j, hj, rfl⟩
    obtain ⟨V, hV, hWV⟩ := hw_partner hd i j hij
    obtain ⟨W, hWdef⟩ : ∃ W, W = hwX d ^ i * hwZ d ^ j := ⟨_, rfl⟩
    rw [← hWdef] at hWm hWV ⊢
    obtain ⟨u, hl, hli, hu⟩ := hE W hWm
    choose lam hlam using fun k => (hu k).1
    have hinj := eigen_distinct hd W V (hwRoot d) (hwRoot_prim hd) (hw_unitary hWm) (hw_unitary hV) hWV u lam
      hlam hli
    have ho : ∀ k l, star (u k) ⬝ᵥ u l = if k = l then 1 else 0 := by
      intro k l
      by_cases h : k = l
      · subst h
        rw [if_pos rfl]
        exact (hu k).2
      · rw [if_neg h]
        exact eigen_orthogonal W (hw_unitary hWm) _ _ _ _ (hlam k) (hlam l) (hu k).2 fun h' => h (hinj h')
    have hg : ∀ k, W ^ g *ᵥ u k = lam k ^ g • u k := by
      intro k
      induction g with
      | zero => simp
      | succ g ih => rw [pow_succ, ← mulVec_mulVec, hlam, mulVec_smul, ih, smul_smul, pow_succ, mul_comm]
    rw [eigen_combination (W ^ g) u (fun k => lam k ^ g) hg ho]
    refine Submodule.sum_mem _ fun k _ => Submodule.smul_mem _ _ (Submodule.subset_span (Or.inr ?_))
    exact (stabilizer_mem _).mpr ⟨W, hWm, u k, by rw [hl]; exact List.mem_ofFn.mpr ⟨k, rfl⟩, rfl⟩
  have hall : ∀ W ∈ heisenbergWeyl d, W ∈ Submodule.span ℂ (insert 1 (Spec.StabilizerSet eigenstates)) := by
    intro W hW
    obtain ⟨i, hi, j, hj, rfl⟩ := hw_mem.mp hW
    by_cases h0 : Nat.gcd i j = 0
    · obtain ⟨rfl, rfl⟩ := Nat.gcd_eq_zero_iff.mp h0
      rw [pow_zero, pow_zero, mul_one]
      exact Submodule.subset_span (Or.inl rfl)
    · have hg : 0 < Nat.gcd i j := Nat.pos_of_ne_zero h0
      obtain ⟨z, hz⟩ := hw_power (d := d) (i / Nat.gcd i j) (j / Nat.gcd i j) (Nat.gcd i j)
      rw [Nat.mul_div_cancel' (Nat.gcd_dvd_left i j), Nat.mul_div_cancel' (Nat.gcd_dvd_right i j)] at hz
      rw [← hz]
      exact Submodule.smul_mem _ _ (hpow _ ((Nat.div_le_self _ _).trans_lt hi) _
        ((Nat.div_le_self _ _).trans_lt hj) (Nat.coprime_div_gcd_div_gcd hg) _)
  have hd0 : (d : ℂ) ≠ 0 := by exact_mod_cast hd.ne'
  have hA : A = (d : ℂ)⁻¹ • ((heisenbergWeyl d).map fun W => trace (Wᴴ * A) • W).sum := by
    rw [(C99_complete A).1, smul_smul, inv_mul_cancel₀ hd0, one_smul]
  rw [hA]
  refine Submodule.smul_mem _ _ (list_sum_mem ?_)
  intro B hB
  obtain ⟨W, hW, rfl⟩ := List.mem_map.mp hB
  exact Submodule.smul_mem _ _ (hall W hW)

theorem stabilizer_effect (eigenstates : Matrix (Fin d) (Fin d) ℂ → List (Fin d → ℂ))
    (hE : Spec.FullEigenstates eigenstates) {M : Matrix (Fin d) (Fin d) ℂ}
    (hM : M ∈ Spec.StabilizerSet eigenstates) : Spec.IsEffect M := by
  obtain ⟨W, hW, v, hv, rfl⟩ := (stabilizer_mem _).mp hM
  obtain ⟨u, hl, -, hu⟩ := hE W hW
  rw [hl] at hv
  obtain ⟨k, rfl⟩ := List.mem_ofFn.mp hv
  exact ⟨ket2dm_psd _, projector_le_one _ (ket2dm_psd _).1 (ket2dm_sq _ (hu k).2)⟩

end

/-- **C140, stabilizer measurements.**  In every dimension the measurements that
`RandomStabilizerStateHeuristic` chooses from, converted as it converts them, are effects and determine every
state. -/
theorem C140_stabilizers (b : TomoBasis) (h : Spec.IsTomoBasis b.side b.data) (hd : 0 < b.side)
    (eigenstates : Matrix (Fin b.side) (Fin b.side) ℂ → List (Fin b.side → ℂ))
    (hE : Spec.FullEigenstates eigenstates) :
    ∃ meas : Fin (b.side * b.side) × Fin b.side → List ℝ,
      (∀ e, ∃ M, stabilizerMeas b.side eigenstates e.1 e.2 = .ok M ∧
        stateToModelparams b b.side (toPlane M) = .ok (meas e)) ∧
      (∀ e, (meas e).length = b.data.length) ∧
      (∀ e, Spec.IsEffect (Spec.op b.side b.data (meas e))) ∧
      ∀ {nE : ℕ} (order : Fin nE → Fin (b.side * b.side) × Fin b.side), Function.Surjective order →
        Spec.Determines b (meas ∘ order) := by
  have hex : ∀ e : Fin (b.side * b.side) × Fin b.side, ∃ x M, stabilizerMeas b.side eigenstates e.1 e.2 = .ok M ∧
      stateToModelparams b b.side (toPlane M) = .ok x ∧ x.length = b.data.length ∧
      Spec.op b.side b.data x = M := by
    intro e
    have hlt : (e.1 : ℕ) < (heisenbergWeyl b.side).length := by rw [hw_length]; exact e.1.2
    have hW := List.getElem?_eq_getElem hlt
    obtain ⟨u, hl, -, -⟩ := hE _ (List.getElem_mem hlt)
    have hk : (eigenstates ((heisenbergWeyl b.side)[(e.1 : ℕ)]))[(e.2 : ℕ)]? = some (u e.2) := by
      rw [hl, List.getElem?_ofFn]
      simp
    have hM : stabilizerMeas b.side eigenstates e.1 e.2 = .ok (ket2dm (u e.2)) := by
      unfold stabilizerMeas
      rw [hW]
      dsimp only
      rw [hk]
    obtain ⟨p, h1, h2, h3⟩ := op_of_state b h (toPlane (ket2dm (u e.2)))
      (by rw [mat_toPlane]; exact (ket2dm_psd _).1)
    rw [mat_toPlane] at h3
    exact ⟨p, _, hM, h1, h2, h3⟩
  choose meas M h1 h2 h3 h4 using hex
  have heff : ∀ e, Spec.IsEffect (Spec.op b.side b.data (meas e)) := fun e => by
    rw [h4]
    exact stabilizer_effect eigenstates hE ⟨_, _, h1 e⟩
  refine ⟨meas, fun e => ⟨M e, h1 e, h2 e⟩, h3, heff, fun {nE} order hsur => ?_⟩
  refine (C140_criterion h hd _ (fun e => h3 _) fun e => heff _).mpr
    (spansHermitian_of_span _ (fun e => (heff _).1.1) fun A => ?_)
  have hset : Set.range (fun e => Spec.op b.side b.data (meas (order e))) = Spec.StabilizerSet eigenstates := by
    ext N
    constructor
    · rintro ⟨e, rfl⟩
      exact ⟨_, _, (h1 (order e)).trans (congrArg Except.ok (h4 (order e)).symm)⟩
    · rintro ⟨i, k, hN⟩
      have hik : i < b.side * b.side ∧ k < b.side := by
        unfold stabilizerMeas at hN
        cases hW : (heisenbergWeyl b.side)[i]? with
        | none => rw [hW] at hN; cases hN
        | some W =>
          obtain ⟨hi, -⟩ := List.getElem?_eq_some_iff.mp hW
          rw [hw_length] at hi
          rw [hW] at hN
          dsimp only at hN
          obtain ⟨u, hl, -, -⟩ := hE _ (List.mem_of_getElem? hW)
          cases hv : (eigenstates W)[k]? with
          | none => rw [hv] at hN; cases hN
          | some v =>
            obtain ⟨hk, -⟩ := List.getElem?_eq_some_iff.mp hv
            rw [hl, List.length_ofFn] at hk
            exact ⟨hi, hk⟩
      obtain ⟨e, he⟩ := hsur (⟨i, hik.1⟩, ⟨k, hik.2⟩)
      refine ⟨e, ?_⟩
      have := h1 (order e)
      rw [he] at this
      dsimp only
      rw [h4, he]
      exact Except.ok.inj (this.symm.trans hN)
  rw [hset]
  exact stabilizer_span hd eigenstates hE A

/-! ## The contract can be met -/

theorem normalise_vec {d : ℕ} (w : Fin d → ℂ) (hw : w ≠ 0) : ∃ z : ℂ, z ≠ 0 ∧ star (z • w) ⬝ᵥ (z • w) = 1 := by
  have hpos : 0 < star w ⬝ᵥ w := dotProduct_star_self_pos_iff.mpr hw
  obtain ⟨r, hr⟩ : ∃ r : ℝ, star w ⬝ᵥ w = r := ⟨_, (Complex.eq_re_of_ofReal_le hpos.le)⟩
  rw [hr, Complex.zero_lt_real] at hpos
  refine ⟨((Real.sqrt r)⁻¹ : ℝ), ?_, ?_⟩
  · exact_mod_cast (inv_pos.mpr (Real.sqrt_pos.mpr hpos)).ne'
  · rw [star_smul, smul_dotProduct, dotProduct_smul, hr, Complex.star_def, Complex.conj_ofReal]
    simp only [smul_eq_mul]
    norm_cast
    rw [← mul_assoc, ← mul_inv, Real.mul_self_sqrt hpos.le, inv_mul_cancel₀ hpos.ne']

/-- In every dimension the operators of the list have `d` independent unit eigenvectors each. -/
theorem fullEigenstates_exist (d : ℕ) (hd : 0 < d) :
    ∃ eigenstates : Matrix (Fin d) (Fin d) ℂ → List (Fin d → ℂ), Spec.FullEigenstates eigenstates := by
  have key : ∀ W ∈ heisenbergWeyl d, ∃ u : Fin d → Fin d → ℂ, LinearIndependent ℂ u ∧
      ∀ k, (∃ c : ℂ, W *ᵥ u k = c • u k) ∧ star (u k) ⬝ᵥ u k = 1 := by
    -- coprime exponents
    have hco : ∀ i < d, ∀ j < d, Nat.Coprime i j → ∃ u : Fin d → Fin d → ℂ, LinearIndependent ℂ u ∧
        ∀ k, (∃ c : ℂ, (hwX d ^ i * hwZ d ^ j) *ᵥ u k = c • u k) ∧ star (u k) ⬝ᵥ u k = 1 := by
      intro i hi j hj hij
      have hWm : hwX d ^ i * hwZ d ^ j ∈ heisenbergWeyl d := hw_mem.mpr ⟨i, hi, j, hj, rfl⟩
      obtain ⟨V, hV, hWV⟩ := hw_partner hd i j hij
      obtain ⟨W, hWdef⟩ : ∃ W, W = hwX d ^ i * hwZ d ^ j := ⟨_, rfl⟩
      rw [← hWdef] at hWm hWV ⊢
      have hW' : Wᴴ * W = 1 := mul_eq_one_comm.1 (hw_unitary hWm)
      have hV' : Vᴴ * V = 1 := mul_eq_one_comm.1 (hw_unitary hV)
      have : Nonempty (Fin d) := ⟨⟨0, hd⟩⟩
      obtain ⟨μ, hμ⟩ := Module.End.exists_eigenvalue (Matrix.toLin' W)
      obtain ⟨w, hw⟩ := hμ.exists_hasEigenvector
      have hw0 : w ≠ 0 := hw.2
      have hw1 : W *ᵥ w = μ • w := by rw [← Matrix.toLin'_apply]; exact hw.apply_eq_smul
      have hμ0 : μ ≠ 0 := fun h0 => hw0 (by
        rw [h0, zero_smul] at hw1
        have := congrArg (Wᴴ *ᵥ ·) hw1
        simpa only [mulVec_mulVec, hW', one_mulVec, mulVec_zero] using this)
      have hmove : ∀ n : ℕ, ∃ y : Fin d → ℂ, y ≠ 0 ∧ W *ᵥ y = (hwRoot d ^ n * μ) • y := by
        intro n
        induction n with
        | zero => exact ⟨w, hw0, by rw [pow_zero, one_mul]; exact hw1⟩
        | succ n ih =>
          obtain ⟨y, hy0, hy⟩ := ih
          refine ⟨V *ᵥ y, fun h0 => hy0 ?_, ?_⟩
          · have := congrArg (Vᴴ *ᵥ ·) h0
            simpa only [mulVec_mulVec, hV', one_mulVec, mulVec_zero] using this
          · rw [mulVec_mulVec, hWV, smul_mulVec, ← mulVec_mulVec, hy, mulVec_smul, smul_smul, pow_succ]
            congr 1
            ring
      have hmove' : ∀ k : Fin d, ∃ y : Fin d → ℂ, y ≠ 0 ∧ W *ᵥ y = (hwRoot d ^ (k : ℕ) * μ) • y ∧
          star y ⬝ᵥ y = 1 := by
        intro k
        obtain ⟨y, hy0, hy⟩ := hmove k
        obtain ⟨z, hz, hz1⟩ := normalise_vec y hy0
        exact ⟨z • y, smul_ne_zero hz hy0, by rw [mulVec_smul, hy, smul_comm], hz1⟩
      choose u hu0 hu hu1 using hmove'
      refine ⟨u, ?_, fun k => ⟨⟨_, hu k⟩, hu1 k⟩⟩
      refine Module.End.eigenvectors_linearIndependent' (Matrix.toLin' W) (fun k : Fin d => hwRoot d ^ (k : ℕ) * μ)
        (fun a c hac => Fin.ext ((hwRoot_prim hd).pow_inj a.2 c.2 (mul_right_cancel₀ hμ0 hac))) u fun k => ?_
      exact ⟨Module.End.mem_eigenspace_iff.mpr (by rw [Matrix.toLin'_apply]; exact hu k), hu0 k⟩
    intro W hW
    obtain ⟨i, hi, j, hj, rfl⟩ := hw_mem.mp hW
    by_cases h0 : Nat.gcd i j = 0
    · obtain ⟨rfl, rfl⟩ := Nat.gcd_eq_zero_iff.mp h0
      refine ⟨fun k => Pi.single k 1, Pi.linearIndependent_single_one (Fin d) ℂ, fun k => ⟨⟨1, by rw [pow_zero, pow_zero, one_mul, one_mulVec, one_smul]⟩, by simp⟩⟩
    · have hg : 0 < Nat.gcd i j := Nat.pos_of_ne_zero h0
      obtain ⟨z, hz⟩ := hw_power (d := d) (i / Nat.gcd i j) (j / Nat.gcd i j) (Nat.gcd i j)
      rw [Nat.mul_div_cancel' (Nat.gcd_dvd_left i j), Nat.mul_div_cancel' (Nat.gcd_dvd_right i j)] at hz
      obtain ⟨u, hli, hu⟩ := hco _ ((Nat.div_le_self _ _).trans_lt hi) _
        ((Nat.div_le_self _ _).trans_lt hj) (Nat.coprime_div_gcd_div_gcd hg)
      refine ⟨u, hli, fun k => ⟨?_, (hu k).2⟩⟩
      obtain ⟨c, hc⟩ := (hu k).1
      refine ⟨z * c ^ Nat.gcd i j, ?_⟩
      rw [← hz, smul_mulVec, mul_smul]
      congr 1
      generalize Nat.gcd i j = g at hc ⊢
      generalize hwX d ^ (i / g) * hwZ d ^ (j / g) = U at hc ⊢
      clear hz
      have : ∀ g : ℕ, U ^ g *ᵥ u k = c ^ g • u k := by
        intro g
        induction g with
        | zero => simp
        | succ g ih => rw [pow_succ, ← mulVec_mulVec, hc, mulVec_smul, ih, smul_smul, pow_succ, mul_comm]
      exact this g
  classical
  choose! u h1 h2 using key
  exact ⟨fun W => List.ofFn (u W), fun W hW => ⟨u W, rfl, h1 W hW, h2 W hW⟩⟩

/-- Stabilizer measurements on a register of dimension six, where not every operator of the list has
different eigenvalues. -/
example : ∃ b, gellMannBasis 6 = .ok b ∧ ∃ meas : Fin 216 → List ℝ, Spec.Determines b meas := by
  obtain ⟨b, h1, h2, -, -, -, h3⟩ := C40_gell_mann 6 (by norm_num)
  rw [← h2] at h3
  have hd : 0 < b.side := by rw [h2]; norm_num
  obtain ⟨eig, hE⟩ := fullEigenstates_exist b.side hd
  obtain ⟨meas, -, -, -, h5⟩ := C140_stabilizers b h3 hd eig hE
  have hc : Fintype.card (Fin 216) = Fintype.card (Fin (b.side * b.side) × Fin b.side) := by
    rw [Fintype.card_prod, Fintype.card_fin, Fintype.card_fin, Fintype.card_fin, h2]
  exact ⟨b, h1, _, h5 (Fintype.equivOfCardEq hc) (Equiv.surjective _)⟩

end QInfer
