import Verif.Lemmas.TomoModel

/-!
# C41: canonicalisation and likelihood of the tomography model
-/

set_option linter.unusedSectionVars false

namespace QInfer

open Matrix
open scoped ComplexOrder

variable {b : TomoBasis}

/-! ## Truncation -/

/-- C41, full statement: the truncated operator is the positive part of the given one, whatever
`np.linalg.eig` within its contract returns.  `C41_skew_eigenvectors` shows that this does not
hold. -/
def C41TruncationStatement (b : TomoBasis) : Prop :=
  ∀ eig, EigContract b.side eig → ∀ x y : List ℝ, x.length = b.data.length →
    truncNegEigs b eig x = .ok y →
    Spec.IsPosPart (Spec.op b.side b.data x) (Spec.op b.side b.data y)

/-- C41 (partial): when the eigenvectors returned by `np.linalg.eig` are orthonormal, `trunc_neg_eigs`
returns the vector of the positive part of the operator; it fails, with `AssertionError`, exactly
for the nonzero operators without positive eigenvalue.  Missing: `np.linalg.eig` does not promise
orthogonal eigenvectors within an eigenspace. -/
theorem C41_truncation_partial (h : Spec.IsTomoBasis b.side b.data) (eig : Plane → EigResult)
    (hE : EigContract b.side eig) (hO : OrthonormalEig b.side eig) (x : List ℝ)
    (hx : x.length = b.data.length) :
    (∃ y, truncNegEigs b eig x = .ok y ∧ y.length = b.data.length ∧
      Spec.IsPosPart (Spec.op b.side b.data x) (Spec.op b.side b.data y)) ∨
    (truncNegEigs b eig x = .error .assertionError ∧ Spec.op b.side b.data x ≠ 0 ∧
      (-Spec.op b.side b.data x).PosSemidef) := by
  by_cases hp : (Spec.op b.side b.data x).PosSemidef
  · exact Or.inl ⟨x, trunc_pos h eig hE x hx hp, hx, hp, by simpa using PosSemidef.zero, by simp⟩
  · obtain ⟨P, e1, -, e3, e4, e5⟩ := trunc_neg h eig hE x hx hp
    by_cases hn : (-Spec.op b.side b.data x).PosSemidef
    · refine Or.inr ⟨e4 hn, fun h0 => hp ?_, hn⟩
      rw [h0]; exact PosSemidef.zero
    · exact Or.inl ⟨_, e5 hn, by simp [newParams], by rw [e1]; exact e3 (Or.inl hO)⟩

/-- C41: no assumption on the eigenvectors beyond the contract is needed for an operator with
pairwise different eigenvalues. -/
theorem C41_truncation_distinct (h : Spec.IsTomoBasis b.side b.data) (eig : Plane → EigResult)
    (hE : EigContract b.side eig) (x y : List ℝ) (hx : x.length = b.data.length)
    (hH : (Spec.op b.side b.data x).IsHermitian) (hd : Function.Injective hH.eigenvalues)
    (hy : truncNegEigs b eig x = .ok y) :
    Spec.IsPosPart (Spec.op b.side b.data x) (Spec.op b.side b.data y) := by
  by_cases hp : (Spec.op b.side b.data x).PosSemidef
  · rw [trunc_pos h eig hE x hx hp, Except.ok.injEq] at hy
    subst hy
    exact ⟨hp, by simpa using PosSemidef.zero, by simp⟩
  · obtain ⟨P, e1, -, e3, e4, e5⟩ := trunc_neg h eig hE x hx hp
    by_cases hn : (-Spec.op b.side b.data x).PosSemidef
    · rw [e4 hn] at hy; simp at hy
    · rw [e5 hn, Except.ok.injEq] at hy
      subst hy
      rw [e1]
      refine e3 (Or.inr ?_)
      have hm := mat_conjOperator x h.herm hx
      have hA : (Spec.mat b.side (conjOperator b x)).IsHermitian := by
        rw [hm]; exact hH.transpose
      have he := hE _ hA
      -- the eigenvalues of the transpose are those of the operator
      obtain ⟨w, V, hw, hV⟩ := Spec.exists_isEig hH
      have hcov : ∀ i, ∃ k : Fin b.side, (eig (conjOperator b x)).w k = (hH.eigenvalues i : ℂ) := by
        intro i
        have heq : ∃ j, hA.eigenvalues j = hH.eigenvalues i := by
          have hsp : hH.eigenvalues i ∈ spectrum ℝ (Spec.mat b.side (conjOperator b x)) := by
            have h1 := hH.eigenvalues_mem_spectrum_real i
            rw [spectrum.mem_iff] at h1 ⊢
            intro h2
            apply h1
            rw [hm] at h2
            have h3 := (Matrix.isUnit_transpose _).2 h2
            simpa [Matrix.algebraMap_eq_diagonal] using h3
          rw [hA.spectrum_real_eq_range_eigenvalues] at hsp
          exact hsp
        obtain ⟨j, hj⟩ := heq
        obtain ⟨k, hk⟩ := he.covers hA j
        exact ⟨k, by rw [← hj]; exact hk⟩
      choose f hf using hcov
      have hinj : Function.Injective f := by
        intro i j hij
        have : (hH.eigenvalues i : ℂ) = hH.eigenvalues j := by rw [← hf i, ← hf j, hij]
        exact hd (by exact_mod_cast this)
      have hsurj := Finite.surjective_of_injective hinj
      intro k l hkl
      obtain ⟨i, rfl⟩ := hsurj k
      obtain ⟨j, rfl⟩ := hsurj l
      dsimp only at hkl
      rw [hf i, hf j] at hkl
      rw [hd (by exact_mod_cast hkl : hH.eigenvalues i = hH.eigenvalues j)]

/-- C41: whatever eigenvectors are returned, the truncated operator is positive, and it is the given
operator when that is positive already. -/
theorem C41_truncation_positive (h : Spec.IsTomoBasis b.side b.data) (eig : Plane → EigResult)
    (hE : EigContract b.side eig) (x : List ℝ) (hx : x.length = b.data.length) :
    (∀ y, truncNegEigs b eig x = .ok y →
      y.length = b.data.length ∧ (Spec.op b.side b.data y).PosSemidef) ∧
    ((Spec.op b.side b.data x).PosSemidef → truncNegEigs b eig x = .ok x) ∧
    ((∃ y, truncNegEigs b eig x = .ok y) ↔
      (Spec.op b.side b.data x = 0 ∨ ¬ (-Spec.op b.side b.data x).PosSemidef)) := by
  by_cases hp : (Spec.op b.side b.data x).PosSemidef
  · have e := trunc_pos h eig hE x hx hp
    refine ⟨fun y hy => ?_, fun _ => e, fun _ => ?_, fun _ => ⟨x, e⟩⟩
    · rw [e, Except.ok.injEq] at hy; subst hy; exact ⟨hx, hp⟩
    · by_cases h0 : Spec.op b.side b.data x = 0
      · exact Or.inl h0
      · refine Or.inr fun hn => h0 ?_
        have h1 : Spec.IsPosPart (Spec.op b.side b.data x) (Spec.op b.side b.data x) :=
          ⟨hp, by simpa using PosSemidef.zero, by simp⟩
        have h2 : Spec.IsPosPart (Spec.op b.side b.data x) 0 :=
          ⟨PosSemidef.zero, by simpa using hn, by simp⟩
        exact Spec.isPosPart_unique h1 h2
  · obtain ⟨P, e1, e2, -, e4, e5⟩ := trunc_neg h eig hE x hx hp
    refine ⟨fun y hy => ?_, fun h' => absurd h' hp, fun hy => ?_, fun hy => ?_⟩
    · by_cases hn : (-Spec.op b.side b.data x).PosSemidef
      · rw [e4 hn] at hy; simp at hy
      · rw [e5 hn, Except.ok.injEq] at hy
        subst hy
        exact ⟨by simp [newParams], by rw [e1]; exact e2⟩
    · refine Or.inr fun hn => ?_
      obtain ⟨y, hy⟩ := hy
      rw [e4 hn] at hy
      simp at hy
    · rcases hy with hy | hy
      · exact absurd (by rw [hy]; exact PosSemidef.zero) hp
      · exact ⟨_, e5 hy⟩

/-! ## Renormalisation and canonicalisation -/

/-- C41: `renormalize` divides every vector by its trace, so that each operator has trace one, and
raises `AssertionError` if a trace is zero. -/
theorem C41_renormalize (h : Spec.IsTomoBasis b.side b.data) (hs : 0 < b.side)
    (xs : List (List ℝ)) (hx : ∀ x ∈ xs, x.length = b.data.length) :
    ((∀ x ∈ xs, trace (Spec.op b.side b.data x) ≠ 0) →
      ∃ ys, renormalize b.side xs = .ok ys ∧
        List.Forall₂ (fun x y => y.length = b.data.length ∧
          trace (Spec.op b.side b.data y) = 1 ∧
          Spec.op b.side b.data x =
            trace (Spec.op b.side b.data x) • Spec.op b.side b.data y) xs ys) ∧
    ((∃ x ∈ xs, trace (Spec.op b.side b.data x) = 0) →
      renormalize b.side xs = .error .assertionError) := by
  have hne : ¬ ∃ x ∈ xs, x = [] := by
    rintro ⟨x, hm, rfl⟩
    have h1 := hx _ hm
    rw [h.len] at h1
    have := Nat.mul_pos hs hs
    simp at h1
    omega
  have htr : ∀ x ∈ xs, (trace (Spec.op b.side b.data x) = 0 ↔
      x.headD 0 * Real.sqrt b.side = 0) := by
    intro x hm
    rw [op_trace _ _ _ h (hx x hm), Complex.ofReal_eq_zero]
  constructor
  · intro hnz
    have hn2 : ¬ ∃ x ∈ xs, x.headD 0 * Real.sqrt b.side = 0 := by
      rintro ⟨x, hm, h0⟩
      exact hnz x hm ((htr x hm).2 h0)
    refine ⟨_, by rw [renormalize, if_neg hne, if_neg hn2], ?_⟩
    rw [List.forall₂_map_right_iff]
    refine List.forall₂_same.2 fun x hm => ?_
    have hc : x.headD 0 * Real.sqrt b.side ≠ 0 := fun h0 => hn2 ⟨x, hm, h0⟩
    have hc' : ((x.headD 0 * Real.sqrt b.side : ℝ) : ℂ) ≠ 0 := by exact_mod_cast hc
    refine ⟨by simpa using hx x hm, ?_, ?_⟩
    · rw [op_smul, Matrix.trace_smul, op_trace _ _ _ h (hx x hm), smul_eq_mul,
        ← Complex.ofReal_mul, one_div, inv_mul_cancel₀ hc, Complex.ofReal_one]
    · rw [op_smul, op_trace _ _ _ h (hx x hm), smul_smul, ← Complex.ofReal_mul, mul_one_div,
        div_self hc, Complex.ofReal_one, one_smul]
  · rintro ⟨x, hm, h0⟩
    rw [renormalize, if_neg hne, if_pos ⟨x, hm, (htr x hm).1 h0⟩]

theorem renormalize_error_or (d : Nat) (xs : List (List ℝ)) (hne : ¬ ∃ x ∈ xs, x = []) :
    renormalize d xs = .error .assertionError ∨
      renormalize d xs = .ok (xs.map fun x => x.map (· / (x.headD 0 * Real.sqrt d))) := by
  rw [renormalize, if_neg hne]
  by_cases h : ∃ x ∈ xs, x.headD 0 * Real.sqrt d = 0
  · exact Or.inl (if_pos h)
  · exact Or.inr (if_neg h)

theorem mapM_forall₂ {α β : Type} {f : α → Except PyErr β} (xs : List α) (ys : List β)
    (h : List.Forall₂ (fun x y => f x = .ok y) xs ys) : xs.mapM f = .ok ys := by
  induction h with
  | nil => rfl
  | cons h1 _ ih => rw [List.mapM_cons, h1, ih]; rfl

theorem mapM_error_of {α β : Type} {f : α → Except PyErr β} {e : PyErr} (xs : List α)
    (hall : ∀ x ∈ xs, f x = .error e ∨ ∃ y, f x = .ok y) (hex : ∃ x ∈ xs, f x = .error e) :
    xs.mapM f = .error e := by
  induction xs with
  | nil => obtain ⟨x, hx, _⟩ := hex; simp at hx
  | cons x xs ih =>
    rw [List.mapM_cons]
    rcases hall x (by simp) with h | ⟨y, h⟩
    · rw [h]; rfl
    · rw [h]
      obtain ⟨x', hx', he⟩ := hex
      rcases List.mem_cons.1 hx' with rfl | hx'
      · rw [h] at he; simp at he
      · have := ih (fun z hz => hall z (by simp [hz])) ⟨x', hx', he⟩
        show (do let ys ← xs.mapM f; _) = _
        rw [this]; rfl

/-- C41: with the default `allow_subnormalized=False`, `canonicalize` turns every array of vectors
whose operators all have a positive eigenvalue into density operators, and raises `AssertionError`
if one of them has none.  It relies on the contract of `np.linalg.eig` alone. -/
theorem C41_canonicalize (h : Spec.IsTomoBasis b.side b.data) (hdim : b.dim = b.side)
    (hs : 0 < b.side) (eig : Plane → EigResult) (hE : EigContract b.side eig)
    (xs : List (List ℝ)) (hne : xs ≠ []) (hx : ∀ x ∈ xs, x.length = b.data.length) :
    ((∀ x ∈ xs, ¬ (-Spec.op b.side b.data x).PosSemidef) →
      ∃ ys, canonicalize b eig false xs = .ok ys ∧
        List.Forall₂ (fun x y => y.length = b.data.length ∧
          Spec.IsDensity (Spec.op b.side b.data y) ∧
          ∃ z, truncNegEigs b eig x = .ok z ∧
            Spec.op b.side b.data z =
              trace (Spec.op b.side b.data z) • Spec.op b.side b.data y) xs ys) ∧
    ((∃ x ∈ xs, (-Spec.op b.side b.data x).PosSemidef) →
      canonicalize b eig false xs = .error .assertionError) := by
  have hT := fun x hm => C41_truncation_positive h eig hE x (hx x hm)
  constructor
  · intro hpos
    have hz : ∀ x ∈ xs, ∃ z, truncNegEigs b eig x = .ok z := fun x hm =>
      (hT x hm).2.2.2 (Or.inr (hpos x hm))
    choose! f hf using hz
    have hM : xs.mapM (truncNegEigs b eig) = .ok (xs.map f) := by
      apply mapM_forall₂
      rw [List.forall₂_map_right_iff]
      exact List.forall₂_same.2 hf
    have hfl : ∀ x ∈ xs, (f x).length = b.data.length := fun x hm => ((hT x hm).1 _ (hf x hm)).1
    have hfp : ∀ x ∈ xs, (Spec.op b.side b.data (f x)).PosSemidef := fun x hm =>
      ((hT x hm).1 _ (hf x hm)).2
    have hft : ∀ x ∈ xs, 0 < trace (Spec.op b.side b.data (f x)) := by
      intro x hm
      refine lt_of_le_of_ne (hfp x hm).trace_nonneg fun h0 => ?_
      have hz : Spec.op b.side b.data (f x) = 0 :=
        (Matrix.PosSemidef.trace_eq_zero_iff (hfp x hm)).1 h0.symm
      by_cases hp : (Spec.op b.side b.data x).PosSemidef
      · have e1 := (hT x hm).2.1 hp
        rw [hf x hm, Except.ok.injEq] at e1
        rw [e1] at hz
        apply hpos x hm
        rw [hz]; simpa using PosSemidef.zero
      · obtain ⟨P, e1, -, -, -, e5⟩ := trunc_neg h eig hE x (hx x hm) hp
        have e6 := e5 (hpos x hm)
        -- the assertion of the code has been passed
        have e7 : 0 < (f x).headD 0 := by
          have := hf x hm
          rw [truncNegEigs, if_neg (by simpa using hx x hm)] at this
          dsimp only at this
          split at this
          · rename_i hall
            exfalso
            apply hp
            have hm' := mat_conjOperator x h.herm (hx x hm)
            have hA : (Spec.mat b.side (conjOperator b x)).IsHermitian := by
              rw [hm']; exact (op_isHermitian _ _ _ h.herm).transpose
            have he := hE _ hA
            have hpA : (Spec.mat b.side (conjOperator b x)).PosSemidef := by
              rw [he.posSemidef_iff hA]
              intro k
              exact (cge0_iff (he.real hA k)).1 (hall k k.2)
            rw [hm'] at hpA
            exact Matrix.posSemidef_transpose_iff.1 hpA
          · split at this
            · simp at this
            · rename_i y0 ys heq
              split at this
              · rename_i h0
                rw [Except.ok.injEq] at this
                rw [← this]
                rw [heq]
                exact h0
              · simp at this
        have e8 := op_trace b.side b.data (f x) h (hfl x hm)
        rw [← h0] at e8
        have e9 : (f x).headD 0 * Real.sqrt b.side = 0 := by exact_mod_cast e8.symm
        have : 0 < Real.sqrt b.side := Real.sqrt_pos.2 (by exact_mod_cast hs)
        have := mul_pos e7 this
        linarith
    obtain ⟨ys, e1, e2⟩ := (C41_renormalize h hs (xs.map f) (by
      intro y hy
      obtain ⟨x, hm, rfl⟩ := List.mem_map.1 hy
      exact hfl x hm)).1 (by
      intro y hy
      obtain ⟨x, hm, rfl⟩ := List.mem_map.1 hy
      exact (hft x hm).ne')
    refine ⟨ys, ?_, ?_⟩
    · rw [canonicalize, if_neg hne, hM]
      change renormalize b.dim (xs.map f) = _
      rw [hdim, e1]
    · rw [List.forall₂_map_left_iff] at e2
      have e3 : List.Forall₂ (fun x y => x ∈ xs ∧ _) xs ys := (List.forall₂_and_left _ _).2 ⟨fun x hm => hm, e2⟩
      refine e3.imp fun x y hxy => ?_
      obtain ⟨hm, h1, h2, h3⟩ := hxy
      refine ⟨h1, ⟨?_, h2⟩, f x, hf x hm, h3⟩
      have h4 : Spec.op b.side b.data y =
          (trace (Spec.op b.side b.data (f x)))⁻¹ • Spec.op b.side b.data (f x) := by
        conv_rhs => rw [h3, Matrix.trace_smul, h2]
        rw [smul_smul, smul_eq_mul, mul_one, inv_mul_cancel₀ (hft x hm).ne', one_smul]
      rw [h4]
      exact (hfp x hm).smul (inv_nonneg.2 (hft x hm).le)
  · rintro ⟨x, hm, hn⟩
    rw [canonicalize, if_neg hne]
    by_cases hall : ∀ x ∈ xs, ∃ z, truncNegEigs b eig x = .ok z
    · choose! f hf using hall
      have hM : xs.mapM (truncNegEigs b eig) = .ok (xs.map f) := by
        apply mapM_forall₂
        rw [List.forall₂_map_right_iff]
        exact List.forall₂_same.2 hf
      rw [hM]
      change renormalize b.dim (xs.map f) = _
      rw [hdim]
      refine (C41_renormalize h hs (xs.map f) (by
        intro y hy
        obtain ⟨x, hm, rfl⟩ := List.mem_map.1 hy
        exact ((hT x hm).1 _ (hf x hm)).1)).2 ⟨f x, List.mem_map.2 ⟨x, hm, rfl⟩, ?_⟩
      have h0 : Spec.op b.side b.data x = 0 := by
        rcases (hT x hm).2.2.1 ⟨_, hf x hm⟩ with h0 | h0
        · exact h0
        · exact absurd hn h0
      have e1 := (hT x hm).2.1 (by rw [h0]; exact PosSemidef.zero)
      rw [hf x hm, Except.ok.injEq] at e1
      rw [e1, h0, Matrix.trace_zero]
    · push Not at hall
      obtain ⟨x', hm', hx'⟩ := hall
      have key : ∀ z ∈ xs, truncNegEigs b eig z = .error .assertionError ∨
          ∃ y, truncNegEigs b eig z = .ok y := by
        intro z hz
        by_cases hp : (Spec.op b.side b.data z).PosSemidef
        · exact Or.inr ⟨z, (hT z hz).2.1 hp⟩
        · obtain ⟨P, -, -, -, e4, e5⟩ := trunc_neg h eig hE z (hx z hz) hp
          by_cases hnz : (-Spec.op b.side b.data z).PosSemidef
          · exact Or.inl (e4 hnz)
          · exact Or.inr ⟨_, e5 hnz⟩
      rw [mapM_error_of xs key ⟨x', hm', by
        rcases key x' hm' with h1 | ⟨y, h1⟩
        · exact h1
        · exact absurd h1 (hx' y)⟩]
      rfl

/-- C41: density operators pass through `canonicalize` unchanged, with either setting. -/
theorem C41_density_unchanged (h : Spec.IsTomoBasis b.side b.data) (hdim : b.dim = b.side)
    (hs : 0 < b.side) (eig : Plane → EigResult) (hE : EigContract b.side eig) (allowSub : Bool)
    (xs : List (List ℝ)) (hne : xs ≠ []) (hx : ∀ x ∈ xs, x.length = b.data.length)
    (hd : ∀ x ∈ xs, Spec.IsDensity (Spec.op b.side b.data x)) :
    canonicalize b eig allowSub xs = .ok xs := by
  have hM : xs.mapM (truncNegEigs b eig) = .ok xs := by
    apply mapM_forall₂
    exact List.forall₂_same.2 fun x hm => trunc_pos h eig hE x (hx x hm) (hd x hm).1
  rw [canonicalize, if_neg hne, hM]
  cases allowSub with
  | true => rfl
  | false =>
    change renormalize b.dim xs = _
    rw [hdim]
    obtain ⟨ys, e1, e2⟩ := (C41_renormalize h hs xs hx).1 fun x hm => by
      rw [(hd x hm).2]; exact one_ne_zero
    rw [e1]
    congr 1
    have e3 : List.Forall₂ (fun x y => x ∈ xs ∧ _) xs ys :=
      (List.forall₂_and_left _ _).2 ⟨fun x hm => hm, e2⟩
    have : List.Forall₂ Eq xs ys := e3.imp fun x y hxy => by
      obtain ⟨hm, h1, -, h3⟩ := hxy
      rw [(hd x hm).2, one_smul] at h3
      exact op_injective _ _ h x y (hx x hm) h1 h3
    exact (List.forall₂_eq_eq_eq ▸ this : xs = ys).symm

/-- C41: with `allow_subnormalized=True` the trace is left alone: positive operators are unchanged
and all others become positive or raise `AssertionError`. -/
theorem C41_allow_subnormalized (h : Spec.IsTomoBasis b.side b.data) (eig : Plane → EigResult)
    (hE : EigContract b.side eig) (xs : List (List ℝ)) (hne : xs ≠ [])
    (hx : ∀ x ∈ xs, x.length = b.data.length) :
    ((∀ x ∈ xs, Spec.op b.side b.data x = 0 ∨ ¬ (-Spec.op b.side b.data x).PosSemidef) →
      ∃ ys, canonicalize b eig true xs = .ok ys ∧
        List.Forall₂ (fun x y => (Spec.op b.side b.data y).PosSemidef ∧
          ((Spec.op b.side b.data x).PosSemidef → y = x)) xs ys) ∧
    ((∃ x ∈ xs, Spec.op b.side b.data x ≠ 0 ∧ (-Spec.op b.side b.data x).PosSemidef) →
      canonicalize b eig true xs = .error .assertionError) := by
  have hT := fun x hm => C41_truncation_positive h eig hE x (hx x hm)
  constructor
  · intro hpos
    have hz : ∀ x ∈ xs, ∃ z, truncNegEigs b eig x = .ok z := fun x hm =>
      (hT x hm).2.2.2 (hpos x hm)
    choose! f hf using hz
    have hM : xs.mapM (truncNegEigs b eig) = .ok (xs.map f) := by
      apply mapM_forall₂
      rw [List.forall₂_map_right_iff]
      exact List.forall₂_same.2 hf
    refine ⟨xs.map f, by rw [canonicalize, if_neg hne, hM]; rfl, ?_⟩
    rw [List.forall₂_map_right_iff]
    refine List.forall₂_same.2 fun x hm => ⟨((hT x hm).1 _ (hf x hm)).2, fun hp => ?_⟩
    have := (hT x hm).2.1 hp
    rw [hf x hm, Except.ok.injEq] at this
    exact this
  · rintro ⟨x, hm, h0, hn⟩
    have key : ∀ z ∈ xs, truncNegEigs b eig z = .error .assertionError ∨
        ∃ y, truncNegEigs b eig z = .ok y := by
      intro z hz
      by_cases hp : (Spec.op b.side b.data z).PosSemidef
      · exact Or.inr ⟨z, (hT z hz).2.1 hp⟩
      · obtain ⟨P, -, -, -, e4, e5⟩ := trunc_neg h eig hE z (hx z hz) hp
        by_cases hnz : (-Spec.op b.side b.data z).PosSemidef
        · exact Or.inl (e4 hnz)
        · exact Or.inr ⟨_, e5 hnz⟩
    rw [canonicalize, if_neg hne, mapM_error_of xs key ⟨x, hm, by
      rcases key x hm with h1 | h1
      · exact h1
      · rcases (hT x hm).2.2.1 h1 with h2 | h2
        · exact absurd h2 h0
        · exact absurd hn h2⟩]
    rfl

/-- C41: an array without rows is rejected by NumPy. -/
theorem C41_no_rows (eig : Plane → EigResult) (allowSub : Bool) :
    canonicalize b eig allowSub [] = .error .valueError := by
  rw [canonicalize, if_pos rfl]

/-! ## Likelihood -/

/-- Parseval: the real inner product of parameter vectors is the trace inner product. -/
theorem trace_op_mul (h : Spec.IsTomoBasis b.side b.data) (m x : List ℝ)
    (hm : m.length = b.data.length) (hx : x.length = b.data.length) :
    trace (Spec.op b.side b.data m * Spec.op b.side b.data x) =
      (((m.zip x).map fun p => p.1 * p.2).sum : ℝ) := by
  have hH : (Spec.op b.side b.data m)ᴴ = Spec.op b.side b.data m :=
    (op_isHermitian _ _ _ h.herm).eq
  rw [← hH]
  have e1 : trace ((Spec.op b.side b.data m)ᴴ * Spec.op b.side b.data x) =
      ∑ a : Fin b.data.length, ∑ c : Fin b.data.length, ((m.getD a 0 * x.getD c 0 : ℝ) : ℂ) *
        trace ((Spec.mat b.side b.data[a])ᴴ * Spec.mat b.side b.data[c]) := by
    unfold Spec.op
    rw [Matrix.conjTranspose_sum, Matrix.sum_mul, Matrix.trace_sum]
    refine Finset.sum_congr rfl fun a _ => ?_
    rw [Matrix.mul_sum, Matrix.trace_sum]
    refine Finset.sum_congr rfl fun c _ => ?_
    rw [Matrix.conjTranspose_smul, Matrix.smul_mul, Matrix.mul_smul, Matrix.trace_smul,
      Matrix.trace_smul, Complex.star_def, Complex.conj_ofReal]
    simp only [smul_eq_mul]
    push_cast
    ring
  rw [e1]
  have e2 : ∀ a c : Fin b.data.length,
      trace ((Spec.mat b.side b.data[a])ᴴ * Spec.mat b.side b.data[c]) =
        if a = c then 1 else 0 := by
    intro a c
    have := h.ortho a c a.2 c.2
    simp only [Fin.getElem_fin] at this ⊢
    rw [this]
    simp only [Fin.ext_iff]
  simp only [e2, mul_ite, mul_one, mul_zero, Finset.sum_ite_eq, Finset.mem_univ, if_true]
  have e3 : ((m.zip x).map fun p => p.1 * p.2).sum =
      ∑ a : Fin b.data.length, m.getD a 0 * x.getD a 0 := by
    rw [← List.sum_ofFn]
    congr 1
    apply List.ext_getElem
    · simp [hm, hx]
    · intro n h1 h2
      simp only [List.length_ofFn] at h2
      have h3 : n < m.length := by omega
      have h4 : n < x.length := by omega
      simp [List.getD_eq_getElem?_getD, h3, h4]
  rw [e3, Complex.ofReal_sum]

/-- C41: the likelihood of outcome 1 is `Tr(M ρ)` clipped to `[0, 1]`, where `M` and `ρ` are the
operators of the measurement and of the state; outcome 0 has the complement, so every entry lies in
`[0, 1]` and the two outcomes sum to one. -/
theorem C41_likelihood (h : Spec.IsTomoBasis b.side b.data) {nM nE : Nat} (os : List ℤ)
    (hos : os ≠ []) (x : Fin nM → List ℝ) (meas : Fin nE → List ℝ)
    (hx : ∀ m, (x m).length = b.data.length) (hm : ∀ e, (meas e).length = b.data.length) :
    ∃ L, tomoLikelihood (.array os) x meas = .ok L ∧ List.Forall₂ (fun o l => ∀ m e,
      l m e = (if o = 0 then
          1 - max 0 (min 1 (trace (Spec.op b.side b.data (meas e) * Spec.op b.side b.data (x m))).re)
        else max 0 (min 1
          (trace (Spec.op b.side b.data (meas e) * Spec.op b.side b.data (x m))).re)) ∧
      0 ≤ l m e ∧ l m e ≤ 1) os L := by
  have hclip : ∀ y : ℝ, clip 0 1 y = max 0 (min 1 y) := by
    intro y
    unfold clip
    rcases le_total y 0 with h1 | h1
    · rw [max_eq_right h1, min_eq_left zero_le_one, min_eq_right (by linarith), max_eq_left h1]
    · rw [max_eq_left h1]
      rcases le_total y 1 with h2 | h2
      · rw [min_eq_left h2, min_eq_right h2, max_eq_right h1]
      · rw [min_eq_right h2, min_eq_left h2, max_eq_right zero_le_one]
  unfold tomoLikelihood pr0ToLikelihood
  dsimp only
  rw [if_neg (by simpa using hos)]
  refine ⟨_, rfl, ?_⟩
  rw [List.forall₂_map_right_iff]
  refine List.forall₂_same.2 fun o _ m e => ?_
  rw [trace_op_mul h _ _ (hm e) (hx m), Complex.ofReal_re]
  by_cases ho : o = 0
  · simp only [ho, if_true]
    rw [hclip]
    refine ⟨rfl, ?_, ?_⟩
    · have : max 0 (min 1 (((meas e).zip (x m)).map fun p => p.1 * p.2).sum) ≤ 1 :=
        max_le zero_le_one (min_le_left _ _)
      linarith
    · have := le_max_left 0 (min 1 (((meas e).zip (x m)).map fun p => p.1 * p.2).sum)
      linarith
  · simp only [ho, if_false]
    rw [hclip]
    refine ⟨by ring, ?_, ?_⟩
    · have := le_max_left 0 (min 1 (((meas e).zip (x m)).map fun p => p.1 * p.2).sum)
      linarith
    · have : max 0 (min 1 (((meas e).zip (x m)).map fun p => p.1 * p.2).sum) ≤ 1 :=
        max_le zero_le_one (min_le_left _ _)
      linarith

/-- C41: for an effect `0 ≤ M ≤ 1` and a density operator the clipping is inactive: Born's rule
holds exactly. -/
theorem C41_born_rule {d : Nat} (M ρ : Matrix (Fin d) (Fin d) ℂ) (hM : M.PosSemidef)
    (hM' : (1 - M).PosSemidef) (hρ : Spec.IsDensity ρ) :
    max 0 (min 1 (trace (M * ρ)).re) = (trace (M * ρ)).re := by
  have h1 := (Complex.nonneg_iff.1 (Spec.trace_mul_nonneg hM hρ.1)).1
  have h2 := (Complex.nonneg_iff.1 (Spec.trace_mul_nonneg hM' hρ.1)).1
  rw [Matrix.sub_mul, Matrix.one_mul, Matrix.trace_sub, hρ.2, Complex.sub_re, Complex.one_re] at h2
  rw [min_eq_right (by linarith), max_eq_right h1]

/-! ## The eigenvectors need not be orthogonal -/

/-- An eigendecomposition with orthonormal eigenvectors for every Hermitian array: the hypotheses of
the theorems above can be met in every dimension. -/
theorem exists_orthonormal_eig (d : Nat) : ∃ eig, EigContract d eig ∧ OrthonormalEig d eig := by
  classical
  have : ∀ f : Plane, ∃ e : EigResult, (Spec.mat d f).IsHermitian →
      Spec.IsEig (Spec.mat d f) (fun k => e.w k) (Spec.mat d e.v) ∧
        (Spec.mat d e.v)ᴴ * Spec.mat d e.v = 1 := by
    intro f
    by_cases hf : (Spec.mat d f).IsHermitian
    · obtain ⟨w, V, h1, h2⟩ := Spec.exists_isEig hf
      refine ⟨⟨fun k => if h : k < d then w ⟨k, h⟩ else 0,
        fun i j => if h : i < d ∧ j < d then V ⟨i, h.1⟩ ⟨j, h.2⟩ else 0⟩, fun _ => ?_⟩
      have hV : (Spec.mat d fun i j => if h : i < d ∧ j < d then V ⟨i, h.1⟩ ⟨j, h.2⟩ else 0) = V := by
        ext i j; simp [Spec.mat]
      have hw : (fun k : Fin d => if h : (k : Nat) < d then w ⟨k, h⟩ else 0) = w := by
        funext k; simp
      rw [hV, hw]
      exact ⟨h1, h2⟩
    · exact ⟨⟨fun _ => 0, fun _ _ => 0⟩, fun h => absurd h hf⟩
  choose eig heig using this
  exact ⟨eig, fun f hf => (heig f hf).1, fun f hf => (heig f hf).2⟩

/-- The operator of the example, `diag(1, 1, -1)`. -/
def exA : Matrix (Fin 3) (Fin 3) ℂ := !![1, 0, 0; 0, 1, 0; 0, 0, -1]

/-- Its eigenvectors `e₁`, `(3 e₁ + 4 e₂)/5` and `e₃`. -/
noncomputable def exV : Matrix (Fin 3) (Fin 3) ℂ := !![1, 3/5, 0; 0, 4/5, 0; 0, 0, 1]

theorem exA_herm : exA.IsHermitian := by
  ext i j
  fin_cases i <;> fin_cases j <;> simp [exA]

theorem exV_isEig : Spec.IsEig exA ![1, 1, -1] exV where
  eigen := by
    ext i j
    fin_cases i <;> fin_cases j <;> simp [exA, exV, Matrix.mul_apply, Fin.sum_univ_three]
  unit := by
    intro k
    have h3 : (starRingEnd ℂ) 3 = 3 := Complex.conj_ofNat 3
    have h4 : (starRingEnd ℂ) 4 = 4 := Complex.conj_ofNat 4
    have h5 : (starRingEnd ℂ) 5 = 5 := Complex.conj_ofNat 5
    fin_cases k <;>
      simp [exV, Matrix.mul_apply, Fin.sum_univ_three, h3, h4, h5] <;> norm_num
  indep := by
    rw [Matrix.isUnit_iff_isUnit_det, Matrix.det_fin_three]
    simp [exV]

theorem exV_rebuilt : exV * diagonal ![1, 1, 0] * exVᴴ =
    !![34/25, 12/25, 0; 12/25, 16/25, 0; 0, 0, 0] := by
  have h3 : (starRingEnd ℂ) 3 = 3 := Complex.conj_ofNat 3
  have h4 : (starRingEnd ℂ) 4 = 4 := Complex.conj_ofNat 4
  have h5 : (starRingEnd ℂ) 5 = 5 := Complex.conj_ofNat 5
  ext i j
  rw [Matrix.mul_apply, Fin.sum_univ_three]
  simp only [Matrix.mul_diagonal, Matrix.conjTranspose_apply]
  fin_cases i <;> fin_cases j <;> simp [exV, h3, h4, h5] <;> norm_num

/-- C41: the full statement fails: there are eigendecompositions within the contract of
`np.linalg.eig` with which `trunc_neg_eigs` returns an operator that is not the positive part of the
given one (here `diag(1, 1, -1)`, with eigenvectors not orthogonal in the eigenspace of 1). -/
theorem C41_skew_eigenvectors : ∃ b : TomoBasis, gellMannBasis 3 = .ok b ∧
    ¬ C41TruncationStatement b := by
  classical
  obtain ⟨b, h1, hside, -, -, -, h3⟩ := C40_gell_mann 3 (by norm_num)
  refine ⟨b, h1, fun hall => ?_⟩
  have h : Spec.IsTomoBasis b.side b.data := hside ▸ h3
  -- the parameter vector of `exA`
  let fA : Plane := fun i j => if h : i < 3 ∧ j < 3 then exA ⟨i, h.1⟩ ⟨j, h.2⟩ else 0
  have hfA : Spec.mat 3 fA = exA := by ext i j; simp [Spec.mat, fA]
  obtain ⟨eig0, hE0, -⟩ := exists_orthonormal_eig 3
  let eV : EigResult := ⟨fun k => if h : k < 3 then ![1, 1, -1] ⟨k, h⟩ else 0,
    fun i j => if h : i < 3 ∧ j < 3 then exV ⟨i, h.1⟩ ⟨j, h.2⟩ else 0⟩
  have heV : Spec.mat 3 eV.v = exV := by ext i j; simp [Spec.mat, eV]
  have heW : (fun k : Fin 3 => eV.w k) = ![1, 1, -1] := by funext k; simp [eV]
  let eig : Plane → EigResult := fun f => if Spec.mat 3 f = exA then eV else eig0 f
  have hE : EigContract b.side eig := by
    rw [hside]
    intro f hf
    by_cases hfe : Spec.mat 3 f = exA
    · simp only [eig, if_pos hfe]
      rw [heV, heW, hfe]
      exact exV_isEig
    · simp only [eig, if_neg hfe]
      exact hE0 f hf
  have hfAH : (Spec.mat b.side fA).IsHermitian := by rw [hside, hfA]; exact exA_herm
  obtain ⟨x, hx1, hx2, -⟩ := C40_params_of_state b fA
  obtain ⟨g, hg1, hg2⟩ := C40_state_round_trip b h fA hfAH
  rw [hx1] at hg1
  change modelparamsToState b x = _ at hg1
  rw [modelparamsToState, if_neg (by simpa using hx2), Except.ok.injEq] at hg1
  have hop : Spec.op b.side b.data x = Spec.mat b.side fA := by
    rw [← mat_opPlane _ _ _ hx2, ← hg2, ← hg1]; rfl
  -- it is neither positive nor negative
  have hnp : ¬ (Spec.op b.side b.data x).PosSemidef := by
    rw [hop, hside, hfA]
    intro hp
    have := hp.diag_nonneg (i := 2)
    simp [exA] at this
    norm_num [Complex.nonneg_iff] at this
  have hnn : ¬ (-Spec.op b.side b.data x).PosSemidef := by
    rw [hop, hside, hfA]
    intro hp
    have := hp.diag_nonneg (i := 0)
    simp [exA] at this
    norm_num [Complex.nonneg_iff] at this
  obtain ⟨P, e1, -, -, -, e5⟩ := trunc_neg h eig hE x hx2 hnp
  have hpp := hall eig hE x _ hx2 (e5 hnn)
  have hcA : Spec.mat 3 (conjOperator b x) = exAᵀ := by
    have := mat_conjOperator x h.herm hx2
    rw [hop, hside, hfA] at this
    exact this
  have hT : exAᵀ = exA := by
    ext i j; fin_cases i <;> fin_cases j <;> simp [exA]
  have hee : eig (conjOperator b x) = eV := by
    simp only [eig]
    rw [if_pos]
    rw [hcA, hT]
  rw [hee] at hpp
  have hR := mat_rebuilt b.side eV
  have hcl : ∀ k : Fin 3, clipped eV.w k = ![1, 1, 0] k := by
    intro k
    unfold clipped
    fin_cases k <;> simp [eV, CLt0]
  have hopn : Spec.op b.side b.data (newParams b (rebuilt b.side eV)) =
      (Spec.mat b.side (rebuilt b.side eV))ᵀ := by
    refine op_newParams h _ ?_
    rw [hR]
    refine (Spec.rebuilt_pos _ _ fun k => ?_).1
    have : ∀ k : Nat, k < 3 → 0 ≤ clipped eV.w k := by
      intro k hk
      have := hcl ⟨k, hk⟩
      simp only at this
      rw [this]
      interval_cases k <;> simp
    exact this k (by have := k.2; omega)
  have hm := hpp.mul
  rw [hopn, hop, hR, hside] at hm
  have heV' : Spec.mat 3 eV.v = exV := heV
  rw [heV', hfA] at hm
  have hcl' : (fun k : Fin 3 => clipped eV.w k) = ![1, 1, 0] := by funext k; exact hcl k
  rw [hcl', exV_rebuilt] at hm
  have := congrFun (congrFun hm 0) 0
  rw [Matrix.mul_apply, Fin.sum_univ_three] at this
  simp only [exA, Matrix.transpose_apply, Matrix.sub_apply] at this
  simp at this
  norm_num at this

end QInfer
