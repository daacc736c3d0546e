import Verif.Model.Tomo
import Verif.Lemmas.Tomo
import Verif.Props.Bases

/-!
# Lemmas on the tomography model
-/

set_option linter.unusedSectionVars false

namespace QInfer

open Matrix
open scoped ComplexOrder

variable {b : TomoBasis}

/-- The operator of a parameter vector, as entries. -/
noncomputable def opPlane (l : List Plane) (x : List ℝ) : Plane :=
  fun i j => ((x.zip l).map fun p => (p.1 : ℂ) * p.2 i j).sum

theorem mat_opPlane (d : Nat) (l : List Plane) (x : List ℝ) (hx : x.length = l.length) :
    Spec.mat d (opPlane l x) = Spec.op d l x := by
  ext i j
  unfold opPlane Spec.op
  simp only [Spec.mat, Matrix.of_apply]
  rw [zip_sum x l hx, Matrix.sum_apply]
  refine Finset.sum_congr rfl fun a _ => ?_
  have ha : (a : Nat) < x.length := by rw [hx]; exact a.2
  simp [List.getD_eq_getElem?_getD, ha]

theorem op_isHermitian (d : Nat) (l : List Plane) (x : List ℝ)
    (h : ∀ f ∈ l, (Spec.mat d f).IsHermitian) : (Spec.op d l x).IsHermitian := by
  unfold Spec.op Matrix.IsHermitian
  rw [Matrix.conjTranspose_sum]
  refine Finset.sum_congr rfl fun a _ => ?_
  rw [Matrix.conjTranspose_smul, (h l[a] (List.getElem_mem _)).eq, Complex.star_def,
    Complex.conj_ofReal]

theorem op_trace (d : Nat) (l : List Plane) (x : List ℝ) (h : Spec.IsTomoBasis d l)
    (hx : x.length = l.length) :
    trace (Spec.op d l x) = ((x.headD 0 * Real.sqrt d : ℝ) : ℂ) := by
  obtain ⟨g, h1, -, h2⟩ := C40_state_of_params ⟨l, d, [], []⟩ h x hx
  rw [modelparamsToState, if_neg (by simpa using hx), Except.ok.injEq] at h1
  subst h1
  have : Spec.mat d (opPlane l x) = _ := mat_opPlane d l x hx
  dsimp only at h2
  rw [← this]
  unfold opPlane
  rw [h2, mul_comm]

theorem op_smul (d : Nat) (l : List Plane) (x : List ℝ) (c : ℝ) :
    Spec.op d l (x.map (· / c)) = ((1 / c : ℝ) : ℂ) • Spec.op d l x := by
  unfold Spec.op
  rw [Finset.smul_sum]
  refine Finset.sum_congr rfl fun a _ => ?_
  rw [smul_smul]
  congr 1
  by_cases ha : (a : Nat) < x.length
  · simp [List.getD_eq_getElem?_getD, ha]; ring
  · simp [List.getD_eq_getElem?_getD, Nat.le_of_not_lt ha]

theorem op_injective (d : Nat) (l : List Plane) (h : Spec.IsTomoBasis d l) (x y : List ℝ)
    (hx : x.length = l.length) (hy : y.length = l.length) (e : Spec.op d l x = Spec.op d l y) :
    x = y := by
  let B : TomoBasis := ⟨l, d, [], []⟩
  have key : ∀ z : List ℝ, z.length = l.length →
      stateToModelparams B d (opPlane l z) = .ok z := by
    intro z hz
    have := C40_params_round_trip B h z hz
    rw [modelparamsToState, if_neg (show ¬ z.length ≠ B.data.length by simpa using hz)] at this
    exact this
  have e1 := key x hx
  have e2 := key y hy
  rw [← mat_opPlane d l x hx, ← mat_opPlane d l y hy] at e
  have e3 : stateToModelparams B d (opPlane l x) = stateToModelparams B d (opPlane l y) := by
    unfold stateToModelparams
    split
    · rfl
    · congr 1
      refine List.map_congr_left fun p _ => ?_
      rw [show B.side = d from rfl, flat_inner, flat_inner]
      unfold inner'
      congr 1
      refine Finset.sum_congr rfl fun i hi => Finset.sum_congr rfl fun j hj => ?_
      have := congrFun (congrFun e ⟨i, Finset.mem_range.1 hi⟩) ⟨j, Finset.mem_range.1 hj⟩
      simp only [Spec.mat, Matrix.of_apply] at this
      rw [this]
  rw [e1, e2, Except.ok.injEq] at e3
  exact e3

theorem mat_conjOperator (x : List ℝ) (h : ∀ f ∈ b.data, (Spec.mat b.side f).IsHermitian)
    (hx : x.length = b.data.length) :
    Spec.mat b.side (conjOperator b x) = (Spec.op b.side b.data x)ᵀ := by
  rw [← mat_opPlane b.side b.data x hx]
  ext i j
  simp only [Spec.mat, Matrix.of_apply, Matrix.transpose_apply, conjOperator, opPlane]
  congr 1
  refine List.map_congr_left fun p hp => ?_
  have := (h p.2 (List.of_mem_zip hp).2).apply j i
  simp only [Spec.mat, Matrix.of_apply] at this
  rw [starRingEnd_apply, this]

/-- The vector computed at the end of `trunc_neg_eigs`. -/
noncomputable def newParams (b : TomoBasis) (n : Plane) : List ℝ :=
  b.data.map fun p => (((List.range (b.side * b.side)).map fun m =>
    flatRow b.side p m * flatRow b.side n m).sum).re

theorem op_newParams (h : Spec.IsTomoBasis b.side b.data) (n : Plane)
    (hn : (Spec.mat b.side n).IsHermitian) :
    Spec.op b.side b.data (newParams b n) = (Spec.mat b.side n)ᵀ := by
  have e : stateToModelparams b b.side (fun i j => n j i) = .ok (newParams b n) := by
    rw [stateToModelparams, if_neg (by simp)]
    congr 1
    unfold newParams
    refine List.map_congr_left fun p hp => ?_
    rw [sum_range_map, sum_range_map]
    unfold flatRow
    rw [sum_flat b.side fun i j => (starRingEnd ℂ) (p i j) * n j i,
      sum_flat b.side fun i j => p i j * n i j, Finset.sum_comm]
    congr 1
    refine Finset.sum_congr rfl fun i hi => Finset.sum_congr rfl fun j hj => ?_
    have := (h.herm p hp).apply ⟨i, Finset.mem_range.1 hi⟩ ⟨j, Finset.mem_range.1 hj⟩
    simp only [Spec.mat, Matrix.of_apply] at this
    rw [starRingEnd_apply, this]
  have hf : (Spec.mat b.side fun i j => n j i).IsHermitian := by
    ext i j
    exact hn.apply j i
  obtain ⟨g, h1, h2⟩ := C40_state_round_trip b h _ hf
  rw [e] at h1
  change modelparamsToState b (newParams b n) = _ at h1
  have hl : (newParams b n).length = b.data.length := by simp [newParams]
  rw [modelparamsToState, if_neg (by simpa using hl), Except.ok.injEq] at h1
  rw [← mat_opPlane _ _ _ hl]
  have : opPlane b.data (newParams b n) = g := h1
  rw [this, h2]
  rfl

/-- The clipped eigenvalues. -/
noncomputable def clipped (w : Nat → ℂ) (k : Nat) : ℂ := by
  classical exact if CLt0 (w k) then 0 else w k

theorem mat_rebuilt (d : Nat) (e : EigResult) :
    Spec.mat d (rebuilt d e) =
      Spec.mat d e.v * diagonal (fun k : Fin d => clipped e.w k) * (Spec.mat d e.v)ᴴ := by
  ext i j
  rw [Matrix.mul_apply]
  simp only [Matrix.mul_diagonal, Matrix.conjTranspose_apply, Spec.mat, Matrix.of_apply, rebuilt]
  rw [sum_range_map, Finset.sum_range]
  rfl

/-- The contract of `np.linalg.eig` on the Hermitian arrays. -/
def EigContract (d : Nat) (eig : Plane → EigResult) : Prop :=
  ∀ f, (Spec.mat d f).IsHermitian →
    Spec.IsEig (Spec.mat d f) (fun k => (eig f).w k) (Spec.mat d (eig f).v)

/-- The eigenvectors returned are orthonormal. -/
def OrthonormalEig (d : Nat) (eig : Plane → EigResult) : Prop :=
  ∀ f, (Spec.mat d f).IsHermitian → (Spec.mat d (eig f).v)ᴴ * Spec.mat d (eig f).v = 1

theorem real_im {z : ℂ} (h : star z = z) : z.im = 0 := by
  have := congrArg Complex.im h
  simp at this
  linarith

theorem cge0_iff {z : ℂ} (h : star z = z) : CGe0 z ↔ 0 ≤ z := by
  have hz := real_im h
  unfold CGe0
  rw [Complex.nonneg_iff]
  constructor
  · rintro (h1 | h1)
    · exact ⟨h1.le, hz.symm⟩
    · exact ⟨h1.1.ge, hz.symm⟩
  · rintro ⟨h1, -⟩
    rcases h1.lt_or_eq with h2 | h2
    · exact Or.inl h2
    · exact Or.inr ⟨h2.symm, hz.ge⟩

theorem clipped_facts {w : Nat → ℂ} {k : Nat} (h : star (w k) = w k) :
    0 ≤ clipped w k ∧ 0 ≤ clipped w k - w k ∧ clipped w k * (clipped w k - w k) = 0 ∧
      ((0 < (clipped w k).re) ↔ 0 < (w k).re) := by
  have hz := real_im h
  unfold clipped
  by_cases hc : CLt0 (w k)
  · rw [if_pos hc]
    have hr : (w k).re < 0 := by
      rcases hc with h1 | h1
      · exact h1
      · rw [hz] at h1; exact absurd h1.2 (lt_irrefl _)
    refine ⟨le_refl _, ?_, by simp, ?_⟩
    · rw [zero_sub, Complex.nonneg_iff]
      simp only [Complex.neg_re, Complex.neg_im, hz]
      exact ⟨by linarith, by simp⟩
    · simp; linarith
  · rw [if_neg hc]
    refine ⟨?_, by simp, by simp, Iff.rfl⟩
    rw [Complex.nonneg_iff]
    refine ⟨?_, hz.symm⟩
    by_contra hlt
    exact hc (Or.inl (by linarith))

/-- The two outcomes of `trunc_neg_eigs`: unchanged, for a positive operator … -/
theorem trunc_pos (h : Spec.IsTomoBasis b.side b.data) (eig : Plane → EigResult)
    (hE : EigContract b.side eig) (x : List ℝ) (hx : x.length = b.data.length)
    (hp : (Spec.op b.side b.data x).PosSemidef) : truncNegEigs b eig x = .ok x := by
  have hm := mat_conjOperator x h.herm hx
  have hA : (Spec.mat b.side (conjOperator b x)).PosSemidef := by rw [hm]; exact hp.transpose
  have he := hE _ hA.1
  rw [truncNegEigs, if_neg (by simpa using hx)]
  dsimp only
  rw [if_pos]
  intro k hk
  exact (cge0_iff (he.real hA.1 ⟨k, hk⟩)).2 ((he.posSemidef_iff hA.1).1 hA ⟨k, hk⟩)

/-- … and otherwise rebuilt. -/
theorem trunc_neg (h : Spec.IsTomoBasis b.side b.data) (eig : Plane → EigResult)
    (hE : EigContract b.side eig) (x : List ℝ) (hx : x.length = b.data.length)
    (hp : ¬ (Spec.op b.side b.data x).PosSemidef) :
    ∃ P, Spec.op b.side b.data (newParams b (rebuilt b.side (eig (conjOperator b x)))) = P ∧
      P.PosSemidef ∧
      (OrthonormalEig b.side eig ∨ Function.Injective (fun k : Fin b.side =>
        (eig (conjOperator b x)).w k) → Spec.IsPosPart (Spec.op b.side b.data x) P) ∧
      ((-Spec.op b.side b.data x).PosSemidef →
        truncNegEigs b eig x = .error .assertionError) ∧
      (¬ (-Spec.op b.side b.data x).PosSemidef → truncNegEigs b eig x =
        .ok (newParams b (rebuilt b.side (eig (conjOperator b x))))) := by
  have hm := mat_conjOperator x h.herm hx
  have hH : (Spec.op b.side b.data x).IsHermitian := op_isHermitian _ _ _ h.herm
  have hA : (Spec.mat b.side (conjOperator b x)).IsHermitian := by
    rw [hm]; exact hH.transpose
  have he := hE _ hA
  generalize hev : eig (conjOperator b x) = e at *
  have hreal := fun k => he.real hA k
  have hf : ∀ k : Fin b.side, _ := fun k => clipped_facts (w := e.w) (k := k) (hreal k)
  have hR := mat_rebuilt b.side e
  have hRp : (Spec.mat b.side (rebuilt b.side e)).PosSemidef := by
    rw [hR]; exact Spec.rebuilt_pos _ _ fun k => (hf k).1
  have hop := op_newParams h (rebuilt b.side e) hRp.1
  have hnpA : ¬ (Spec.mat b.side (conjOperator b x)).PosSemidef := by
    rw [hm]; intro h'; exact hp (by simpa using h'.transpose)
  have hside : 0 < b.side := by
    rcases Nat.eq_zero_or_pos b.side with h0 | h0
    · exfalso
      apply hnpA
      rw [he.posSemidef_iff hA]
      intro k; have := k.2; omega
    · exact h0
  refine ⟨_, hop, hRp.transpose, ?_, ?_⟩
  · intro hor
    have hV : (Spec.mat b.side e.v)ᴴ * Spec.mat b.side e.v = 1 := by
      rcases hor with ho | ho
      · have := ho _ hA; rwa [hev] at this
      · exact he.orthonormal hA ho
    have := Spec.rebuilt_posPart he hV (fun k => clipped e.w k) (fun k => (hf k).1)
      (fun k => (hf k).2.1) (fun k => (hf k).2.2.1)
    rw [← hR, hm] at this
    refine ⟨this.pos.transpose, ?_, ?_⟩
    · have := this.neg.transpose
      simpa using this
    · have hmul := congrArg Matrix.transpose this.mul
      rw [Matrix.transpose_mul] at hmul
      simp only [Matrix.transpose_sub, Matrix.transpose_transpose, Matrix.transpose_zero] at hmul
      have h2 := congrArg Matrix.conjTranspose hmul
      rw [Matrix.conjTranspose_mul, Matrix.conjTranspose_zero, Matrix.conjTranspose_sub,
        hH.eq, (hRp.transpose).1.eq] at h2
      exact h2
  · -- the value of the first entry
    have hall : ¬ ∀ k < b.side, CGe0 (e.w k) := by
      intro hall
      apply hnpA
      rw [he.posSemidef_iff hA]
      intro k
      exact (cge0_iff (hreal k)).1 (hall k k.2)
    have hlen : (newParams b (rebuilt b.side e)).length = b.data.length := by simp [newParams]
    have htr := op_trace b.side b.data _ h hlen
    rw [hop, Matrix.trace_transpose, hR, Spec.rebuilt_trace _ _ he.unit] at htr
    have hsq : 0 < Real.sqrt b.side := Real.sqrt_pos.2 (by exact_mod_cast hside)
    have hpos : 0 < (newParams b (rebuilt b.side e)).headD 0 ↔
        ¬ (-Spec.op b.side b.data x).PosSemidef := by
      have h1 : (newParams b (rebuilt b.side e)).headD 0 * Real.sqrt b.side =
          ∑ k : Fin b.side, (clipped e.w k).re := by
        have := congrArg Complex.re htr
        rw [Complex.re_sum, Complex.ofReal_re] at this
        exact this.symm
      have h2 : (-Spec.op b.side b.data x).PosSemidef ↔ ∀ k : Fin b.side, (e.w k).re ≤ 0 := by
        have h3 : (-Spec.op b.side b.data x).PosSemidef ↔
            (-Spec.mat b.side (conjOperator b x)).PosSemidef := by
          rw [hm, ← Matrix.transpose_neg, Matrix.posSemidef_transpose_iff]
        rw [h3, he.neg.posSemidef_iff hA.neg]
        refine forall_congr' fun k => ?_
        rw [Complex.nonneg_iff]
        simp only [Complex.neg_re, Complex.neg_im, real_im (hreal k)]
        constructor
        · intro h4; linarith [h4.1]
        · intro h4; exact ⟨by linarith, by simp⟩
      have h3 : ∀ k : Fin b.side, 0 ≤ (clipped e.w k).re := fun k =>
        (Complex.nonneg_iff.1 (hf k).1).1
      rw [h2]
      constructor
      · intro h4 h5
        have h6 : ∑ k : Fin b.side, (clipped e.w k).re = 0 := by
          refine Finset.sum_eq_zero fun k _ => le_antisymm ?_ (h3 k)
          by_contra h7
          have := (hf k).2.2.2.1 (by linarith)
          linarith [h5 k]
        rw [h6] at h1
        have := mul_pos h4 hsq
        linarith
      · intro h4
        push Not at h4
        obtain ⟨k, hk⟩ := h4
        have h5 : 0 < ∑ k : Fin b.side, (clipped e.w k).re :=
          Finset.sum_pos' (fun k _ => h3 k) ⟨k, Finset.mem_univ _, (hf k).2.2.2.2 hk⟩
        rw [← h1] at h5
        exact (pos_iff_pos_of_mul_pos h5).2 hsq
    have hT : truncNegEigs b eig x =
        if 0 < (newParams b (rebuilt b.side e)).headD 0 then
          .ok (newParams b (rebuilt b.side e)) else .error .assertionError := by
      rw [truncNegEigs, if_neg (by simpa using hx)]
      dsimp only
      rw [hev, if_neg hall]
      have hd0 : b.data ≠ [] := by
        intro h0
        have := h.len
        rw [h0, List.length_nil] at this
        have := Nat.mul_pos hside hside
        omega
      change (match newParams b (rebuilt b.side e) with
        | [] => Except.error PyErr.indexError
        | y0 :: _ => if 0 < y0 then .ok (newParams b (rebuilt b.side e))
          else .error .assertionError) = _
      cases hn : newParams b (rebuilt b.side e) with
      | nil =>
        exfalso
        rw [hn] at hlen
        exact hd0 (List.eq_nil_of_length_eq_zero hlen.symm)
      | cons y0 ys => rfl
    rw [hT]
    exact ⟨fun hneg => if_neg fun h0 => hpos.1 h0 hneg, fun hneg => if_pos (hpos.2 hneg)⟩

end QInfer
