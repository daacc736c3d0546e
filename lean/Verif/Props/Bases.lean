import Verif.Lemmas.BasesMore
import Mathlib.Tactic.IntervalCases
import Mathlib.Tactic.FinCases

/-!
# C40: tomography bases
-/

set_option linter.unusedSectionVars false

namespace QInfer

open Matrix

/-! ## Helper lemmas -/

/-- Sum of products of the parameters with the basis elements, over indices. -/
theorem zip_sum (x : List ℝ) (l : List Plane) (hx : x.length = l.length) (i j : Nat) :
    ((x.zip l).map fun p => (p.1 : ℂ) * p.2 i j).sum =
      ∑ a : Fin l.length, (x[a]'(by rw [hx]; exact a.2) : ℂ) * l[a] i j := by
  rw [← List.sum_ofFn]
  congr 1
  apply List.ext_getElem
  · simp [hx]
  · intro n h1 h2; simp

theorem inner'_sum (d : Nat) (p : Plane) {n : Nat} (c : Fin n → ℂ) (q : Fin n → Plane) :
    inner' d p (fun i j => ∑ a, c a * q a i j) = ∑ a, c a * inner' d p (q a) := by
  unfold inner'
  simp only [Finset.mul_sum]
  rw [Finset.sum_congr rfl fun i _ => Finset.sum_comm, Finset.sum_comm]
  refine Finset.sum_congr rfl fun a _ => Finset.sum_congr rfl fun i _ =>
    Finset.sum_congr rfl fun j _ => by ring

theorem map_re_sum {n : Nat} (x : Fin n → ℝ) (a : Fin n) :
    (∑ b, (x b : ℂ) * (if a = b then 1 else 0)).re = x a := by
  simp

/-- The Hermitian part of a plane, in exact arithmetic. -/
noncomputable def hermPart (f : Plane) : Plane :=
  fun i j => (f i j + (starRingEnd ℂ) (f j i)) / 2

theorem inner'_re (d : Nat) (p f : Plane) (hp : (Spec.mat d p).IsHermitian) :
    ((inner' d p f).re : ℂ) = inner' d p (hermPart f) := by
  have hp' : ∀ i ∈ Finset.range d, ∀ j ∈ Finset.range d, (starRingEnd ℂ) (p i j) = p j i := by
    intro i hi j hj
    exact hp.apply ⟨j, Finset.mem_range.1 hj⟩ ⟨i, Finset.mem_range.1 hi⟩
  rw [Complex.re_eq_add_conj]
  have : (starRingEnd ℂ) (inner' d p f) =
      ∑ i ∈ Finset.range d, ∑ j ∈ Finset.range d,
        (starRingEnd ℂ) (p i j) * (starRingEnd ℂ) (f j i) := by
    unfold inner'
    simp only [map_sum, map_mul, Complex.conj_conj]
    rw [Finset.sum_comm]
    refine Finset.sum_congr rfl fun i hi => Finset.sum_congr rfl fun j hj => ?_
    rw [hp' i hi j hj]
  rw [this]
  unfold inner' hermPart
  rw [← Finset.sum_add_distrib, Finset.sum_div]
  refine Finset.sum_congr rfl fun i _ => ?_
  rw [← Finset.sum_add_distrib, Finset.sum_div]
  refine Finset.sum_congr rfl fun j _ => ?_
  ring

/-- Expansion of an arbitrary plane in a basis. -/
theorem expand (d : Nat) (l : List Plane) (h : Spec.IsTomoBasis d l) (f : Plane) (i j : Nat)
    (hi : i < d) (hj : j < d) : (l.map fun p => inner' d p f * p i j).sum = f i j := by
  have h1 : (l.map fun p => inner' d p f * p i j).sum =
      ∑ r ∈ Finset.range d, ∑ c ∈ Finset.range d,
        (l.map fun p => p i j * (starRingEnd ℂ) (p r c)).sum * f r c := by
    clear h
    induction l with
    | nil => simp
    | cons p l ih =>
      simp only [List.map_cons, List.sum_cons, ih]
      simp only [add_mul, Finset.sum_add_distrib]
      congr 1
      unfold inner'
      rw [Finset.sum_mul]
      refine Finset.sum_congr rfl fun r _ => ?_
      rw [Finset.sum_mul]
      refine Finset.sum_congr rfl fun c _ => by ring
  rw [h1, Finset.sum_eq_single i, Finset.sum_eq_single j]
  · rw [tomo_complete d l h i j i j hi hj hi hj]; simp
  · intro c hc hne
    rw [tomo_complete d l h i j i c hi hj hi (Finset.mem_range.1 hc), if_neg (by tauto), zero_mul]
  · intro hn; exact absurd (Finset.mem_range.2 hj) hn
  · intro r hr hne
    refine Finset.sum_eq_zero fun c hc => ?_
    rw [tomo_complete d l h i j r c hi hj (Finset.mem_range.1 hr) (Finset.mem_range.1 hc),
      if_neg (by tauto), zero_mul]
  · intro hn; exact absurd (Finset.mem_range.2 hi) hn

/-! ## The Gell-Mann basis -/

/-- C40: in every dimension from one on, `gell_mann_basis` returns `dim²` Hermitian, orthonormal
operators of which the first is the identity over `√dim`. -/
theorem C40_gell_mann (d : Nat) (hd : 0 < d) :
    ∃ b, gellMannBasis d = .ok b ∧ b.side = d ∧ b.dims = [d] ∧ b.dim = d ∧
      b.labels.length = b.data.length ∧ Spec.IsTomoBasis d b.data := by
  refine ⟨_, by rw [gellMannBasis, if_neg (by omega), if_neg (gm_shape d)], rfl, rfl, by simp [TomoBasis.dim, tomoBasisInit],
    by simp [tomoBasisInit], gm_isTomoBasis d hd⟩

/-- C40: the elements themselves: element `0` is the identity over `√d`, elements `1 … d-1` are
diagonal with `b` ones, one entry `-b` and zeros over `√(b + b²)`, and for `j < i` the elements
numbered `i(i-1)/2 + j + d` and `d(d-1)/2` further on have `1/√2` and `±i/√2` in the cells `(i, j)`
and `(j, i)` and zero elsewhere. -/
theorem C40_gell_mann_elements (d : Nat) (b : TomoBasis) (h : gellMannBasis d = .ok b) :
    (∀ a (ha : a < b.data.length), a < d → a ≠ 0 → ∀ i < d, ∀ j < d, b.data[a] i j =
      if i ≠ j then 0 else
        (((if i < a then 1 else if i = a then -(a : ℝ) else 0) / Real.sqrt (a + a ^ 2) : ℝ) : ℂ)) ∧
    (∀ i j, j < i → i < d → ∃ (h1 : i * (i - 1) / 2 + j + d < b.data.length)
      (h2 : i * (i - 1) / 2 + j + d + d * (d - 1) / 2 < b.data.length),
      (∀ r c, b.data[i * (i - 1) / 2 + j + d] r c =
        if (r = i ∧ c = j) ∨ (r = j ∧ c = i) then 1 / (Real.sqrt 2 : ℂ) else 0) ∧
      (∀ r c, b.data[i * (i - 1) / 2 + j + d + d * (d - 1) / 2] r c =
        if r = i ∧ c = j then Complex.I / (Real.sqrt 2 : ℂ)
        else if r = j ∧ c = i then -Complex.I / (Real.sqrt 2 : ℂ) else 0)) := by
  unfold gellMannBasis at h
  by_cases hd : d = 0
  · rw [if_pos hd] at h; simp at h
  · rw [if_neg hd, if_neg (gm_shape d), Except.ok.injEq] at h
    subst h
    have hL : ((List.range (d ^ 2)).map (gellMannArray d)).length = d ^ 2 := by simp
    have hG : ∀ a (ha : a < ((List.range (d ^ 2)).map (gellMannArray d)).length),
        ((List.range (d ^ 2)).map (gellMannArray d))[a] = gellMannArray d a := by
      intro a ha; simp
    constructor
    · intro a ha' ha h0 i hi j hj
      change (((List.range (d ^ 2)).map (gellMannArray d))[a]'ha') i j = _
      rw [hG a ha']
      rw [gellMannArray_low d a ha i j hi]
      unfold gmDiag
      rw [if_neg h0]
      by_cases hij : i = j <;> simp [hij]
    · intro i j hj hi
      have t1 := tri_comm i
      have t2 := tri_comm d
      have hlt := tri_lt hj hi
      have hsq := sq_eq_tri d
      have e1 : i * (i - 1) / 2 + j + d < ((List.range (d ^ 2)).map (gellMannArray d)).length := by omega
      have e2 : i * (i - 1) / 2 + j + d + d * (d - 1) / 2 < ((List.range (d ^ 2)).map (gellMannArray d)).length := by
        omega
      refine ⟨e1, e2, fun r c => ?_, fun r c => ?_⟩
      · change (((List.range (d ^ 2)).map (gellMannArray d))[i * (i - 1) / 2 + j + d]'e1) r c = _
        rw [hG _ e1, t1, gellMannArray_sym d i j hj hi]
        unfold offPlane
        by_cases h1 : r = i ∧ c = j
        · simp [h1]
        · by_cases h2 : r = j ∧ c = i <;> simp [h1, h2]
      · change (((List.range (d ^ 2)).map (gellMannArray d))[i * (i - 1) / 2 + j + d + d * (d - 1) / 2]'e2) r c = _
        rw [hG _ e2, t1, t2, gellMannArray_asym d i j hj hi]
        rfl

/-- C40: labels.  A list of labels is kept; a single label gets the subscripts `0, …, dim² - 1`, without
one it is `B`. -/
theorem C40_labels (data : List Plane) (side : Nat) (dims : List Nat) :
    (∀ l, (tomoBasisInit data side dims (.list l)).labels = l) ∧
    ∀ arg s, (arg = .str s ∨ arg = .none ∧ s = "B") →
      (tomoBasisInit data side dims arg).labels.length = dims.prod ^ 2 ∧
      ∀ i, i < dims.prod ^ 2 →
        (tomoBasisInit data side dims arg).labels[i]? = some (s!"{s}_{i}") := by
  refine ⟨fun _ => rfl, ?_⟩
  rintro arg s (rfl | ⟨rfl, rfl⟩)
  · refine ⟨by simp [tomoBasisInit], fun i hi => ?_⟩
    simp [tomoBasisInit, List.getElem?_range hi]
    rfl
  · refine ⟨by simp [tomoBasisInit], fun i hi => ?_⟩
    simp [tomoBasisInit, List.getElem?_range hi]
    rfl

/-- C40: dimension zero is rejected. -/
theorem C40_gell_mann_zero : gellMannBasis 0 = .error .indexError := by
  rw [gellMannBasis, if_pos rfl]

/-- C40: every element of a tomography basis after the first is traceless. -/
theorem C40_traceless (d : Nat) (l : List Plane) (h : Spec.IsTomoBasis d l) (a : Nat)
    (ha : a < l.length) (h0 : a ≠ 0) : trace (Spec.mat d l[a]) = 0 := by
  have h1 := h.ortho 0 a (by omega) ha
  rw [h.first (by omega), if_neg (by omega), Matrix.conjTranspose_smul, Matrix.conjTranspose_one,
    Matrix.smul_mul, Matrix.one_mul, Matrix.trace_smul, smul_eq_mul] at h1
  rcases mul_eq_zero.1 h1 with h2 | h2
  · exfalso
    have hd : 0 < d := by
      have := h.len
      rcases Nat.eq_zero_or_pos d with h3 | h3
      · rw [h3] at this; omega
      · exact h3
    have : (0 : ℝ) < 1 / Real.sqrt d := by
      have : (0 : ℝ) < d := by exact_mod_cast hd
      positivity
    rw [star_eq_zero, Complex.ofReal_eq_zero] at h2
    linarith
  · exact h2

/-! ## Conversions -/

/-- C40: parameters → state → parameters gives the parameters back, for every real vector of the
right length. -/
theorem C40_params_round_trip (b : TomoBasis) (h : Spec.IsTomoBasis b.side b.data) (x : List ℝ)
    (hx : x.length = b.data.length) :
    (do let s ← modelparamsToState b x; stateToModelparams b b.side s) = .ok x := by
  unfold modelparamsToState
  rw [if_neg (by simpa using hx)]
  change stateToModelparams b b.side _ = _
  unfold stateToModelparams
  rw [if_neg (by simp)]
  congr 1
  apply List.ext_getElem
  · simp [hx]
  · intro n h1 h2
    rw [List.getElem_map, flat_inner]
    have : (fun i j => ((x.zip b.data).map fun p => (p.1 : ℂ) * p.2 i j).sum) =
        fun i j => ∑ a : Fin b.data.length,
          (x[a]'(by rw [hx]; exact a.2) : ℂ) * b.data[a] i j := by
      funext i j; exact zip_sum x b.data hx i j
    have hn : n < b.data.length := by omega
    change (inner' b.side (b.data[n]'hn) _).re = _
    rw [this, inner'_sum b.side b.data[n] (fun a : Fin b.data.length =>
      ((x[a]'(by rw [hx]; exact a.2) : ℝ) : ℂ)) (fun a => b.data[a])]
    rw [Finset.sum_congr rfl (g := fun a : Fin b.data.length =>
      ((x[a]'(by rw [hx]; exact a.2) : ℝ) : ℂ) * (if (⟨n, hn⟩ : Fin _) = a then 1 else 0))
      (fun a _ => by
        rw [← trace_eq_inner']
        have := h.ortho n a hn a.2
        simp only [Fin.getElem_fin] at this ⊢
        rw [this]
        simp only [Fin.ext_iff])]
    exact map_re_sum (fun a : Fin b.data.length => x[a]'(by rw [hx]; exact a.2)) ⟨n, hn⟩

/-- C40: the parameters of a state, by the trace inner product. -/
theorem C40_params_of_state (b : TomoBasis) (f : Plane) :
    ∃ x, stateToModelparams b b.side f = .ok x ∧ ∃ hx : x.length = b.data.length,
      ∀ a (ha : a < b.data.length), x[a] =
        (trace ((Spec.mat b.side b.data[a])ᴴ * Spec.mat b.side f)).re := by
  refine ⟨_, by rw [stateToModelparams, if_neg (by simp)], by simp, fun a ha => ?_⟩
  rw [List.getElem_map, flat_inner, trace_eq_inner']

/-- C40: `len(basis)` is the number of elements, and exactly the vectors of that length describe an
operator. -/
theorem C40_len (b : TomoBasis) (h : Spec.IsTomoBasis b.side b.data) (hd : b.dim = b.side) :
    b.len = b.data.length ∧ ∀ x, (∃ g, modelparamsToState b x = .ok g) ↔ x.length = b.len := by
  have hl : b.len = b.data.length := by rw [TomoBasis.len, hd, h.len, sq]
  refine ⟨hl, fun x => ?_⟩
  rw [hl]
  unfold modelparamsToState
  split_ifs with hx
  · simpa using hx
  · simpa using hx

/-- C40: state → parameters → state gives the Hermitian part of the operator … -/
theorem C40_hermitian_part (b : TomoBasis) (h : Spec.IsTomoBasis b.side b.data) (f : Plane) :
    ∃ g, (do let x ← stateToModelparams b b.side f; modelparamsToState b x) = .ok g ∧
      Spec.mat b.side g = (1 / 2 : ℂ) • (Spec.mat b.side f + (Spec.mat b.side f)ᴴ) := by
  have h1 : stateToModelparams b b.side f =
      .ok (b.data.map fun p => (inner' b.side p f).re) := by
    rw [stateToModelparams, if_neg (by simp)]
    simp only [flat_inner]
  rw [h1]
  refine ⟨fun i j => (((b.data.map fun p => (inner' b.side p f).re).zip b.data).map
    fun p => (p.1 : ℂ) * p.2 i j).sum, ?_, ?_⟩
  · change modelparamsToState b _ = _
    rw [modelparamsToState, if_neg (by simp)]
  · ext i j
    simp only [Spec.mat, Matrix.of_apply, Matrix.smul_apply, Matrix.add_apply,
      Matrix.conjTranspose_apply, smul_eq_mul]
    have h2 : (((b.data.map fun p => (inner' b.side p f).re).zip b.data).map
        fun p => (p.1 : ℂ) * p.2 i j).sum =
        (b.data.map fun p => inner' b.side p (hermPart f) * p i j).sum := by
      have hh := h.herm
      generalize b.data = l at hh
      induction l with
      | nil => simp
      | cons p l ih =>
        simp only [List.map_cons, List.zip_cons_cons, List.sum_cons]
        rw [ih fun q hq => hh q (by simp [hq]), inner'_re _ _ _ (hh p (by simp))]
    rw [h2, expand b.side b.data h (hermPart f) i j i.2 j.2]
    unfold hermPart
    rw [starRingEnd_apply]
    ring

/-- C40: … so every Hermitian operator, in particular every state, comes back unchanged. -/
theorem C40_state_round_trip (b : TomoBasis) (h : Spec.IsTomoBasis b.side b.data) (f : Plane)
    (hf : (Spec.mat b.side f).IsHermitian) :
    ∃ g, (do let x ← stateToModelparams b b.side f; modelparamsToState b x) = .ok g ∧
      Spec.mat b.side g = Spec.mat b.side f := by
  obtain ⟨g, h1, h2⟩ := C40_hermitian_part b h f
  refine ⟨g, h1, ?_⟩
  rw [h2, hf.eq, ← two_smul ℂ (Spec.mat b.side f), smul_smul]
  norm_num

/-- C40: the operator of a parameter vector is Hermitian and its trace is `√dim` times the first
parameter. -/
theorem C40_state_of_params (b : TomoBasis) (h : Spec.IsTomoBasis b.side b.data) (x : List ℝ)
    (hx : x.length = b.data.length) :
    ∃ g, modelparamsToState b x = .ok g ∧ (Spec.mat b.side g).IsHermitian ∧
      trace (Spec.mat b.side g) = ((Real.sqrt b.side * x.headD 0 : ℝ) : ℂ) := by
  refine ⟨_, by rw [modelparamsToState, if_neg (by simpa using hx)], ?_, ?_⟩
  · ext i j
    simp only [Spec.mat, Matrix.of_apply, Matrix.conjTranspose_apply]
    rw [zip_sum x b.data hx, zip_sum x b.data hx, star_sum]
    refine Finset.sum_congr rfl fun a _ => ?_
    rw [star_mul', Complex.star_def, Complex.conj_ofReal]
    congr 1
    exact (h.herm b.data[a] (List.getElem_mem _)).apply i j
  · have h1 : trace (Spec.mat b.side
        (fun i j => ((x.zip b.data).map fun p => (p.1 : ℂ) * p.2 i j).sum)) =
        ∑ a : Fin b.data.length, (x[a]'(by rw [hx]; exact a.2) : ℂ) *
          trace (Spec.mat b.side b.data[a]) := by
      simp only [Matrix.trace, Matrix.diag_apply, Spec.mat, Matrix.of_apply, Finset.mul_sum]
      rw [Finset.sum_comm]
      exact Finset.sum_congr rfl fun i _ => zip_sum x b.data hx i i
    rw [h1]
    clear h1
    cases x with
    | nil =>
      have hz : b.data.length = 0 := by rw [← hx]; rfl
      rw [Finset.sum_eq_zero fun a _ => by have := a.2; omega]
      simp
    | cons x0 xs =>
      have h0 : 0 < b.data.length := by rw [← hx]; simp
      rw [Finset.sum_eq_single ⟨0, h0⟩]
      · simp only [Fin.getElem_fin, List.getElem_cons_zero, List.headD_cons]
        rw [h.first h0, Matrix.trace_smul, Matrix.trace_one, smul_eq_mul, Fintype.card_fin]
        have hs : (1 / Real.sqrt b.side * b.side : ℝ) = Real.sqrt b.side := by
          rcases Nat.eq_zero_or_pos b.side with hz | hz
          · rw [hz]; simp
          · have : (0 : ℝ) < Real.sqrt b.side := Real.sqrt_pos.2 (by exact_mod_cast hz)
            rw [div_mul_eq_mul_div, one_mul, div_eq_iff this.ne', Real.mul_self_sqrt (by positivity)]
        have : ((1 / Real.sqrt b.side : ℝ) : ℂ) * ((b.side : ℕ) : ℂ) = ((Real.sqrt b.side : ℝ) : ℂ) := by
          exact_mod_cast congrArg (Complex.ofReal) hs
        rw [this]; push_cast; ring
      · intro a _ ha
        rw [show b.data[a] = b.data[(a : Nat)] from rfl,
          C40_traceless b.side b.data h a a.2 fun h' => ha (Fin.ext h'), mul_zero]
      · intro hn; exact absurd (Finset.mem_univ _) hn

/-- C40: vectors or states of the wrong size are rejected by both conversions. -/
theorem C40_sizes_checked (b : TomoBasis) :
    (∀ n f, n * n ≠ b.side * b.side → stateToModelparams b n f = .error .valueError) ∧
    (∀ x, x.length ≠ b.data.length → modelparamsToState b x = .error .valueError) := by
  constructor
  · intro n f hn
    rw [stateToModelparams, if_pos fun h => hn h.symm]
  · intro x hx
    rw [modelparamsToState, if_pos hx]

/-- C40: a list of vectors is converted vector by vector. -/
theorem C40_many_states (b : TomoBasis) (xs : List (List ℝ))
    (hx : ∀ x ∈ xs, x.length = b.data.length) :
    ∃ gs, modelparamsToStates b xs = .ok gs ∧
      List.Forall₂ (fun x g => modelparamsToState b x = .ok g) xs gs := by
  unfold modelparamsToStates
  induction xs with
  | nil => exact ⟨[], rfl, .nil⟩
  | cons x xs ih =>
    obtain ⟨gs, h1, h2⟩ := ih fun y hy => hx y (by simp [hy])
    have h3 : modelparamsToState b x = .ok (fun i j =>
        ((x.zip b.data).map fun p => (p.1 : ℂ) * p.2 i j).sum) := by
      rw [modelparamsToState, if_neg (by simpa using hx x (by simp))]
    refine ⟨_ :: gs, ?_, .cons h3 h2⟩
    rw [List.mapM_cons, h3, h1]
    rfl

/-! ## Tensor products -/

/-- C40: the tensor product of one or more tomography bases is a tomography basis on the product of
the dimensions, with the factors' `dims` concatenated. -/
theorem C40_tensor_product (bs : List TomoBasis) (hne : bs ≠ [])
    (h : ∀ b ∈ bs, Spec.IsTomoBasis b.side b.data) :
    ∃ t, tensorProductBasis bs = .ok t ∧ t.side = (bs.map TomoBasis.side).prod ∧
      t.dims = (bs.map TomoBasis.dims).flatten ∧ Spec.IsTomoBasis t.side t.data ∧
      ((∀ b ∈ bs, b.labels.length = b.data.length) → t.labels.length = t.data.length) ∧
      ((∀ b ∈ bs, b.dim = b.side) → t.dim = t.side) := by
  cases bs with
  | nil => exact absurd rfl hne
  | cons b bs =>
    refine ⟨_, tensorProductBasis_eq b bs fun c hc => (h c hc).len, rfl, rfl, ?_, ?_, ?_⟩
    · have := tensorPlanes_isTomoBasis b bs h
      rwa [tensorPlanes_side] at this
    · intro hl
      dsimp only
      rw [List.length_map, (tensorPlanes_isTomoBasis b bs h).len, tensorPlanes_side]
      have : ∀ cs : List TomoBasis, (∀ c ∈ cs, c.labels.length = c.side * c.side) →
          (itProduct (cs.map TomoBasis.labels)).length =
            (cs.map TomoBasis.side).prod * (cs.map TomoBasis.side).prod := by
        intro cs hcs
        induction cs with
        | nil => rfl
        | cons c cs ih =>
          simp only [List.map_cons, itProduct, List.length_flatMap, List.length_map,
            List.map_const', List.sum_replicate, smul_eq_mul, List.prod_cons]
          rw [ih fun x hx => hcs x (by simp [hx]), hcs c (by simp)]
          ring
      exact this _ fun c hc => (hl c hc).trans (h c hc).len
    · intro hd
      unfold TomoBasis.dim at hd ⊢
      dsimp only
      have : ∀ cs : List TomoBasis, (∀ c ∈ cs, c.dims.prod = c.side) →
          (cs.map TomoBasis.dims).flatten.prod = (cs.map TomoBasis.side).prod := by
        intro cs hcs
        induction cs with
        | nil => rfl
        | cons c cs ih =>
          simp only [List.map_cons, List.flatten_cons, List.prod_append, List.prod_cons]
          rw [ih fun x hx => hcs x (by simp [hx]), hcs c (by simp)]
      exact this _ hd

/-- C40: the elements of the tensor product of two bases are the Kronecker products of the elements
in lexicographic order, and further factors are multiplied on from the right. -/
theorem C40_tensor_elements (b c : TomoBasis) (bs : List TomoBasis)
    (h : ∀ x ∈ b :: bs ++ [c], x.data.length = x.side * x.side) :
    ∃ s t, tensorProductBasis (b :: bs) = .ok s ∧ tensorProductBasis (b :: bs ++ [c]) = .ok t ∧
      t.data.length = s.data.length * c.data.length ∧
      ∀ (k l : Nat) (hk : k < s.data.length) (hl : l < c.data.length)
        (hkl : k * c.data.length + l < t.data.length) (i i' j j' : Nat), i' < c.side →
        j' < c.side →
        t.data[k * c.data.length + l] (i * c.side + i') (j * c.side + j') =
          s.data[k] i j * c.data[l] i' j' := by
  refine ⟨_, _, tensorProductBasis_eq b bs fun x hx => h x (by
    simp only [List.mem_append, List.mem_cons] at hx ⊢; tauto),
    tensorProductBasis_eq b (bs ++ [c]) (by simpa using h), ?_, ?_⟩
  · have h2 : (tensorPlanes b (bs ++ [c])).2 = pairList c.side (tensorPlanes b bs).2 c.data := by
      unfold tensorPlanes; rw [List.foldl_append]; rfl
    dsimp only
    rw [h2, length_pairList]
  · intro k l hk hl hkl i i' j j' hi' hj'
    have h2 : (tensorPlanes b (bs ++ [c])).2 = pairList c.side (tensorPlanes b bs).2 c.data := by
      unfold tensorPlanes; rw [List.foldl_append]; rfl
    dsimp only at hk hkl ⊢
    have hc : 0 < c.data.length := by omega
    obtain ⟨h3, h4, h5⟩ := getElem?_pairList c.side (tensorPlanes b bs).2 c.data
      (k * c.data.length + l) (by
        have : (k + 1) * c.data.length ≤ (tensorPlanes b bs).2.length * c.data.length :=
          Nat.mul_le_mul_right _ hk
        rw [Nat.add_mul] at this; omega)
    have e1 : (k * c.data.length + l) / c.data.length = k := by
      rw [Nat.mul_comm, Nat.mul_add_div hc, Nat.div_eq_of_lt hl, Nat.add_zero]
    have e2 : (k * c.data.length + l) % c.data.length = l := by
      rw [Nat.mul_comm, Nat.mul_add_mod, Nat.mod_eq_of_lt hl]
    simp only [e1, e2] at h5
    rw [← h2, List.getElem?_eq_getElem hkl, Option.some.injEq] at h5
    rw [h5]
    unfold kronPlane
    have hs : 0 < c.side := by omega
    rw [Nat.mul_comm i, Nat.mul_comm j, Nat.mul_add_div hs, Nat.mul_add_div hs,
      Nat.div_eq_of_lt hi', Nat.div_eq_of_lt hj', Nat.mul_add_mod, Nat.mul_add_mod,
      Nat.mod_eq_of_lt hi', Nat.mod_eq_of_lt hj']
    simp

/-- C40: no factors, in particular `pauli_basis(0)`, is a `TypeError`. -/
theorem C40_no_factors :
    tensorProductBasis [] = .error .typeError ∧
    ∀ nq : Int, nq ≤ 0 → ∃ b1, pauliBasis 1 = .ok b1 ∧ pauliBasis nq = .error .typeError := by
  refine ⟨rfl, fun nq hnq => ?_⟩
  have hz : nq.toNat = 0 := by omega
  obtain ⟨gm, h1, hs, -, -, -, h2⟩ := C40_gell_mann 2 (by norm_num)
  have hl := h2.len
  have h3 : ∃ ps, takePlanes gm.data [0, 2, 3, 1] = .ok ps ∧ ps.length = 4 := by
    refine ⟨[gm.data[0], gm.data[2], gm.data[3], gm.data[1]], ?_, rfl⟩
    unfold takePlanes
    simp only [List.mapM_cons, List.mapM_nil,
      List.getElem?_eq_getElem (show 0 < gm.data.length by omega),
      List.getElem?_eq_getElem (show 1 < gm.data.length by omega),
      List.getElem?_eq_getElem (show 2 < gm.data.length by omega),
      List.getElem?_eq_getElem (show 3 < gm.data.length by omega)]
    rfl
  obtain ⟨ps, h4, h5⟩ := h3
  unfold pauliBasis
  rw [h1]
  dsimp only [bind, Except.bind]
  rw [h4]
  dsimp only
  rw [hz]
  exact ⟨_, tensorProductBasis_eq _ [] (by simp [tomoBasisInit, h5]), rfl⟩

/-- The four Pauli matrices. -/
def pauliMat : Fin 4 → Matrix (Fin 2) (Fin 2) ℂ
  | 0 => !![1, 0; 0, 1]
  | 1 => !![0, 1; 1, 0]
  | 2 => !![0, -Complex.I; Complex.I, 0]
  | 3 => !![1, 0; 0, -1]

theorem pauli_planes : ∃ gm ps, gellMannBasis 2 = .ok gm ∧
    takePlanes gm.data [0, 2, 3, 1] = .ok ps ∧ ps =
      [gellMannArray 2 0, gellMannArray 2 2, gellMannArray 2 3, gellMannArray 2 1] := by
  refine ⟨_, _, by rw [gellMannBasis, if_neg (by norm_num), if_neg (gm_shape 2)], ?_, rfl⟩
  unfold takePlanes
  simp only [tomoBasisInit]
  rfl

theorem pauli_one_isTomoBasis : Spec.IsTomoBasis 2
    [gellMannArray 2 0, gellMannArray 2 2, gellMannArray 2 3, gellMannArray 2 1] := by
  have h := gm_isTomoBasis 2 (by norm_num)
  have hm : ∀ a, a < 4 → gellMannArray 2 a ∈ (List.range (2 ^ 2)).map (gellMannArray 2) :=
    fun a ha => List.mem_map.2 ⟨a, List.mem_range.2 ha, rfl⟩
  refine ⟨rfl, ?_, ?_, ?_⟩
  · intro f hf
    simp only [List.mem_cons, List.not_mem_nil, or_false] at hf
    rcases hf with rfl | rfl | rfl | rfl
    · exact h.herm _ (hm 0 (by norm_num))
    · exact h.herm _ (hm 2 (by norm_num))
    · exact h.herm _ (hm 3 (by norm_num))
    · exact h.herm _ (hm 1 (by norm_num))
  · intro a b ha hb
    rw [trace_eq_inner']
    simp only [List.length_cons, List.length_nil] at ha hb
    have g := fun a b ha hb => gm_inner 2 a b ha hb
    interval_cases a <;> interval_cases b <;>
      simp only [List.getElem_cons_zero, List.getElem_cons_succ] <;>
      rw [g _ _ (by norm_num) (by norm_num)] <;> rfl
  · intro _
    have := h.first (by simp)
    simpa using this

/-- C40: `pauli_basis(nq)` is a tomography basis on `nq` qubits for every `nq ≥ 1`; on one qubit its
elements are the Pauli matrices over `√2`, in the order identity, X, Y, Z. -/
theorem C40_pauli (nq : Nat) (hq : 0 < nq) :
    ∃ t, pauliBasis nq = .ok t ∧ t.side = 2 ^ nq ∧ t.dims = List.replicate nq 2 ∧
      Spec.IsTomoBasis (2 ^ nq) t.data ∧ t.labels.length = 4 ^ nq ∧
      (nq = 1 → t.labels = ["𝟙", "\\sigma_x", "\\sigma_y", "\\sigma_z"] ∧
        ∀ (a : Fin 4) (ha : (a : Nat) < t.data.length),
          Spec.mat 2 t.data[a] = (1 / (Real.sqrt 2 : ℂ)) • pauliMat a) := by
  obtain ⟨gm, ps, h1, h2, h3⟩ := pauli_planes
  have hT := pauli_one_isTomoBasis
  rw [← h3] at hT
  let one : TomoBasis :=
    tomoBasisInit ps 2 [2] (.list ["𝟙", "\\sigma_x", "\\sigma_y", "\\sigma_z"])
  have hb : ∀ b ∈ List.replicate nq one, b = one := fun b hb => List.eq_of_mem_replicate hb
  have hp : pauliBasis nq = tensorProductBasis (List.replicate nq one) := by
    unfold pauliBasis
    rw [h1]
    dsimp only [bind, Except.bind]
    rw [h2]
    rfl
  obtain ⟨t, e1, e2, e3, e4, e5, -⟩ := C40_tensor_product (List.replicate nq one)
    (by simp; omega) (fun b hb' => by rw [hb b hb']; exact hT)
  have hs : t.side = 2 ^ nq := by
    rw [e2, List.map_replicate, List.prod_replicate]; rfl
  refine ⟨t, hp.trans e1, hs, ?_, hs ▸ e4, ?_, ?_⟩
  · rw [e3, List.map_replicate]
    clear hp e1 e2 e3 e4 e5 hs hb hq
    induction nq with
    | zero => rfl
    | succ n ih => rw [List.replicate_succ, List.flatten_cons, ih, List.replicate_succ]; rfl
  · rw [e5 (fun b hb' => by rw [hb b hb']; simp only [one, tomoBasisInit, h3]; rfl), e4.len, hs,
      ← mul_pow]
    norm_num
  · intro hn
    subst hn
    have e6 := tensorProductBasis_eq one [] (by
      intro c hc
      rw [List.mem_singleton] at hc
      subst hc
      exact hT.len)
    have e7 : List.replicate 1 one = [one] := rfl
    rw [e7, e6, Except.ok.injEq] at e1
    subst e1
    refine ⟨?_, ?_⟩
    · simp only [one, tomoBasisInit, List.map_cons, List.map_nil, itProduct_singleton,
        List.map_map]
      rfl
    · intro a ha
      have hd : (tensorPlanes one []).2 = ps := rfl
      have hsym : gellMannArray 2 2 = offPlane 1 0 (1 / (Real.sqrt 2 : ℂ)) (1 / (Real.sqrt 2 : ℂ)) :=
        gellMannArray_sym 2 1 0 (by norm_num) (by norm_num)
      have hasym : gellMannArray 2 3 = offPlane 1 0 (Complex.I / (Real.sqrt 2 : ℂ))
          (-Complex.I / (Real.sqrt 2 : ℂ)) := gellMannArray_asym 2 1 0 (by norm_num) (by norm_num)
      have hlow := fun b hb i j hi => gellMannArray_low 2 b hb i j hi
      have s2 : Real.sqrt (1 + 1 ^ 2) = Real.sqrt 2 := by norm_num
      simp only [hd, h3]
      fin_cases a
      · ext i j
        fin_cases i <;> fin_cases j <;>
          simp [Spec.mat, hlow, gmDiag, pauliMat]
      · ext i j
        fin_cases i <;> fin_cases j <;> simp [Spec.mat, hsym, offPlane, pauliMat]
      · ext i j
        fin_cases i <;> fin_cases j <;>
          simp [Spec.mat, hasym, offPlane, pauliMat, div_eq_mul_inv, mul_comm]
      · ext i j
        fin_cases i <;> fin_cases j <;> simp [Spec.mat, hlow, gmDiag, pauliMat] <;> norm_num [neg_div]

/-! ## Covariance superoperator -/

/-- C40: `covariance_mtx_to_superop` in QuTiP's column-stacking convention: for Hermitian operators
`X` and `Y` with parameter vectors `x` and `y`, the superoperator's matrix element between the
stacked columns of `X` and `Y` is `xᵀ mtx y`.  In particular, `X = Y` gives the variance of the
expectation value of `X`. -/
theorem C40_covariance_superop (b : TomoBasis) (X Y : Plane)
    (hX : (Spec.mat b.side X).IsHermitian) (hY : (Spec.mat b.side Y).IsHermitian)
    (hB : ∀ f ∈ b.data, (Spec.mat b.side f).IsHermitian) (mtx : Nat → Nat → ℝ) :
    ∃ S x y, covarianceToSuperop b b.data.length mtx = .ok S ∧
      stateToModelparams b b.side X = .ok x ∧ stateToModelparams b b.side Y = .ok y ∧
      ∑ i ∈ Finset.range (b.side * b.side), ∑ j ∈ Finset.range (b.side * b.side),
        (starRingEnd ℂ) (X (i % b.side) (i / b.side)) * S i j * Y (j % b.side) (j / b.side) =
      ∑ a ∈ Finset.range b.data.length, ∑ c ∈ Finset.range b.data.length,
        ((x.getD a 0 * mtx a c * y.getD c 0 : ℝ) : ℂ) := by
  have real : ∀ (f g : Plane), (Spec.mat b.side f).IsHermitian → (Spec.mat b.side g).IsHermitian →
      ((inner' b.side f g).re : ℂ) = inner' b.side f g := by
    intro f g hf hg
    rw [inner'_re _ _ _ hf]
    unfold inner'
    refine Finset.sum_congr rfl fun i hi => Finset.sum_congr rfl fun j hj => ?_
    congr 1
    unfold hermPart
    have := hg.apply ⟨i, Finset.mem_range.1 hi⟩ ⟨j, Finset.mem_range.1 hj⟩
    simp only [Spec.mat, Matrix.of_apply] at this
    rw [starRingEnd_apply, this]; ring
  have hS : covarianceToSuperop b b.data.length mtx = .ok fun i j =>
      ((List.range b.data.length).map fun c =>
        ((List.range b.data.length).map fun a =>
          (starRingEnd ℂ) (flatRow b.side (b.data.getD a 0) i) * (mtx a c : ℂ)).sum
        * flatRow b.side (b.data.getD c 0) j).sum := by
    rw [covarianceToSuperop, if_neg (by simp)]
  have hs : ∀ f, stateToModelparams b b.side f =
      .ok (b.data.map fun p => (inner' b.side p f).re) := by
    intro f
    rw [stateToModelparams, if_neg (by simp)]
    simp only [flat_inner]
  refine ⟨_, _, _, hS, hs X, hs Y, ?_⟩
  simp only [sum_range_map]
  have hget : ∀ (f : Plane) a, a ∈ Finset.range b.data.length →
      (b.data.map fun p => (inner' b.side p f).re).getD a 0 =
        (inner' b.side (b.data.getD a 0) f).re := by
    intro f a ha
    rw [Finset.mem_range] at ha
    simp [List.getD_eq_getElem?_getD, ha]
  have hmem : ∀ a, a ∈ Finset.range b.data.length → b.data.getD a 0 ∈ b.data := by
    intro a ha
    rw [Finset.mem_range] at ha
    simp [List.getD_eq_getElem?_getD, ha]
  -- the two one-sided sums
  have hleft : ∀ a ∈ Finset.range b.data.length,
      ∑ i ∈ Finset.range (b.side * b.side), (starRingEnd ℂ) (X (i % b.side) (i / b.side)) *
        (starRingEnd ℂ) (flatRow b.side (b.data.getD a 0) i) =
        ((inner' b.side (b.data.getD a 0) X).re : ℂ) := by
    intro a ha
    rw [real _ _ (hB _ (hmem a ha)) hX]
    unfold flatRow inner'
    rw [sum_flat b.side fun i j => (starRingEnd ℂ) (X j i) *
      (starRingEnd ℂ) (b.data.getD a 0 i j)]
    refine Finset.sum_congr rfl fun i hi => Finset.sum_congr rfl fun j hj => ?_
    have := hX.apply ⟨i, Finset.mem_range.1 hi⟩ ⟨j, Finset.mem_range.1 hj⟩
    simp only [Spec.mat, Matrix.of_apply] at this
    rw [starRingEnd_apply (X j i), this, mul_comm]
  have hright : ∀ c ∈ Finset.range b.data.length,
      ∑ j ∈ Finset.range (b.side * b.side), flatRow b.side (b.data.getD c 0) j *
        Y (j % b.side) (j / b.side) = ((inner' b.side (b.data.getD c 0) Y).re : ℂ) := by
    intro c hc
    rw [real _ _ (hB _ (hmem c hc)) hY]
    unfold flatRow inner'
    rw [sum_flat b.side fun i j => b.data.getD c 0 i j * Y j i, Finset.sum_comm]
    refine Finset.sum_congr rfl fun i hi => Finset.sum_congr rfl fun j hj => ?_
    have := (hB _ (hmem c hc)).apply ⟨j, Finset.mem_range.1 hj⟩ ⟨i, Finset.mem_range.1 hi⟩
    simp only [Spec.mat, Matrix.of_apply] at this
    rw [starRingEnd_apply, this]
  have hterm : ∀ i j, (starRingEnd ℂ) (X (i % b.side) (i / b.side)) *
      (∑ c ∈ Finset.range b.data.length,
        (∑ a ∈ Finset.range b.data.length,
          (starRingEnd ℂ) (flatRow b.side (b.data.getD a 0) i) * (mtx a c : ℂ)) *
          flatRow b.side (b.data.getD c 0) j) * Y (j % b.side) (j / b.side) =
      ∑ c ∈ Finset.range b.data.length, ∑ a ∈ Finset.range b.data.length,
        (((starRingEnd ℂ) (X (i % b.side) (i / b.side)) *
          (starRingEnd ℂ) (flatRow b.side (b.data.getD a 0) i)) * (mtx a c : ℂ)) *
        (flatRow b.side (b.data.getD c 0) j * Y (j % b.side) (j / b.side)) := by
    intro i j
    simp only [Finset.mul_sum, Finset.sum_mul]
    refine Finset.sum_congr rfl fun c _ => Finset.sum_congr rfl fun a _ => by ring
  simp only [hterm]
  have hswap : ∀ i, ∑ j ∈ Finset.range (b.side * b.side),
      ∑ c ∈ Finset.range b.data.length, ∑ a ∈ Finset.range b.data.length,
        (((starRingEnd ℂ) (X (i % b.side) (i / b.side)) *
          (starRingEnd ℂ) (flatRow b.side (b.data.getD a 0) i)) * (mtx a c : ℂ)) *
        (flatRow b.side (b.data.getD c 0) j * Y (j % b.side) (j / b.side)) =
      ∑ c ∈ Finset.range b.data.length, ∑ a ∈ Finset.range b.data.length,
        (((starRingEnd ℂ) (X (i % b.side) (i / b.side)) *
          (starRingEnd ℂ) (flatRow b.side (b.data.getD a 0) i)) * (mtx a c : ℂ)) *
        ((inner' b.side (b.data.getD c 0) Y).re : ℂ) := by
    intro i
    rw [Finset.sum_comm]
    refine Finset.sum_congr rfl fun c hc => ?_
    rw [Finset.sum_comm]
    refine Finset.sum_congr rfl fun a _ => ?_
    rw [← Finset.mul_sum, hright c hc]
  rw [Finset.sum_congr rfl fun i _ => hswap i, Finset.sum_comm, Finset.sum_comm]
  rw [Finset.sum_comm]
  rw [Finset.sum_congr rfl fun c _ => Finset.sum_comm, Finset.sum_comm]
  refine Finset.sum_congr rfl fun a ha => Finset.sum_congr rfl fun c hc => ?_
  rw [← Finset.sum_mul, ← Finset.sum_mul, hleft a ha, hget X a ha, hget Y c hc]
  push_cast
  rfl

/-! ## Concrete cases -/

/-- A tomography basis exists in every dimension, so the hypotheses above can be met: the round trip
in the Gell-Mann basis of dimension three. -/
example (x : List ℝ) (hx : x.length = 9) : ∃ b, gellMannBasis 3 = .ok b ∧
    (do let s ← modelparamsToState b x; stateToModelparams b b.side s) = .ok x := by
  obtain ⟨b, h1, h2, -, -, -, h3⟩ := C40_gell_mann 3 (by norm_num)
  refine ⟨b, h1, C40_params_round_trip b (h2 ▸ h3) x ?_⟩
  rw [hx, h3.len]

/-- A qubit and a qutrit. -/
example : ∃ b c t, gellMannBasis 2 = .ok b ∧ gellMannBasis 3 = .ok c ∧
    tensorProductBasis [b, c] = .ok t ∧ t.side = 6 ∧ t.dims = [2, 3] ∧
    Spec.IsTomoBasis 6 t.data := by
  obtain ⟨b, h1, h2, h2', -, -, h3⟩ := C40_gell_mann 2 (by norm_num)
  obtain ⟨c, k1, k2, k2', -, -, k3⟩ := C40_gell_mann 3 (by norm_num)
  obtain ⟨t, e1, e2, e3, e4, -⟩ := C40_tensor_product [b, c] (by simp) (by
    intro x hx
    simp only [List.mem_cons, List.not_mem_nil, or_false] at hx
    rcases hx with rfl | rfl
    · rwa [h2]
    · rwa [k2])
  have hs : t.side = 6 := by rw [e2]; simp [h2, k2]
  exact ⟨b, c, t, h1, k1, e1, hs, by rw [e3]; simp [h2', k2'], hs ▸ e4⟩

end QInfer
