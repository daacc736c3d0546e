import Verif.Model.Legacy
import Verif.Spec.Density
import Mathlib.MeasureTheory.Measure.Lebesgue.Basic
import Mathlib.Analysis.Matrix.PosDef
import Mathlib.LinearAlgebra.Matrix.Trace

/-!
# C109, C110: the legacy tomography models
-/

namespace QInfer

open Matrix MeasureTheory Spec
open scoped ComplexOrder

/-- `(c + x X + y Y + z Z) / 2` with the Pauli matrices. -/
noncomputable def Spec.blochOp (c x y z : ℝ) : Matrix (Fin 2) (Fin 2) ℂ :=
  (1 / 2 : ℂ) • ((c : ℂ) • 1 + (x : ℂ) • !![0, 1; 1, 0] + (y : ℂ) • !![0, -Complex.I; Complex.I, 0] +
    (z : ℂ) • !![1, 0; 0, -1])

/-- Born's rule for the effect of outcome `o` of a measurement along an axis, with visibility `v`. -/
noncomputable def Spec.born (o : ℤ) (x a : Fin 3 → ℝ) (v : ℝ) : ℝ :=
  let E := blochOp 1 (v * a 0) (v * a 1) (v * a 2)
  (trace (blochOp 1 (x 0) (x 1) (x 2) * (if o = 0 then E else 1 - E))).re

/-- The outcomes asked for. -/
def Spec.asked : OutcomesArg → List ℤ
  | .scalar o => [o]
  | .array os => os

theorem born_eq (o : ℤ) (x a : Fin 3 → ℝ) (v : ℝ) :
    born o x a v = if o = 0 then 1 / 2 * (1 + v * (x 0 * a 0 + x 1 * a 1 + x 2 * a 2))
      else 1 - 1 / 2 * (1 + v * (x 0 * a 0 + x 1 * a 1 + x 2 * a 2)) := by
  unfold born blochOp
  split
  · simp [trace, Matrix.mul_apply, Fin.sum_univ_two, Complex.add_re, Complex.mul_re]
    ring
  · simp [trace, Matrix.mul_apply, Fin.sum_univ_two, Complex.add_re, Complex.mul_re]
    ring

/-- **C109, validity.**  A row is valid exactly if it is the Bloch vector of a density operator. -/
theorem C109_valid_states (x : Fin 3 → ℝ) :
    qubitValid (List.ofFn x) = true ↔ IsDensity (blochOp 1 (x 0) (x 1) (x 2)) := by
  set M := blochOp 1 (x 0) (x 1) (x 2) with hM
  have hherm : Mᴴ = M := by
    ext i j
    fin_cases i <;> fin_cases j <;> simp [hM, blochOp, Complex.ext_iff]
  have htr : trace M = 1 := by
    simp [hM, blochOp, trace, Fin.sum_univ_two]
    ring
  have hsq : M = Mᴴ * M + ((1 - (x 0 ^ 2 + x 1 ^ 2 + x 2 ^ 2)) / 4 : ℝ) • 1 := by
    rw [hherm]
    ext i j
    fin_cases i <;> fin_cases j <;>
      simp [hM, blochOp, Matrix.mul_apply, Fin.sum_univ_two, Complex.ext_iff, pow_two] <;>
      first | (constructor <;> ring) | ring
  have hdet : M.det = (((1 - (x 0 ^ 2 + x 1 ^ 2 + x 2 ^ 2)) / 4 : ℝ) : ℂ) := by
    rw [Matrix.det_fin_two]
    simp [hM, blochOp, Complex.ext_iff, pow_two]
    constructor <;> ring
  have hq : qubitValid (List.ofFn x) = true ↔ x 0 ^ 2 + x 1 ^ 2 + x 2 ^ 2 ≤ 1 := by
    simp [qubitValid, List.ofFn_succ]
  rw [hq]
  constructor
  · intro h
    refine ⟨?_, htr⟩
    rw [hsq]
    refine (Matrix.posSemidef_conjTranspose_mul_self M).add ?_
    exact Matrix.PosSemidef.one.smul (by linarith)
  · rintro ⟨h, -⟩
    have := h.det_nonneg
    rw [hdet] at this
    have := Complex.zero_le_real.1 this
    linarith

/-- **C109, no object.**  None of the four classes can be instantiated: `domain` (and except for
`HTCircuitModel` also `simulate_experiment`) stay abstract. -/
theorem C109_not_instantiable :
    abcNew modelAbstracts pauliModelMethods = .error .typeError ∧
    abcNew modelAbstracts htMethods = .error .typeError := by
  constructor
  · unfold abcNew
    rw [if_neg]
    intro h
    exact absurd (h "domain" (by simp [modelAbstracts])) (by simp [pauliModelMethods])
  · unfold abcNew
    rw [if_neg]
    intro h
    exact absurd (h "domain" (by simp [modelAbstracts])) (by simp [htMethods])

/-- **C109, no likelihood.**  In a subclass that defines the missing methods no call of a likelihood
returns: `Model` has no `pr0_to_likelihood_array`. -/
theorem C109_likelihood_fails (outcomes : OutcomesArg) (mps axes : List (List ℝ)) (vis : List ℝ)
    (exps : List (ℤ × ℝ)) (f : List ℤ) (m : Nat) :
    (∀ L, qubitLikelihood modelAttrs outcomes mps axes vis ≠ .ok L) ∧
    (∀ L, rebitLikelihood modelAttrs outcomes mps axes ≠ .ok L) ∧
    (∀ L, multiLikelihood modelAttrs outcomes mps exps ≠ .ok L) ∧
    htLikelihood modelAttrs f m outcomes mps = .error .attributeError := by
  have h : ∀ pr0 : List (List ℝ), legacyArray modelAttrs outcomes pr0 = .error .attributeError := fun pr0 => by
    unfold legacyArray
    rw [if_neg (by simp [modelAttrs])]
  refine ⟨fun L => ?_, fun L => ?_, fun L => ?_, h _⟩
  · unfold qubitLikelihood
    simp only [bind, Except.bind, h]
    split
    · simp
    · split
      · simp
      · split <;> simp
  · unfold rebitLikelihood
    simp only [bind, Except.bind, h]
    split <;> simp
  · unfold multiLikelihood
    simp only [bind, Except.bind, h]
    split <;> simp

/-- The array of a two-outcome likelihood. -/
theorem legacyArray_ok {attrs : List String} (ha : "pr0_to_likelihood_array" ∈ attrs) (outcomes : OutcomesArg)
    (ho : asked outcomes ≠ []) (pr0 : List (List ℝ)) :
    legacyArray attrs outcomes pr0 = .ok ((asked outcomes).map fun o =>
      if o = 0 then pr0 else pr0.map fun r => r.map fun p => 1 - p) := by
  unfold legacyArray
  rw [if_pos ha]
  cases outcomes <;> simp_all [asked]

theorem bcastRows_one (a : List (List ℝ)) (y : List ℝ) :
    bcastRows a [y] = .ok (a.map fun x => List.zipWith (· * ·) x y) := by
  unfold bcastRows
  match a with
  | [] => simp
  | [x] => simp
  | x :: x' :: a => simp

theorem bcast_same (f : ℝ → ℝ → ℝ) (a b : List ℝ) (h : a.length = b.length) :
    bcast f a b = .ok (List.zipWith f a b) := by
  unfold bcast
  rw [if_pos h]

theorem bcast_left (f : ℝ → ℝ → ℝ) (x : ℝ) (b : List ℝ) : bcast f [x] b = .ok (b.map fun y => f x y) := by
  unfold bcast
  match b with
  | [] => simp
  | [y] => simp
  | y :: y' :: b => simp

theorem bcast_right (f : ℝ → ℝ → ℝ) (y : ℝ) (a : List ℝ) : bcast f a [y] = .ok (a.map fun x => f x y) := by
  unfold bcast
  match a with
  | [] => simp
  | [x] => simp
  | x :: x' :: a => simp

/-- **C109, Born's rule.**  With the helper in place and one experiment, `QubitStatePauliModel.likelihood`
is Born's rule for a measurement along the axis with limited visibility, and the values are probabilities
if the rows are valid, the axis is at most a unit vector and the visibility lies in `[0, 1]`.  Missing: the
helper, and other numbers of experiments (`C109_experiments`). -/
theorem C109_born_partial {attrs : List String} (ha : "pr0_to_likelihood_array" ∈ attrs)
    (outcomes : OutcomesArg) (ho : asked outcomes ≠ []) (xs : List (Fin 3 → ℝ)) (a : Fin 3 → ℝ) (v : ℝ) :
    qubitLikelihood attrs outcomes (xs.map List.ofFn) [List.ofFn a] [v] =
      .ok ((asked outcomes).map fun o => xs.map fun x => [born o x a v]) ∧
    ∀ x ∈ xs, qubitValid (List.ofFn x) = true → a 0 ^ 2 + a 1 ^ 2 + a 2 ^ 2 ≤ 1 → 0 ≤ v → v ≤ 1 →
      ∀ o, 0 ≤ born o x a v ∧ born o x a v ≤ 1 := by
  constructor
  · unfold qubitLikelihood
    simp only [bcastRows_one, bind, Except.bind, List.map_map, bcast_left, bcast_right, List.map_cons, List.map_nil]
    rw [legacyArray_ok ha outcomes ho]
    congr 1
    refine List.map_congr_left fun o _ => ?_
    split
    · refine List.map_congr_left fun x _ => ?_
      simp only [Function.comp, List.cons.injEq, and_true]
      rw [born_eq, if_pos (by assumption)]
      simp [List.ofFn_succ]
      ring
    · rw [List.map_map]
      refine List.map_congr_left fun x _ => ?_
      simp only [Function.comp, List.map_cons, List.map_nil, List.cons.injEq, and_true]
      rw [born_eq, if_neg (by assumption)]
      simp [List.ofFn_succ]
      ring
  · intro x _ hx hA hv0 hv1 o
    have hq : x 0 ^ 2 + x 1 ^ 2 + x 2 ^ 2 ≤ 1 := by
      simpa [qubitValid, List.ofFn_succ] using hx
    have h1 : x 0 * a 0 + x 1 * a 1 + x 2 * a 2 ≤ 1 := by
      nlinarith [sq_nonneg (x 0 - a 0), sq_nonneg (x 1 - a 1), sq_nonneg (x 2 - a 2)]
    have h2 : -1 ≤ x 0 * a 0 + x 1 * a 1 + x 2 * a 2 := by
      nlinarith [sq_nonneg (x 0 + a 0), sq_nonneg (x 1 + a 1), sq_nonneg (x 2 + a 2)]
    generalize hy : x 0 * a 0 + x 1 * a 1 + x 2 * a 2 = y at h1 h2
    have h3 : v * y ≤ 1 := by nlinarith
    have h4 : -1 ≤ v * y := by nlinarith
    rw [born_eq, hy]
    split <;> constructor <;> linarith

/-- **C109, several experiments.**  With the helper in place and `m ≥ 2` experiments the result has not
the shape outcomes × states × experiments: for `n = 1` or `n = m` states there is only one column, and
otherwise `ValueError` is raised. -/
theorem C109_experiments {attrs : List String} (ha : "pr0_to_likelihood_array" ∈ attrs)
    (outcomes : OutcomesArg) (ho : asked outcomes ≠ []) (mps axes : List (List ℝ)) (vis : List ℝ)
    (hv : vis.length = axes.length) (hm : 2 ≤ axes.length) :
    (mps.length = 1 ∨ mps.length = axes.length →
      ∃ L, qubitLikelihood attrs outcomes mps axes vis = .ok L ∧
        ∀ plane ∈ L, plane.length = axes.length ∧ ∀ row ∈ plane, row.length = 1) ∧
    (mps.length ≠ 1 → mps.length ≠ axes.length →
      qubitLikelihood attrs outcomes mps axes vis = .error .valueError) := by
  have hfin : ∀ pr0 : List ℝ, pr0.length = axes.length →
      ∃ L, legacyArray attrs outcomes (pr0.map fun p => [p]) = .ok L ∧
        ∀ plane ∈ L, plane.length = axes.length ∧ ∀ row ∈ plane, row.length = 1 := by
    intro pr0 hp
    rw [legacyArray_ok ha outcomes ho]
    refine ⟨_, rfl, fun plane hpl => ?_⟩
    obtain ⟨o, -, rfl⟩ := List.mem_map.1 hpl
    split
    · refine ⟨by simpa using hp, fun row hr => ?_⟩
      obtain ⟨p, -, rfl⟩ := List.mem_map.1 hr
      rfl
    · refine ⟨by simpa using hp, fun row hr => ?_⟩
      rw [List.map_map] at hr
      obtain ⟨p, -, rfl⟩ := List.mem_map.1 hr
      rfl
  have hrows : ∀ prod : List (List ℝ), bcastRows mps axes = .ok prod → prod.length = axes.length →
      ∃ L, qubitLikelihood attrs outcomes mps axes vis = .ok L ∧
        ∀ plane ∈ L, plane.length = axes.length ∧ ∀ row ∈ plane, row.length = 1 := by
    intro prod hp hl
    unfold qubitLikelihood
    simp only [hp, bind, Except.bind]
    rw [bcast_same _ _ _ (by simp [hv, hl])]
    dsimp only
    rw [bcast_same _ _ _ (by simp [hv, hl])]
    exact hfin _ (by simp [hv, hl])
  refine ⟨fun h => ?_, fun h1 h2 => ?_⟩
  · by_cases he : mps.length = axes.length
    · exact hrows _ (by unfold bcastRows; rw [if_pos he]) (by simp [he])
    · have h1 : mps.length = 1 := h.resolve_right he
      obtain ⟨x, rfl⟩ := List.length_eq_one_iff.1 h1
      exact hrows (axes.map fun y => List.zipWith (· * ·) x y) (by unfold bcastRows; rw [if_neg he]) (by simp)
  · unfold qubitLikelihood
    have : bcastRows mps axes = .error .valueError := by
      unfold bcastRows
      rw [if_neg h2]
      match mps, axes with
      | [], [] => simp at hm
      | [], [_] => simp at hm
      | [], _ :: _ :: _ => rfl
      | [_], _ => simp at h1
      | _ :: _ :: _, [] => simp at hm
      | _ :: _ :: _, [_] => simp at hm
      | _ :: _ :: _, _ :: _ :: _ => rfl
    simp [this, bind, Except.bind]

theorem hackClip_mem (p : ℝ) : 0 ≤ hackClip p ∧ hackClip p ≤ 1 := by
  unfold hackClip
  dsimp only
  split <;> split <;> constructor <;> linarith

theorem hackClip_id (p : ℝ) (h0 : 0 ≤ p) (h1 : p ≤ 1) : hackClip p = p := by
  unfold hackClip
  dsimp only
  rw [if_neg (not_lt.2 h0), if_neg (not_lt.2 h1)]

/-- **C109, rebits.**  With the helper in place and one experiment, `RebitStatePauliModel.likelihood` gives
probabilities for all rows, those of Born's rule (in the X-Y plane) for rows in the unit disc and an axis
in the unit disc. -/
theorem C109_rebit_partial {attrs : List String} (ha : "pr0_to_likelihood_array" ∈ attrs)
    (outcomes : OutcomesArg) (ho : asked outcomes ≠ []) (xs : List (ℝ × ℝ)) (a : ℝ × ℝ) :
    ∃ q : ℝ × ℝ → ℝ, (∀ x, 0 ≤ q x ∧ q x ≤ 1) ∧
      rebitLikelihood attrs outcomes (xs.map fun x => [x.1, x.2]) [[a.1, a.2]] =
        .ok ((asked outcomes).map fun o => xs.map fun x => [if o = 0 then q x else 1 - q x]) ∧
      ∀ x, x.1 ^ 2 + x.2 ^ 2 ≤ 1 → a.1 ^ 2 + a.2 ^ 2 ≤ 1 → q x = born 0 ![x.1, x.2, 0] ![a.1, a.2, 0] 1 := by
  refine ⟨fun x => hackClip (1 / 2 * (1 + (x.1 * a.1 + x.2 * a.2))), fun x => hackClip_mem _, ?_, ?_⟩
  · unfold rebitLikelihood
    simp only [bcastRows_one, bind, Except.bind, List.map_map]
    rw [legacyArray_ok ha outcomes ho]
    congr 1
    refine List.map_congr_left fun o _ => ?_
    split
    · refine List.map_congr_left fun x _ => ?_
      simp [Function.comp]
    · rw [List.map_map]
      refine List.map_congr_left fun x _ => ?_
      simp [Function.comp]
  · intro x hx hA
    have h1 : x.1 * a.1 + x.2 * a.2 ≤ 1 := by nlinarith [sq_nonneg (x.1 - a.1), sq_nonneg (x.2 - a.2)]
    have h2 : -1 ≤ x.1 * a.1 + x.2 * a.2 := by nlinarith [sq_nonneg (x.1 + a.1), sq_nonneg (x.2 + a.2)]
    dsimp only
    rw [born_eq, if_pos rfl, hackClip_id _ (by linarith) (by linarith)]
    simp

theorem mapM_ok {α β : Type*} (g : α → Except PyErr β) (h : α → β) (l : List α)
    (hg : ∀ x ∈ l, g x = .ok (h x)) : l.mapM g = .ok (l.map h) := by
  induction l with
  | nil => rfl
  | cons x l ih =>
    rw [List.mapM_cons, hg x (by simp), ih fun y hy => hg y (by simp [hy])]
    rfl

/-- **C109, several qubits.**  With the helper in place `MultiQubitStatePauliModel.likelihood` gives for
every state and experiment a probability if the visibility lies in `[0, 1]`: for an expectation value `y`
in `[-1, 1]` of the selected Pauli operator it is `(1 + v y) / 2` for outcome 0. -/
theorem C109_multi_partial {attrs : List String} (ha : "pr0_to_likelihood_array" ∈ attrs)
    (outcomes : OutcomesArg) (ho : asked outcomes ≠ []) (mps : List (List ℝ)) (exps : List (ℕ × ℝ))
    (hin : ∀ x ∈ mps, ∀ e ∈ exps, e.1 < x.length) :
    ∃ q : ℝ → ℝ → ℝ, (∀ y v, 0 ≤ v → v ≤ 1 → 0 ≤ q y v ∧ q y v ≤ 1) ∧
      (∀ y v, -1 ≤ y → y ≤ 1 → q y v = (1 + v * y) / 2) ∧
      multiLikelihood attrs outcomes mps (exps.map fun e => ((e.1 : ℤ), e.2)) =
        .ok ((asked outcomes).map fun o => mps.map fun x => exps.map fun e =>
          if o = 0 then q (x.getD e.1 0) e.2 else 1 - q (x.getD e.1 0) e.2) := by
  refine ⟨fun y v => v * hackClip (1 / 2 * (1 + y)) + (1 - v) * (1 / 2), fun y v h0 h1 => ?_, fun y v h0 h1 => ?_, ?_⟩
  · obtain ⟨h2, h3⟩ := hackClip_mem (1 / 2 * (1 + y))
    constructor <;> nlinarith
  · simp only
    rw [hackClip_id _ (by linarith) (by linarith)]
    ring
  · have hpick : (mps.mapM fun x => (exps.map fun e => ((e.1 : ℤ), e.2)).mapM fun e => pyIndex x e.1) =
        .ok (mps.map fun x => exps.map fun e => x.getD e.1 0) := by
      refine mapM_ok _ _ _ fun x hx => ?_
      rw [mapM_ok (fun e : ℤ × ℝ => pyIndex x e.1) (fun e => x.getD e.1.toNat 0), List.map_map]
      · rfl
      · intro e he
        obtain ⟨e', he', rfl⟩ := List.mem_map.1 he
        have := hin x hx e' he'
        have hneg : ¬ ((e'.1 : ℤ) < 0) := by omega
        simp [pyIndex, hneg, this]
    unfold multiLikelihood
    rw [hpick]
    simp only [bind, Except.bind, List.map_map]
    rw [legacyArray_ok ha outcomes ho]
    congr 1
    refine List.map_congr_left fun o _ => ?_
    split
    · refine List.map_congr_left fun x _ => ?_
      simp only [Function.comp, List.map_map]
      rw [List.zipWith_map, List.zipWith_self]
      rfl
    · rw [List.map_map]
      refine List.map_congr_left fun x _ => ?_
      simp only [Function.comp, List.map_map]
      rw [List.zipWith_map, List.zipWith_self, List.map_map]
      rfl

/-- Fraction of even values. -/
noncomputable def Spec.evenFraction (l : List ℤ) : ℝ := ((l.filter fun y => decide (Even y)).length : ℝ) / l.length

theorem evenCount_filter (l : List ℤ) : evenCount l = ((l.filter fun y => decide (Even y)).length : ℤ) := by
  induction l with
  | nil => rfl
  | cons y l ih =>
    unfold evenCount at ih ⊢
    rw [List.map_cons, List.sum_cons, ih]
    by_cases h : Even y
    · rw [List.filter_cons_of_pos (by simpa using h)]
      obtain ⟨k, rfl⟩ := h
      simp only [List.length_cons]
      push_cast
      omega
    · rw [List.filter_cons_of_neg (by simpa using h)]
      obtain ⟨k, rfl⟩ := Int.not_even_iff_odd.1 h
      omega

theorem evenFraction_eq (l : List ℤ) {N : ℕ} (h : l.length = 2 ^ N) :
    evenFraction l = (evenCount l : ℝ) / 2 ^ N := by
  unfold evenFraction
  rw [evenCount_filter, h]
  simp

theorem evenFraction_mem (l : List ℤ) : 0 ≤ evenFraction l ∧ evenFraction l ≤ 1 := by
  unfold evenFraction
  refine ⟨by positivity, div_le_one_of_le₀ ?_ (by positivity)⟩
  exact_mod_cast List.length_filter_le _ _

/-- **C109, circuits.**  With the helper in place, `HTCircuitModel.likelihood` of outcome 0 is the
mixture, with weights `λ` and `1 - λ`, of the fractions of even values among the first and the last `2^m`
values of the function. -/
theorem C109_circuit_likelihood_partial {attrs : List String} (ha : "pr0_to_likelihood_array" ∈ attrs)
    (f : List ℤ) (m : Nat) (hf : 2 ^ m ≤ f.length) (outcomes : OutcomesArg) (ho : asked outcomes ≠ [])
    (lams : List ℝ) :
    let p := fun lam => lam * evenFraction (f.take (2 ^ m)) +
      (1 - lam) * evenFraction (f.drop (f.length - 2 ^ m))
    htLikelihood attrs f m outcomes (lams.map fun x => [x]) =
      .ok ((asked outcomes).map fun o => lams.map fun lam => [if o = 0 then p lam else 1 - p lam]) ∧
    ∀ lam, 0 ≤ lam → lam ≤ 1 → 0 ≤ p lam ∧ p lam ≤ 1 := by
  intro p
  have hF0 : (htFirst f m).length = 2 ^ m := by simp [htFirst, hf]
  have hF1 : (htLast f m).length = 2 ^ m := by simp [htLast]; omega
  have hp : ∀ lam : ℝ, lam * (evenCount (htFirst f m) : ℝ) / 2 ^ m + (1 - lam) * (evenCount (htLast f m) : ℝ) / 2 ^ m =
      p lam := fun lam => by
    show _ = lam * evenFraction (htFirst f m) + (1 - lam) * evenFraction (htLast f m)
    rw [evenFraction_eq _ hF0, evenFraction_eq _ hF1]
    ring
  constructor
  · unfold htLikelihood
    rw [legacyArray_ok ha outcomes ho]
    simp only [List.map_map, Function.comp_def, List.map_cons, List.map_nil, hp]
    congr 1
    refine List.map_congr_left fun o _ => ?_
    split <;> rfl
  · intro lam h0 h1
    have h2 := evenFraction_mem (htFirst f m)
    have h3 := evenFraction_mem (htLast f m)
    show 0 ≤ lam * evenFraction (htFirst f m) + (1 - lam) * evenFraction (htLast f m) ∧
      lam * evenFraction (htFirst f m) + (1 - lam) * evenFraction (htLast f m) ≤ 1
    constructor <;> nlinarith

/-- Probability that the simulator returns `o`: the variate is uniform on `[0, 1)`, the input uniform. -/
noncomputable def Spec.htProb (f : List ℤ) (m : Nat) (lam : ℝ) (o : ℤ) : ℝ :=
  (∑ x : Fin (2 ^ m), (volume {u ∈ Set.Ico (0 : ℝ) 1 | htSimulate f m lam u x = .ok o}).toReal) / 2 ^ m

/-- **C109, circuits are simulated with other probabilities.**  The simulator weights the two halves with
`(1 + λ) / 2` and `(1 - λ) / 2`; this agrees with the likelihood only for `λ = 1` or if both halves have
equally many even values. -/
theorem C109_circuit_simulation (f : List ℤ) (m : Nat) (hf : 2 ^ m ≤ f.length) (lam : ℝ) (h0 : 0 ≤ lam)
    (h1 : lam ≤ 1) :
    let q0 := evenFraction (f.take (2 ^ m))
    let q1 := evenFraction (f.drop (f.length - 2 ^ m))
    htProb f m lam 0 = (1 + lam) / 2 * q0 + (1 - lam) / 2 * q1 ∧
    htProb f m lam 1 = 1 - htProb f m lam 0 ∧
    (htProb f m lam 0 = lam * q0 + (1 - lam) * q1 ↔ lam = 1 ∨ q0 = q1) := by
  intro q0 q1
  have hF0 : (htFirst f m).length = 2 ^ m := by simp [htFirst, hf]
  have hF1 : (htLast f m).length = 2 ^ m := by simp [htLast]; omega
  have hcell : ∀ (o : ℤ) (x : Fin (2 ^ m)),
      (volume {u ∈ Set.Ico (0 : ℝ) 1 | htSimulate f m lam u x = .ok o}).toReal =
        (1 + lam) / 2 * (if (htFirst f m)[x] % 2 = o then 1 else 0) +
        (1 - lam) / 2 * (if (htLast f m)[x] % 2 = o then 1 else 0) := by
    intro o x
    have hsim : ∀ u : ℝ, htSimulate f m lam u x = .ok o ↔
        if u > 1 / 2 * (1 - lam) then (htFirst f m)[x] % 2 = o else (htLast f m)[x] % 2 = o := by
      intro u
      by_cases hu : u > 1 / 2 * (1 - lam)
      · simp only [htSimulate, if_pos hu]
        rw [List.getElem?_eq_getElem (by rw [hF0]; exact x.2)]
        simp
      · simp only [htSimulate, if_neg hu]
        rw [List.getElem?_eq_getElem (by rw [hF1]; exact x.2)]
        simp
    simp only [hsim]
    by_cases ha : (htFirst f m)[x] % 2 = o <;> by_cases hb : (htLast f m)[x] % 2 = o <;>
      simp only [ha, hb, if_true, if_false]
    · have : {u ∈ Set.Ico (0 : ℝ) 1 | if u > 1 / 2 * (1 - lam) then True else True} = Set.Ico 0 1 := by
        ext u; simp
      rw [this, Real.volume_Ico]
      simp; ring
    · have : {u ∈ Set.Ico (0 : ℝ) 1 | if u > 1 / 2 * (1 - lam) then True else False} =
          Set.Ioo (1 / 2 * (1 - lam)) 1 := by
        ext u
        simp only [Set.mem_Ico, Set.mem_Ioo, Set.mem_ofPred_eq]
        constructor
        · rintro ⟨h, hu⟩
          split at hu
          · exact ⟨by assumption, h.2⟩
          · exact hu.elim
        · rintro ⟨h2, h3⟩
          exact ⟨⟨by linarith, h3⟩, by rw [if_pos h2]; trivial⟩
      rw [this, Real.volume_Ioo, ENNReal.toReal_ofReal (by linarith)]
      ring
    · have : {u ∈ Set.Ico (0 : ℝ) 1 | if u > 1 / 2 * (1 - lam) then False else True} =
          Set.Icc 0 (1 / 2 * (1 - lam)) := by
        ext u
        simp only [Set.mem_Ico, Set.mem_Icc, Set.mem_ofPred_eq]
        constructor
        · rintro ⟨h, hu⟩
          split at hu
          · exact hu.elim
          · exact ⟨h.1, not_lt.1 (by assumption)⟩
        · rintro ⟨h2, h3⟩
          exact ⟨⟨h2, by linarith⟩, by rw [if_neg (not_lt.2 h3)]; trivial⟩
      rw [this, Real.volume_Icc, ENNReal.toReal_ofReal (by linarith)]
      ring
    · have : {u ∈ Set.Ico (0 : ℝ) 1 | if u > 1 / 2 * (1 - lam) then False else False} = ∅ := by
        ext u; simp
      rw [this]
      simp
  have hN : (2 ^ m : ℝ) ≠ 0 := by positivity
  have hsum : ∀ (l : List ℤ) (hl : l.length = 2 ^ m),
      (∑ x : Fin (2 ^ m), (if l[x] % 2 = 0 then (1 : ℝ) else 0)) = 2 ^ m * evenFraction l ∧
      (∑ x : Fin (2 ^ m), (if l[x] % 2 = 1 then (1 : ℝ) else 0)) = 2 ^ m * (1 - evenFraction l) := by
    intro l hl
    have key : (∑ x : Fin (2 ^ m), (if l[x] % 2 = 0 then (1 : ℝ) else 0)) = 2 ^ m * evenFraction l := by
      rw [evenFraction_eq l hl, mul_div_cancel₀ _ hN]
      have h1 : (∑ x : Fin (2 ^ m), (if l[x] % 2 = 0 then (1 : ℝ) else 0)) =
          (l.map fun y => if y % 2 = 0 then (1 : ℝ) else 0).sum := by
        rw [← List.sum_ofFn]
        congr 1
        apply List.ext_getElem
        · simp [hl]
        · intro i h1 h2
          simp
      rw [h1, evenCount]
      clear h1 hl
      induction l with
      | nil => simp
      | cons y l ih =>
        simp only [List.map_cons, List.sum_cons, ih, Int.cast_add]
        congr 1
        split
        · rw [show (y + 1) % 2 = 1 by omega]; simp
        · rw [show (y + 1) % 2 = 0 by omega]; simp
    refine ⟨key, ?_⟩
    have : ∀ x : Fin (2 ^ m), (if l[x] % 2 = 1 then (1 : ℝ) else 0) = 1 - (if l[x] % 2 = 0 then (1 : ℝ) else 0) := by
      intro x
      rcases Int.emod_two_eq_zero_or_one l[x] with h | h <;> rw [h] <;> norm_num
    simp only [this, Finset.sum_sub_distrib, key]
    simp
    ring
  have hprob0 : htProb f m lam 0 = (1 + lam) / 2 * q0 + (1 - lam) / 2 * q1 := by
    unfold htProb
    simp only [hcell, Finset.sum_add_distrib, ← Finset.mul_sum]
    rw [(hsum _ hF0).1, (hsum _ hF1).1]
    show _ = (1 + lam) / 2 * evenFraction (htFirst f m) + (1 - lam) / 2 * evenFraction (htLast f m)
    field_simp
  have hprob1 : htProb f m lam 1 = (1 + lam) / 2 * (1 - q0) + (1 - lam) / 2 * (1 - q1) := by
    unfold htProb
    simp only [hcell, Finset.sum_add_distrib, ← Finset.mul_sum]
    rw [(hsum _ hF0).2, (hsum _ hF1).2]
    show _ = (1 + lam) / 2 * (1 - evenFraction (htFirst f m)) + (1 - lam) / 2 * (1 - evenFraction (htLast f m))
    field_simp
  refine ⟨hprob0, by rw [hprob1, hprob0]; ring, ?_⟩
  rw [hprob0]
  constructor
  · intro h
    have : (1 - lam) * (q0 - q1) = 0 := by linarith
    rcases mul_eq_zero.1 this with h | h
    · exact Or.inl (by linarith)
    · exact Or.inr (by linarith)
  · rintro (h | h)
    · rw [h]; ring
    · rw [h]; ring

theorem flattenTail_eq {K : Type*} {D : Nat} (X : Matrix (Fin (D + 1)) (Fin (D + 1)) K) :
    flattenTail X = List.ofFn fun k : Fin ((D + 1) * D) => X k.modNat.succ k.divNat := by
  rw [List.ofFn_mul]
  unfold flattenTail
  congr 1
  congr 1
  funext j
  congr 1
  funext i
  have hD : 0 < D := Nat.pos_of_ne_zero fun h => by subst h; exact i.elim0
  congr 1
  · ext
    simp [Fin.modNat, Nat.mod_eq_of_lt i.2]
  · ext
    simp only [Fin.divNat]
    rw [Nat.mul_comm, Nat.mul_add_div hD, Nat.div_eq_of_lt i.2, add_zero]

theorem flattenTail_length {K : Type*} {D : Nat} (X : Matrix (Fin (D + 1)) (Fin (D + 1)) K) :
    (flattenTail X).length = D * (D + 1) := by
  rw [flattenTail_eq, List.length_ofFn, Nat.mul_comm]

theorem flattenTail_getD {D : Nat} (X : Matrix (Fin (D + 1)) (Fin (D + 1)) ℝ) (i : Fin D) (j : Fin (D + 1)) :
    (flattenTail X).getD (j * D + i) 0 = X i.succ j := by
  have hD : 0 < D := Nat.pos_of_ne_zero fun h => by subst h; exact i.elim0
  have hlt : j.val * D + i.val < (D + 1) * D := by
    have h1 := i.2
    have h2 : j.val * D ≤ D * D := Nat.mul_le_mul_right _ (Nat.lt_succ_iff.1 j.2)
    calc j.val * D + i.val < D * D + D := by omega
      _ = (D + 1) * D := by ring
  rw [flattenTail_eq, List.getD_eq_getElem?_getD, List.getElem?_eq_getElem (by simpa using hlt), Option.getD_some,
    List.getElem_ofFn]
  congr 1
  · ext
    simp [Fin.modNat, Nat.mod_eq_of_lt i.2]
  · ext
    simp only [Fin.divNat]
    rw [Nat.mul_comm, Nat.mul_add_div hD, Nat.div_eq_of_lt i.2, add_zero]

theorem toQobj_one {D : Nat} (B : Matrix (Fin (D + 1)) (Fin (D + 1)) ℂ) (v : List ℝ) (hv : v.length = D * (D + 1)) :
    toQobj B [v] = .ok [conjugateBy Bᴴ (stackRows v)] := by
  have hw : ((List.range (([v].map List.length).headD 0)).flatMap fun j => [v].map fun x => x.getD j 0) = v := by
    simp only [List.map_cons, List.map_nil, List.headD_cons]
    rw [← List.map_eq_flatMap]
    apply List.ext_getElem
    · simp
    · intro i h1 h2
      simp [h2]
  unfold toQobj
  dsimp only
  rw [hw]
  unfold stackReshape
  rw [if_pos hv]
  rfl

/-- **C110, round trip.**  If the superoperator in the Pauli basis is real with first row `(1, 0, …)`
(Hermiticity and trace are preserved) and the basis change is unitary, `to_qobj` of one sample gives the
superoperator back. -/
theorem C110_round_trip_partial {D : Nat} (B S : Matrix (Fin (D + 1)) (Fin (D + 1)) ℂ) (hB : Bᴴ * B = 1)
    (hreal : ∀ i j, (conjugateBy B S i j).im = 0)
    (htp : ∀ j, conjugateBy B S 0 j = if j = 0 then 1 else 0) :
    toQobj B [bcszSample B S] = .ok [S] := by
  have hS : stackRows (bcszSample B S) = conjugateBy B S := by
    ext i j
    rw [stackRows, of_apply]
    split
    · rename_i h
      rw [h, htp]
    · rename_i h
      rw [bcszSample, flattenTail_getD, Fin.succ_pred, of_apply]
      exact Complex.ext rfl (by simp [hreal])
  rw [toQobj_one B (bcszSample B S) (flattenTail_length _), hS]
  simp only [conjugateBy, conjTranspose_conjTranspose]
  congr 2
  rw [show Bᴴ * (B * (S * Bᴴ) * B) = (Bᴴ * B) * S * (Bᴴ * B) by simp only [Matrix.mul_assoc], hB, Matrix.one_mul,
    Matrix.mul_one]

/-- **C110, several samples.**  With two or more samples `to_qobj` raises `ValueError`. -/
theorem C110_several_samples {D : Nat} (hD : 0 < D) (B : Matrix (Fin (D + 1)) (Fin (D + 1)) ℂ)
    (mps : List (List ℝ)) (hl : ∀ x ∈ mps, x.length = D * (D + 1)) (hn : 2 ≤ mps.length) :
    toQobj B mps = .error .valueError := by
  have hw : ((List.range ((mps.map List.length).headD 0)).flatMap fun j => mps.map fun x => x.getD j 0).length ≠
      D * (D + 1) := by
    match mps, hn with
    | x :: x' :: l, _ =>
      have h0 : 0 < D * (D + 1) := by positivity
      simp only [List.map_cons, List.headD_cons, hl x (by simp), List.length_flatMap]
      simp only [List.length_cons, List.length_map, List.map_const', List.length_range, List.sum_replicate,
        smul_eq_mul]
      intro h
      nlinarith
  unfold toQobj
  dsimp only
  generalize (List.range ((mps.map List.length).headD 0)).flatMap (fun j => mps.map fun x => x.getD j 0) = whole at hw
  unfold stackReshape
  rw [if_neg hw]
  match mps, hn with
  | x :: l, _ =>
    rw [List.mapM_cons]
    rfl

/-- **C110, relaxed trace constraint.**  With `enforce_tp=False` the round trip gives a superoperator with
first row `(1, 0, …)`, so another one whenever the sampled one did not preserve the trace. -/
theorem C110_not_trace_preserving {D : Nat} (B S : Matrix (Fin (D + 1)) (Fin (D + 1)) ℂ) (hB : Bᴴ * B = 1)
    (j : Fin (D + 1)) (htp : conjugateBy B S 0 j ≠ if j = 0 then 1 else 0) :
    toQobj B [bcszSample B S] ≠ .ok [S] := by
  have hB' : B * Bᴴ = 1 := mul_eq_one_comm.1 hB
  rw [toQobj_one B (bcszSample B S) (flattenTail_length _)]
  intro h
  simp only [Except.ok.injEq, List.cons.injEq, and_true] at h
  set T : Matrix (Fin (D + 1)) (Fin (D + 1)) ℂ := stackRows (bcszSample B S) with hT
  have hback : conjugateBy B S = T := by
    rw [← h]
    simp only [conjugateBy, conjTranspose_conjTranspose]
    rw [show B * (Bᴴ * (T * B) * Bᴴ) = (B * Bᴴ) * T * (B * Bᴴ) by simp only [Matrix.mul_assoc], hB', Matrix.one_mul,
      Matrix.mul_one]
  exact htp (by rw [hback, hT, stackRows, of_apply, dif_pos rfl])

/-! ### Cases -/

/-- Case for C109: the state with Bloch vector `(1/2, 0, 1/2)`, measured along X with visibility 9/10. -/
example : qubitLikelihood ["pr0_to_likelihood_array"] (.array [0, 1]) [[1/2, 0, 1/2]] [[1, 0, 0]] [9/10] =
    .ok [[[29/40]], [[(11/40 : ℚ)]]] := by decide +kernel

/-- Case for C109: three states and two experiments. -/
example : qubitLikelihood ["pr0_to_likelihood_array"] (.array [0]) [[1, 0, 0], [0, 1, 0], [0, 0, 1]]
    [[1, 0, 0], [0, 0, 1]] [1, (1 : ℚ)] = .error .valueError := by decide +kernel

/-- Case for C109: a function with even values in the first half and odd ones in the second. -/
example : htProb [0, 2, 1, 3] 1 0 0 = 1 / 2 ∧ ¬ (htProb [0, 2, 1, 3] 1 0 0 = 0) := by
  have h := (C109_circuit_simulation [0, 2, 1, 3] 1 (by simp) 0 le_rfl zero_le_one).1
  have h0 : evenFraction [0, 2] = 1 := by
    have : ([0, 2].filter fun y : ℤ => decide (Even y)) = [0, 2] := by decide
    simp [evenFraction, this]
  have h1 : evenFraction [1, 3] = 0 := by
    have : ([1, 3].filter fun y : ℤ => decide (Even y)) = [] := by decide
    simp [evenFraction, this]
  have hv : htProb [0, 2, 1, 3] 1 0 0 = 1 / 2 := by
    rw [h]
    show (1 + 0) / 2 * evenFraction [0, 2] + (1 - 0) / 2 * evenFraction [1, 3] = 1 / 2
    rw [h0, h1]
    norm_num
  exact ⟨hv, by rw [hv]; norm_num⟩

/-- Case for C110: amplitude damping by one half, in a basis in which two elements are exchanged. -/
example : ∃ B S : Matrix (Fin 4) (Fin 4) ℂ, Bᴴ * B = 1 ∧ B ≠ 1 ∧
    (∀ i j, (conjugateBy B S i j).im = 0) ∧ (∀ j, conjugateBy B S 0 j = if j = 0 then 1 else 0) := by
  refine ⟨!![1, 0, 0, 0; 0, 0, 1, 0; 0, 1, 0, 0; 0, 0, 0, 1],
    !![1, 0, 0, 0; 0, 1/2, 0, 0; 0, 0, 1/2, 0; 1/2, 0, 0, 1/2], ?_, ?_, ?_, ?_⟩
  · ext i j
    fin_cases i <;> fin_cases j <;> simp [Matrix.mul_apply, Fin.sum_univ_four]
  · intro h
    have := congrFun (congrFun h 1) 1
    simp at this
  · intro i j
    fin_cases i <;> fin_cases j <;> simp [conjugateBy, Matrix.mul_apply, Fin.sum_univ_four, vecMul, dotProduct]
  · intro j
    fin_cases j <;> simp [conjugateBy, Matrix.mul_apply, Fin.sum_univ_four, vecMul, dotProduct]

end QInfer
