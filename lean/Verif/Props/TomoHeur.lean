import Verif.Model.TomoHeur
import Verif.Props.TomoDist
import Verif.Props.Tomo
import Verif.Props.Heur
import Mathlib.RingTheory.RootsOfUnity.Complex
import Mathlib.LinearAlgebra.Matrix.Charpoly.Eigs
import Mathlib.Analysis.Matrix.Spectrum
import Mathlib.LinearAlgebra.Eigenspace.Triangularizable
import Mathlib.Analysis.Complex.Polynomial.Basic

/-!
# C99: stabilizer measurements; C100: process tomography
-/

namespace QInfer

open Matrix
open scoped BigOperators ComplexOrder

/-! ## The operators -/

section
variable {d : Nat}

/-- The primitive root of unity. -/
noncomputable def hwRoot (d : Nat) : ℂ := Complex.exp (2 * Real.pi * Complex.I / d)

theorem hwRoot_prim (hd : 0 < d) : IsPrimitiveRoot (hwRoot d) d := Complex.isPrimitiveRoot_exp d hd.ne'

theorem hwRoot_norm : ‖hwRoot d‖ = 1 := by
  unfold hwRoot
  rw [show (2 * Real.pi * Complex.I / d : ℂ) = ((2 * Real.pi / d : ℝ) : ℂ) * Complex.I from by
    push_cast; ring]
  exact Complex.norm_exp_ofReal_mul_I _

theorem hwX_pow (i : Nat) (a b : Fin d) :
    (hwX d ^ i) a b = if (b : Nat) = ((a : Nat) + i) % d then 1 else 0 := by
  induction i generalizing a b with
  | zero =>
    rw [pow_zero, Nat.add_zero, Nat.mod_eq_of_lt a.2, Matrix.one_apply]
    simp only [Fin.ext_iff, eq_comm]
  | succ i ih =>
    rw [pow_succ, Matrix.mul_apply]
    have hd : 0 < d := a.pos
    rw [Finset.sum_eq_single ⟨((a : Nat) + i) % d, Nat.mod_lt _ hd⟩]
    · rw [ih, if_pos rfl, one_mul, hwX, Matrix.of_apply]
      simp only [Nat.mod_add_mod, Nat.add_assoc]
    · intro c _ hc
      rw [ih, if_neg, zero_mul]
      exact fun h => hc (Fin.ext h)
    · simp

/-- The entries of `X^i Z^j`. -/
theorem hw_apply (i j : Nat) (a b : Fin d) :
    (hwX d ^ i * hwZ d ^ j) a b =
      if (b : Nat) = ((a : Nat) + i) % d then hwRoot d ^ ((b : Nat) * j) else 0 := by
  rw [hwZ, Matrix.diagonal_pow, Matrix.mul_diagonal, hwX_pow]
  simp only [Pi.pow_apply, ← pow_mul, ite_mul, one_mul, zero_mul]
  rfl

theorem hw_length (d : Nat) : (heisenbergWeyl d).length = d * d := by
  simp [heisenbergWeyl, List.length_flatMap]

theorem hw_getElem (i j : Nat) (hi : i < d) (hj : j < d) :
    (heisenbergWeyl d)[i * d + j]? = some (hwX d ^ i * hwZ d ^ j) := by
  have key : ∀ n, n ≤ d → ∀ i < n, ((List.range n).flatMap fun i => (List.range d).map fun j =>
      hwX d ^ i * hwZ d ^ j)[i * d + j]? = some (hwX d ^ i * hwZ d ^ j) := by
    intro n
    induction n with
    | zero => intro _ i hi; omega
    | succ n ih =>
      intro hn i hi
      have hlen : ((List.range n).flatMap fun i => (List.range d).map fun j =>
          hwX d ^ i * hwZ d ^ j).length = n * d := by simp [List.length_flatMap]
      rw [List.range_succ, List.flatMap_append]
      rcases Nat.lt_succ_iff_lt_or_eq.1 hi with h | rfl
      · rw [List.getElem?_append_left]
        · exact ih (by omega) i h
        · rw [hlen]
          calc i * d + j < i * d + d := by omega
            _ = (i + 1) * d := by ring
            _ ≤ n * d := Nat.mul_le_mul_right _ h
      · rw [List.getElem?_append_right (by rw [hlen]; omega), hlen, Nat.add_sub_cancel_left]
        simp [hj]
  exact key d le_rfl i hi

/-- Sums over all operators. -/
theorem hw_sum {M : Type*} [AddCommMonoid M] (f : Matrix (Fin d) (Fin d) ℂ → M) :
    ((heisenbergWeyl d).map f).sum = ∑ i : Fin d, ∑ j : Fin d, f (hwX d ^ (i : Nat) * hwZ d ^ (j : Nat)) := by
  have h1 : ∀ (n : Nat) (g : Nat → M), ((List.range n).map g).sum = ∑ i : Fin n, g i := by
    intro n g
    induction n with
    | zero => simp
    | succ n ih => simp [List.range_succ, ih, Fin.sum_univ_castSucc]
  have h2 : ∀ (l : List Nat) (g : Nat → List M), (l.flatMap g).sum = (l.map fun i => (g i).sum).sum := by
    intro l g
    induction l with
    | nil => simp
    | cons a l ih => simp [ih]
  unfold heisenbergWeyl
  rw [List.map_flatMap, h2, h1]
  refine Finset.sum_congr rfl fun i _ => ?_
  rw [List.map_map, h1]
  rfl

theorem hw_mem {W : Matrix (Fin d) (Fin d) ℂ} :
    W ∈ heisenbergWeyl d ↔ ∃ i < d, ∃ j < d, W = hwX d ^ i * hwZ d ^ j := by
  simp only [heisenbergWeyl, List.mem_flatMap, List.mem_range, List.mem_map]
  constructor
  · rintro ⟨i, hi, j, hj, rfl⟩; exact ⟨i, hi, j, hj, rfl⟩
  · rintro ⟨i, hi, j, hj, rfl⟩; exact ⟨i, hi, j, hj, rfl⟩

/-- Position `a` moved by `i`. -/
def hwShift (i : Nat) (a : Fin d) : Fin d := ⟨((a : Nat) + i) % d, Nat.mod_lt _ a.pos⟩

theorem hwShift_inj (i : Nat) {a b : Fin d} : hwShift i a = hwShift i b ↔ a = b := by
  refine ⟨fun h => ?_, fun h => h ▸ rfl⟩
  have h1 : ((a : Nat) + i) % d = ((b : Nat) + i) % d := Fin.ext_iff.1 h
  have h2 : (a : Nat) ≡ b [MOD d] := Nat.ModEq.add_right_cancel' i h1
  exact Fin.ext (Nat.ModEq.eq_of_lt_of_lt h2 a.2 b.2)

theorem hwShift_inj' {i j : Nat} (hi : i < d) (hj : j < d) (a : Fin d) :
    hwShift i a = hwShift j a ↔ i = j := by
  refine ⟨fun h => ?_, fun h => h ▸ rfl⟩
  have h1 : ((a : Nat) + i) % d = ((a : Nat) + j) % d := Fin.ext_iff.1 h
  exact Nat.ModEq.eq_of_lt_of_lt (Nat.ModEq.add_left_cancel' _ h1) hi hj

theorem hw_entry (i j : Nat) (a b : Fin d) :
    (hwX d ^ i * hwZ d ^ j) a b = if b = hwShift i a then hwRoot d ^ ((b : Nat) * j) else 0 := by
  rw [hw_apply]
  simp only [Fin.ext_iff, hwShift]

theorem hwRoot_star_mul (n : Nat) : hwRoot d ^ n * star (hwRoot d ^ n) = 1 := by
  rw [Complex.star_def, Complex.mul_conj, Complex.normSq_eq_norm_sq, norm_pow, hwRoot_norm]
  simp

/-- Sums of powers of the root of unity. -/
theorem hwRoot_sum (a b : Fin d) :
    ∑ j : Fin d, hwRoot d ^ ((a : Nat) * j) * star (hwRoot d ^ ((b : Nat) * j)) = if a = b then (d : ℂ) else 0 := by
  have hd : 0 < d := a.pos
  have hp := hwRoot_prim hd
  set r : ℂ := hwRoot d ^ (a : Nat) * star (hwRoot d ^ (b : Nat)) with hr
  have h1 : ∀ j : Fin d, hwRoot d ^ ((a : Nat) * j) * star (hwRoot d ^ ((b : Nat) * j)) = r ^ (j : Nat) := by
    intro j
    rw [hr, pow_mul, pow_mul, star_pow, ← mul_pow]
  rw [Finset.sum_congr rfl fun j _ => h1 j, Fin.sum_univ_eq_sum_range fun j => r ^ j]
  by_cases hab : a = b
  · subst hab
    rw [hr, hwRoot_star_mul]
    simp
  · rw [if_neg hab]
    have hr1 : r ≠ 1 := by
      intro h
      have h2 : hwRoot d ^ (a : Nat) = hwRoot d ^ (b : Nat) := by
        calc hwRoot d ^ (a : Nat) = hwRoot d ^ (a : Nat) * (hwRoot d ^ (b : Nat) * star (hwRoot d ^ (b : Nat))) := by
              rw [hwRoot_star_mul, mul_one]
          _ = r * hwRoot d ^ (b : Nat) := by rw [hr]; ring
          _ = _ := by rw [h, one_mul]
      exact hab (Fin.ext (hp.pow_inj a.2 b.2 h2))
    have hrd : r ^ d = 1 := by
      rw [hr, mul_pow, ← star_pow, ← pow_mul, ← pow_mul, mul_comm (a : Nat), mul_comm (b : Nat), pow_mul,
        pow_mul, hp.pow_eq_one]
      simp
    rw [geom_sum_eq hr1, hrd, sub_self, zero_div]

theorem hw_mul_left (i j : Nat) (A : Matrix (Fin d) (Fin d) ℂ) (a c : Fin d) :
    (hwX d ^ i * hwZ d ^ j * A) a c =
      hwRoot d ^ ((hwShift i a : Nat) * j) * A (hwShift i a) c := by
  rw [Matrix.mul_apply, Finset.sum_eq_single (hwShift i a)]
  · rw [hw_entry, if_pos rfl]
  · intro b _ hb
    rw [hw_entry, if_neg hb, zero_mul]
  · simp

theorem hw_mul_right (i j : Nat) (A : Matrix (Fin d) (Fin d) ℂ) (a c : Fin d) :
    (A * (hwX d ^ i * hwZ d ^ j)ᴴ) a c =
      A a (hwShift i c) * star (hwRoot d ^ ((hwShift i c : Nat) * j)) := by
  rw [Matrix.mul_apply, Finset.sum_eq_single (hwShift i c)]
  · rw [Matrix.conjTranspose_apply, hw_entry, if_pos rfl]
  · intro b _ hb
    rw [Matrix.conjTranspose_apply, hw_entry, if_neg hb, star_zero, mul_zero]
  · simp

theorem hw_trace (i j : Nat) (A : Matrix (Fin d) (Fin d) ℂ) :
    trace ((hwX d ^ i * hwZ d ^ j)ᴴ * A) =
      ∑ a, star (hwRoot d ^ ((hwShift i a : Nat) * j)) * A a (hwShift i a) := by
  rw [Matrix.trace_mul_comm, Matrix.trace]
  refine Finset.sum_congr rfl fun a _ => ?_
  rw [Matrix.diag_apply, hw_mul_right, mul_comm]

/-- Reindexing by a shift. -/
theorem hwShift_sum {M : Type*} [AddCommMonoid M] (i : Nat) (f : Fin d → M) :
    ∑ a, f (hwShift i a) = ∑ a, f a :=
  Function.Bijective.sum_comp (Finite.injective_iff_bijective.1 fun _ _ h => (hwShift_inj i).1 h) f

theorem hwShift_sum' {M : Type*} [AddCommMonoid M] (a : Fin d) (f : Fin d → M) :
    ∑ i : Fin d, f (hwShift (i : Nat) a) = ∑ a, f a :=
  Function.Bijective.sum_comp (e := fun i : Fin d => hwShift (i : Nat) a)
    (Finite.injective_iff_bijective.1 fun i j h => Fin.ext ((hwShift_inj' i.2 j.2 a).1 h)) f

/-- **C99, operators.**  `heisenberg_weyl_operators(d)` returns `d²` unitary operators; number
`i d + j` takes the basis vector `k` to a multiple of the basis vector `k - i` modulo `d`, the multiple
being `ω^(j k)` for the primitive root of unity `ω`; different operators are orthogonal. -/
theorem C99_operators (d : Nat) :
    (heisenbergWeyl d).length = d * d ∧
    ∀ i < d, ∀ j < d, ∃ W, (heisenbergWeyl d)[i * d + j]? = some W ∧ W * Wᴴ = 1 ∧
      (∀ a k : Fin d, W a k = if (k : Nat) = ((a : Nat) + i) % d then
        Complex.exp (2 * Real.pi * Complex.I / d) ^ ((k : Nat) * j) else 0) ∧
      ∀ i' < d, ∀ j' < d, ∃ W', (heisenbergWeyl d)[i' * d + j']? = some W' ∧
        trace (Wᴴ * W') = if i = i' ∧ j = j' then (d : ℂ) else 0 := by
  refine ⟨hw_length d, fun i hi j hj => ⟨_, hw_getElem i j hi hj, ?_, hw_apply i j,
    fun i' hi' j' hj' => ⟨_, hw_getElem i' j' hi' hj', ?_⟩⟩⟩
  · ext a c
    rw [hw_mul_right, hw_entry, Matrix.one_apply]
    by_cases h : a = c
    · subst h
      rw [if_pos rfl, if_pos rfl, hwRoot_star_mul]
    · rw [if_neg h, if_neg fun h' => h ((hwShift_inj i).1 h').symm, zero_mul]
  · rw [hw_trace]
    simp only [hw_entry]
    by_cases h : i = i'
    · subst h
      simp only [if_true, true_and]
      rw [hwShift_sum i fun b => star (hwRoot d ^ ((b : Nat) * j)) * hwRoot d ^ ((b : Nat) * j')]
      have := hwRoot_sum (⟨j', hj'⟩ : Fin d) ⟨j, hj⟩
      simp only [Fin.ext_iff] at this
      simp only [mul_comm (star _), mul_comm (_ : Nat) j', mul_comm (_ : Nat) j]
      rw [this]
      simp only [eq_comm]
    · rw [if_neg fun h' => h h'.1]
      refine Finset.sum_eq_zero fun a _ => ?_
      rw [if_neg fun h' => h ((hwShift_inj' hi hi' a).1 h'), mul_zero]

/-- **C99, group.**  The product of two of the operators is another one up to a root of unity. -/
theorem C99_group (hd : 0 < d) {W W' : Matrix (Fin d) (Fin d) ℂ} (h : W ∈ heisenbergWeyl d)
    (h' : W' ∈ heisenbergWeyl d) :
    ∃ V ∈ heisenbergWeyl d, ∃ z : ℂ, z ^ d = 1 ∧ W * W' = z • V := by
  obtain ⟨i, hi, j, hj, rfl⟩ := hw_mem.1 h
  obtain ⟨k, hk, l, hl, rfl⟩ := hw_mem.1 h'
  have hp := hwRoot_prim hd
  refine ⟨_, hw_mem.2 ⟨(i + k) % d, Nat.mod_lt _ hd, (j + l) % d, Nat.mod_lt _ hd, rfl⟩,
    star (hwRoot d ^ (k * j)), ?_, ?_⟩
  · rw [← star_pow, ← pow_mul, mul_comm, pow_mul, hp.pow_eq_one]; simp
  · ext a c
    rw [hw_mul_left, hw_entry, Matrix.smul_apply, hw_entry, smul_eq_mul]
    have hs : hwShift ((i + k) % d) a = hwShift k (hwShift i a) := by
      apply Fin.ext
      simp only [hwShift, Nat.add_mod_mod, Nat.mod_add_mod, Nat.add_assoc]
    rw [hs]
    by_cases hc : c = hwShift k (hwShift i a)
    · rw [if_pos hc, if_pos hc]
      have e1 : hwRoot d ^ ((c : Nat) * ((j + l) % d)) = hwRoot d ^ ((c : Nat) * j) * hwRoot d ^ ((c : Nat) * l) := by
        rw [← pow_add, ← mul_add, mul_comm, pow_mul, ← pow_eq_pow_mod _ hp.pow_eq_one, ← pow_mul, mul_comm]
      have e2 : hwRoot d ^ ((c : Nat) * j) = hwRoot d ^ ((hwShift i a : Nat) * j) * hwRoot d ^ (k * j) := by
        rw [← pow_add, ← add_mul, hc]
        conv_rhs => rw [pow_mul, pow_eq_pow_mod _ hp.pow_eq_one, ← pow_mul]
        rfl
      rw [e1, e2]
      have := hwRoot_star_mul (d := d) (k * j)
      linear_combination (-(hwRoot d ^ ((hwShift i a : Nat) * j)) * hwRoot d ^ ((c : Nat) * l)) * this
    · rw [if_neg hc, if_neg hc, mul_zero, mul_zero]

/-- **C99, completeness.**  Every operator is a combination of the Heisenberg-Weyl operators, the
coefficients being its inner products with them; averaging over all of them leaves only the trace. -/
theorem C99_complete (A : Matrix (Fin d) (Fin d) ℂ) :
    ((heisenbergWeyl d).map fun W => trace (Wᴴ * A) • W).sum = (d : ℂ) • A ∧
    ((heisenbergWeyl d).map fun W => W * A * Wᴴ).sum = ((d : ℂ) * trace A) • 1 := by
  rw [hw_sum, hw_sum]
  constructor
  · ext a b
    simp only [Matrix.sum_apply, Matrix.smul_apply, smul_eq_mul, hw_trace]
    have h1 : ∀ i : Fin d, ∑ j : Fin d, (∑ a', star (hwRoot d ^ ((hwShift (i : Nat) a' : Nat) * j)) *
        A a' (hwShift (i : Nat) a')) * (hwX d ^ (i : Nat) * hwZ d ^ (j : Nat)) a b =
        if b = hwShift (i : Nat) a then (d : ℂ) * A a b else 0 := by
      intro i
      simp only [hw_entry]
      by_cases hb : b = hwShift (i : Nat) a
      · simp only [if_pos hb, Finset.sum_mul]
        rw [Finset.sum_comm]
        have h2 : ∀ a' : Fin d, ∑ j : Fin d, star (hwRoot d ^ ((hwShift (i : Nat) a' : Nat) * j)) *
            A a' (hwShift (i : Nat) a') * hwRoot d ^ ((b : Nat) * j) =
            if a' = a then (d : ℂ) * A a' (hwShift (i : Nat) a') else 0 := by
          intro a'
          have h3 := hwRoot_sum b (hwShift (i : Nat) a')
          rw [hb] at h3 ⊢
          simp only [hwShift_inj] at h3
          rw [show (if a' = a then (d : ℂ) * A a' (hwShift (i : Nat) a') else 0) =
            (if a = a' then (d : ℂ) else 0) * A a' (hwShift (i : Nat) a') from by
              simp only [eq_comm, ite_mul, zero_mul], ← h3, Finset.sum_mul]
          exact Finset.sum_congr rfl fun j _ => by ring
        rw [Finset.sum_congr rfl fun a' _ => h2 a']
        simp [hb]
      · simp only [if_neg hb, mul_zero, Finset.sum_const_zero]
    rw [Finset.sum_congr rfl fun i _ => h1 i]
    rw [hwShift_sum' a fun c => if b = c then (d : ℂ) * A a b else 0]
    simp
  · ext a c
    simp only [Matrix.sum_apply, Matrix.smul_apply, smul_eq_mul, Matrix.mul_assoc]
    have h1 : ∀ i j : Fin d, (hwX d ^ (i : Nat) * (hwZ d ^ (j : Nat) *
        (A * (hwX d ^ (i : Nat) * hwZ d ^ (j : Nat))ᴴ))) a c = A (hwShift (i : Nat) a) (hwShift (i : Nat) c) *
        (hwRoot d ^ ((hwShift (i : Nat) a : Nat) * j) * star (hwRoot d ^ ((hwShift (i : Nat) c : Nat) * j))) := by
      intro i j
      rw [← Matrix.mul_assoc, hw_mul_left, hw_mul_right]
      ring
    simp only [h1, ← Finset.mul_sum, hwRoot_sum, hwShift_inj]
    rw [Matrix.one_apply]
    by_cases h : a = c
    · subst h
      simp only [if_true, mul_one, ← Finset.sum_mul]
      rw [hwShift_sum' a fun b => A b b, mul_comm]
      rfl
    · simp [h]

/-! ## Measurements -/

/-- What QuTiP promises of `eigenstates()`: unit eigenvectors. -/
def Spec.Eigenstates (eigenstates : Matrix (Fin d) (Fin d) ℂ → List (Fin d → ℂ)) : Prop :=
  ∀ W, ∀ v ∈ eigenstates W, (∃ c : ℂ, W *ᵥ v = c • v) ∧ star v ⬝ᵥ v = 1

theorem ket2dm_psd (v : Fin d → ℂ) : (ket2dm v).PosSemidef := Matrix.posSemidef_vecMulVec_self_star v

theorem ket2dm_sq (v : Fin d → ℂ) (hv : star v ⬝ᵥ v = 1) : ket2dm v * ket2dm v = ket2dm v := by
  unfold ket2dm
  rw [Matrix.vecMulVec_mul_vecMulVec, hv, one_smul]

theorem ket2dm_trace (v : Fin d → ℂ) (hv : star v ⬝ᵥ v = 1) : trace (ket2dm v) = 1 := by
  unfold ket2dm
  rw [Matrix.trace_vecMulVec, dotProduct_comm, hv]

theorem projector_le_one (P : Matrix (Fin d) (Fin d) ℂ) (hP : P.IsHermitian) (h : P * P = P) :
    (1 - P).PosSemidef := by
  have h1 : (1 - P)ᴴ * (1 - P) = 1 - P := by
    rw [Matrix.conjTranspose_sub, Matrix.conjTranspose_one, hP.eq, Matrix.sub_mul, Matrix.mul_sub,
      Matrix.mul_sub, h]
    simp
  rw [← h1]
  exact Matrix.posSemidef_conjTranspose_mul_self _

theorem hw_unitary {W : Matrix (Fin d) (Fin d) ℂ} (h : W ∈ heisenbergWeyl d) : W * Wᴴ = 1 := by
  obtain ⟨i, hi, j, hj, rfl⟩ := hw_mem.1 h
  obtain ⟨W, h1, h2, -⟩ := (C99_operators d).2 i hi j hj
  rw [hw_getElem i j hi hj, Option.some.injEq] at h1
  rw [h1]
  exact h2

/-- **C99, measurements.**  `RandomStabilizerStateHeuristic` draws a measurement for every pair of
positions; it is the projector onto one vector, and one of the Heisenberg-Weyl operators leaves it as it
is. -/
theorem C99_stabilizer (eigenstates : Matrix (Fin d) (Fin d) ℂ → List (Fin d → ℂ))
    (hE : Spec.Eigenstates eigenstates) (i k : Nat) :
    ((∃ W, (heisenbergWeyl d)[i]? = some W ∧ k < (eigenstates W).length) ↔
      ∃ M, stabilizerMeas d eigenstates i k = .ok M) ∧
    ∀ M, stabilizerMeas d eigenstates i k = .ok M →
      M.PosSemidef ∧ (1 - M).PosSemidef ∧ M * M = M ∧ trace M = 1 ∧
      ∃ W, (heisenbergWeyl d)[i]? = some W ∧ W * M * Wᴴ = M := by
  unfold stabilizerMeas
  cases hW : (heisenbergWeyl d)[i]? with
  | none => simp
  | some W =>
    dsimp only
    cases hv : (eigenstates W)[k]? with
    | none =>
      refine ⟨⟨?_, by rintro ⟨M, h⟩; cases h⟩, by intro M h; cases h⟩
      rintro ⟨W', h1, h2⟩
      rw [Option.some.injEq] at h1
      subst h1
      rw [List.getElem?_eq_getElem h2] at hv
      cases hv
    | some v =>
      have hlt : k < (eigenstates W).length := by
        by_contra h
        rw [List.getElem?_eq_none (by omega)] at hv
        cases hv
      refine ⟨⟨fun _ => ⟨_, rfl⟩, fun _ => ⟨W, rfl, hlt⟩⟩, ?_⟩
      intro M hM
      rw [Except.ok.injEq] at hM
      subst hM
      obtain ⟨⟨c, hc⟩, hn⟩ := hE W v (List.mem_of_getElem? hv)
      have hp := ket2dm_psd v
      have hs := ket2dm_sq v hn
      refine ⟨hp, projector_le_one _ hp.1 hs, hs, ket2dm_trace v hn, W, rfl, ?_⟩
      have hU := hw_unitary (List.mem_of_getElem? hW)
      have hU' : Wᴴ * W = 1 := mul_eq_one_comm.1 hU
      have hcc : c * star c = 1 := by
        have h1 : star (W *ᵥ v) ⬝ᵥ (W *ᵥ v) = 1 := by
          rw [Matrix.star_mulVec, Matrix.dotProduct_mulVec, Matrix.vecMul_vecMul, hU', Matrix.vecMul_one, hn]
        rw [hc, star_smul, smul_dotProduct, dotProduct_smul, hn] at h1
        simpa [mul_comm] using h1
      unfold ket2dm
      rw [Matrix.mul_vecMulVec, Matrix.vecMulVec_mul, hc, ← Matrix.star_mulVec, hc, star_smul,
        Matrix.smul_vecMulVec, Matrix.vecMulVec_smul, smul_smul, hcc, one_smul]

/-! ## Records -/

section
variable {V F : Type} [DecidableEq F]

theorem measField_ok (n : Nat) (p : List ℝ) (h : p.length = n) : measField n p = .ok p := if_pos h

theorem tomoRecord_ok (fields : List F) (meas : F) (ofMeas : List ℝ → V) (zeros : F → V) (n : Nat)
    (other : List (F × V)) (p : List ℝ) (hp : p.length = n) (hm : meas ∈ fields)
    (ho : ∀ q ∈ other, q.1 ∈ fields) (hne : ∀ q ∈ other, q.1 ≠ meas) :
    ∃ r, tomoRecord fields meas ofMeas zeros n other p = .ok r ∧ r meas = ofMeas p ∧
      r = Spec.assigned other fun g => if g = meas then ofMeas p else zeros g := by
  refine ⟨_, ?_, ?_, rfl⟩
  · unfold tomoRecord
    rw [measField_ok n p hp]
    simp only [bind, Except.bind, setField, if_pos hm]
    exact setFields_ok _ _ _ ho
  · have : ∀ (l : List (F × V)) (r : F → V), (∀ q ∈ l, q.1 ≠ meas) → Spec.assigned l r meas = r meas := by
      intro l
      induction l with
      | nil => intro r _; rfl
      | cons q l ih =>
        intro r h
        rw [Spec.assigned, ih _ fun q' hq' => h q' (List.mem_cons_of_mem _ hq')]
        simp [(h q List.mem_cons_self).symm]
    rw [this other _ hne, if_pos rfl]

/-- **C99, state records.**  The record proposed for a Hermitian measurement `M` holds, in the field `meas`,
the parameters of `M`; the other fields have the values asked for and are zero otherwise. -/
theorem C99_state_record (b : TomoBasis) (h : Spec.IsTomoBasis b.side b.data) (fields : List F) (meas : F)
    (ofMeas : List ℝ → V) (zeros : F → V) (other : List (F × V)) (hm : meas ∈ fields)
    (ho : ∀ q ∈ other, q.1 ∈ fields) (hne : ∀ q ∈ other, q.1 ≠ meas)
    (M : Matrix (Fin b.side) (Fin b.side) ℂ) (hM : M.IsHermitian) :
    ∃ r p, stateHeurCall b fields meas ofMeas zeros b.data.length other M = .ok r ∧ r meas = ofMeas p ∧
      p.length = b.data.length ∧ Spec.op b.side b.data p = M ∧
      r = Spec.assigned other fun g => if g = meas then ofMeas p else zeros g := by
  obtain ⟨p, h1, h2, h3⟩ := op_of_state b h (toPlane M) (by rw [mat_toPlane]; exact hM)
  rw [mat_toPlane] at h3
  obtain ⟨r, h4, h5, h6⟩ := tomoRecord_ok fields meas ofMeas zeros b.data.length other p h2 hm ho hne
  refine ⟨r, p, ?_, h5, h2, h3, h6⟩
  unfold stateHeurCall
  rw [h1]
  exact h4

/-- **C99, Born's rule.**  For the parameters `p` of an effect `M` the model gives outcome 1 on the state
with parameters `x` exactly the probability `Tr(M ρ)`. -/
theorem C99_born (b : TomoBasis) (h : Spec.IsTomoBasis b.side b.data) (p x : List ℝ)
    (hp : p.length = b.data.length) (hx : x.length = b.data.length)
    (hM : (Spec.op b.side b.data p).PosSemidef) (hM' : (1 - Spec.op b.side b.data p).PosSemidef)
    (hρ : Spec.IsDensity (Spec.op b.side b.data x)) :
    ∃ l₀ l₁, tomoLikelihood (nM := 1) (nE := 1) (.array [0, 1]) (fun _ => x) (fun _ => p) = .ok [l₀, l₁] ∧
      l₁ 0 0 = (trace (Spec.op b.side b.data p * Spec.op b.side b.data x)).re ∧ l₀ 0 0 = 1 - l₁ 0 0 := by
  obtain ⟨L, h1, h2⟩ := C41_likelihood (nM := 1) (nE := 1) h [0, 1] (by simp) (fun _ => x) (fun _ => p)
    (fun _ => hx) (fun _ => hp)
  obtain ⟨l₀, L', e0, h3, rfl⟩ := List.forall₂_cons_left_iff.1 h2
  obtain ⟨l₁, L'', e1, h4, rfl⟩ := List.forall₂_cons_left_iff.1 h3
  rw [List.forall₂_nil_left_iff] at h4
  subst h4
  refine ⟨l₀, l₁, h1, ?_, ?_⟩
  · rw [(e1 0 0).1, if_neg (by norm_num), C41_born_rule _ _ hM hM' hρ]
  · rw [(e0 0 0).1, (e1 0 0).1, if_pos rfl, if_neg (by norm_num)]

end

/-! ## Process tomography -/

open Kronecker

/-- The quantum operation with Kraus operators `A`. -/
def Spec.kraus {m : Nat} (A : Fin m → Matrix (Fin d) (Fin d) ℂ) (ρ : Matrix (Fin d) (Fin d) ℂ) :
    Matrix (Fin d) (Fin d) ℂ := ∑ a, A a * ρ * (A a)ᴴ

/-- The Choi state of an operation: half of a maximally entangled pair is sent through it. -/
noncomputable def Spec.choiState (Λ : Matrix (Fin d) (Fin d) ℂ → Matrix (Fin d) (Fin d) ℂ) :
    Matrix (Fin d × Fin d) (Fin d × Fin d) ℂ :=
  (1 / (d : ℂ)) • Matrix.of fun p q => Λ (Matrix.single p.1 q.1 1) p.2 q.2

theorem kraus_single {m : Nat} (A : Fin m → Matrix (Fin d) (Fin d) ℂ) (i j a c : Fin d) :
    Spec.kraus A (Matrix.single i j 1) a c = ∑ k, A k a i * star (A k c j) := by
  unfold Spec.kraus
  rw [Matrix.sum_apply]
  refine Finset.sum_congr rfl fun k _ => ?_
  rw [Matrix.mul_apply, Finset.sum_eq_single j]
  · rw [Matrix.conjTranspose_apply, Matrix.mul_single_apply_same, mul_one]
  · intro b _ hb
    rw [Matrix.mul_single_apply_of_ne _ _ _ _ _ hb, zero_mul]
  · simp

theorem choi_psd {m : Nat} (A : Fin m → Matrix (Fin d) (Fin d) ℂ) :
    (Spec.choiState (Spec.kraus A)).PosSemidef := by
  unfold Spec.choiState
  have h : (Matrix.of fun p q : Fin d × Fin d => Spec.kraus A (Matrix.single p.1 q.1 1) p.2 q.2) =
      ∑ k, vecMulVec (fun p : Fin d × Fin d => A k p.2 p.1) (star fun p : Fin d × Fin d => A k p.2 p.1) := by
    ext p q
    rw [Matrix.of_apply, kraus_single, Matrix.sum_apply]
    rfl
  rw [h]
  refine Matrix.PosSemidef.smul (Matrix.posSemidef_sum _ fun k _ => Matrix.posSemidef_vecMulVec_self_star _) ?_
  rw [one_div]
  exact inv_nonneg.2 (by exact_mod_cast Nat.zero_le d)

theorem choi_trace {m : Nat} (hd : 0 < d) (A : Fin m → Matrix (Fin d) (Fin d) ℂ)
    (hA : ∑ a, (A a)ᴴ * A a = 1) : trace (Spec.choiState (Spec.kraus A)) = 1 := by
  unfold Spec.choiState
  rw [Matrix.trace_smul, Matrix.trace, Fintype.sum_prod_type]
  simp only [Matrix.diag_apply, Matrix.of_apply, kraus_single]
  have h1 : ∀ i : Fin d, ∑ a : Fin d, ∑ k, A k a i * star (A k a i) = 1 := by
    intro i
    have := congrFun (congrFun hA i) i
    rw [Matrix.sum_apply, Matrix.one_apply_eq] at this
    rw [← this, Finset.sum_comm]
    refine Finset.sum_congr rfl fun k _ => ?_
    rw [Matrix.mul_apply]
    refine Finset.sum_congr rfl fun a _ => ?_
    rw [Matrix.conjTranspose_apply, mul_comm]
  rw [Finset.sum_congr rfl fun i _ => h1 i]
  have : (d : ℂ) ≠ 0 := by exact_mod_cast hd.ne'
  simp [this]

/-- The statistics of a preparation and a measurement on the Choi state. -/
theorem choi_stat {m : Nat} (hd : 0 < d) (A : Fin m → Matrix (Fin d) (Fin d) ℂ)
    (ρ M : Matrix (Fin d) (Fin d) ℂ) :
    trace (((d : ℂ) • (ρ ⊗ₖ M)) * Spec.choiState (Spec.kraus A)) = trace (M * Spec.kraus A ρᵀ) := by
  have hd' : (d : ℂ) ≠ 0 := by exact_mod_cast hd.ne'
  have hkr : ∀ a c, Spec.kraus A ρᵀ a c = ∑ i, ∑ j, ρ j i * Spec.kraus A (Matrix.single i j 1) a c := by
    intro a c
    simp only [kraus_single, Finset.mul_sum]
    unfold Spec.kraus
    rw [Matrix.sum_apply]
    have : ∀ k, (A k * ρᵀ * (A k)ᴴ) a c = ∑ i, ∑ j, ρ j i * (A k a i * star (A k c j)) := by
      intro k
      rw [Matrix.mul_apply, Finset.sum_comm]
      refine Finset.sum_congr rfl fun j _ => ?_
      rw [Matrix.mul_apply, Finset.sum_mul]
      refine Finset.sum_congr rfl fun i _ => ?_
      rw [Matrix.transpose_apply, Matrix.conjTranspose_apply]
      ring
    rw [Finset.sum_congr rfl fun k _ => this k, Finset.sum_comm]
    refine Finset.sum_congr rfl fun i _ => ?_
    rw [Finset.sum_comm]
  unfold Spec.choiState
  rw [Matrix.smul_mul, Matrix.mul_smul, smul_smul, mul_one_div_cancel hd', one_smul, Matrix.trace,
    Matrix.trace, Fintype.sum_prod_type]
  simp only [Matrix.diag_apply, Matrix.mul_apply, Fintype.sum_prod_type, Matrix.kroneckerMap_apply,
    Matrix.of_apply, hkr, Finset.mul_sum]
  -- ∑ i a j c, ρ i j * M a c * Λ(E j i) c a = ∑ a c i j, M a c * (ρ j i * Λ(E i j) c a)
  rw [Finset.sum_comm]
  refine Finset.sum_congr rfl fun a _ => ?_
  rw [Finset.sum_congr rfl fun i (_ : i ∈ Finset.univ) => Finset.sum_comm, Finset.sum_comm]
  refine Finset.sum_congr rfl fun c _ => ?_
  rw [Finset.sum_comm]
  refine Finset.sum_congr rfl fun i _ => Finset.sum_congr rfl fun j _ => ?_
  ring

theorem kraus_psd {m : Nat} (A : Fin m → Matrix (Fin d) (Fin d) ℂ) {ρ : Matrix (Fin d) (Fin d) ℂ}
    (h : ρ.PosSemidef) : (Spec.kraus A ρ).PosSemidef :=
  Matrix.posSemidef_sum _ fun k _ => h.mul_mul_conjTranspose_same _

theorem kraus_trace {m : Nat} (A : Fin m → Matrix (Fin d) (Fin d) ℂ) (hA : ∑ a, (A a)ᴴ * A a = 1)
    (ρ : Matrix (Fin d) (Fin d) ℂ) : trace (Spec.kraus A ρ) = trace ρ := by
  unfold Spec.kraus
  rw [Matrix.trace_sum]
  rw [Finset.sum_congr rfl fun k (_ : k ∈ Finset.univ) => Matrix.trace_mul_cycle (A k) ρ (A k)ᴴ,
    ← Matrix.trace_sum, ← Finset.sum_mul, hA, one_mul]

theorem reindex_trace_mul (X Y : Matrix (Fin d × Fin d) (Fin d × Fin d) ℂ) :
    trace (Matrix.reindex finProdFinEquiv finProdFinEquiv X * Matrix.reindex finProdFinEquiv finProdFinEquiv Y) =
      trace (X * Y) := by
  rw [Matrix.reindex_apply, Matrix.reindex_apply, Matrix.submatrix_mul_equiv]
  simp only [Matrix.trace, Matrix.diag_apply, Matrix.submatrix_apply]
  exact Equiv.sum_comp finProdFinEquiv.symm fun x => (X * Y) x x

section
variable {V F : Type} [DecidableEq F]

/-- Full statement of C100: the record gives outcome 1 the probability of preparing `ρ` itself. -/
def C100Statement (d : Nat) : Prop :=
  ∀ (ρ M : Matrix (Fin d) (Fin d) ℂ), Spec.IsDensity ρ → M.PosSemidef → (1 - M).PosSemidef →
    ∀ {m : Nat} (A : Fin m → Matrix (Fin d) (Fin d) ℂ), ∑ a, (A a)ᴴ * A a = 1 →
      ∀ b : TomoBasis, b.side = d * d → Spec.IsTomoBasis b.side b.data → ∀ p x,
        processHeurCall (F := Unit) (d * d) b [()] () id (fun _ => []) b.data.length [] (ρ, M) = .ok p →
        stateToModelparams b (d * d) (toPlane (Matrix.reindex finProdFinEquiv finProdFinEquiv
          (Spec.choiState (Spec.kraus A)))) = .ok x →
        ∃ l₀ l₁, tomoLikelihood (nM := 1) (nE := 1) (.array [0, 1]) (fun _ => x) (fun _ => p ()) = .ok [l₀, l₁] ∧
          l₁ 0 0 = (trace (M * Spec.kraus A ρ)).re

/-- **C100, processes.**  For a preparation `ρ` and an effect `M` in dimension `d` and a model whose basis
is one of dimension `d²`, `ProcessTomographyHeuristic` proposes a record whose measurement gives outcome 1,
for the Choi state of every quantum channel `Λ`, exactly the probability `Tr(M Λ(ρᵀ))` of preparing the
transpose of `ρ`, sending it through the channel and seeing `M`. -/
theorem C100_process_partial (b : TomoBasis) (hd : 0 < d) (hside : b.side = d * d)
    (h : Spec.IsTomoBasis b.side b.data) (fields : List F) (meas : F)
    (ofMeas : List ℝ → V) (zeros : F → V) (other : List (F × V)) (hm : meas ∈ fields)
    (ho : ∀ q ∈ other, q.1 ∈ fields) (hne : ∀ q ∈ other, q.1 ≠ meas)
    (ρ M : Matrix (Fin d) (Fin d) ℂ) (hρ : Spec.IsDensity ρ) (hM : M.PosSemidef) (hM' : (1 - M).PosSemidef) :
    ∃ r p, processHeurCall (d * d) b fields meas ofMeas zeros b.data.length other (ρ, M) = .ok r ∧
      r meas = ofMeas p ∧
      (r = Spec.assigned other fun g => if g = meas then ofMeas p else zeros g) ∧
      ∀ {m : Nat} (A : Fin m → Matrix (Fin d) (Fin d) ℂ), ∑ a, (A a)ᴴ * A a = 1 →
        ∀ x, stateToModelparams b (d * d) (toPlane (Matrix.reindex finProdFinEquiv finProdFinEquiv
          (Spec.choiState (Spec.kraus A)))) = .ok x →
        ∃ l₀ l₁, tomoLikelihood (nM := 1) (nE := 1) (.array [0, 1]) (fun _ => x) (fun _ => p) = .ok [l₀, l₁] ∧
          l₁ 0 0 = (trace (M * Spec.kraus A ρᵀ)).re ∧ l₀ 0 0 = 1 - l₁ 0 0 ∧ 0 ≤ l₁ 0 0 ∧ l₁ 0 0 ≤ 1 := by
  obtain ⟨data, side, dims, labels⟩ := b
  dsimp only at hside h ⊢
  subst hside
  have hsqrt : (Real.sqrt ((d * d : Nat) : ℝ) : ℂ) = d := by
    push_cast
    rw [Real.sqrt_mul_self (Nat.cast_nonneg d)]
    simp
  set f : Plane := fun i j => (Real.sqrt ((d * d : Nat) : ℝ) : ℂ) *
    (npKron (d, toPlane ρ) (d, toPlane M)).2 i j with hf
  have hmat : Spec.mat (d * d) f =
      Matrix.reindex finProdFinEquiv finProdFinEquiv ((d : ℂ) • (ρ ⊗ₖ M)) := by
    have h1 := mat_kron d d (toPlane ρ) (toPlane M)
    rw [mat_toPlane, mat_toPlane] at h1
    have h2 : Spec.mat (d * d) f = (d : ℂ) • Spec.mat (d * d) (kronPlane d (toPlane ρ) (toPlane M)) := by
      ext i j
      simp only [Spec.mat, Matrix.of_apply, Matrix.smul_apply, hf, smul_eq_mul, hsqrt]
      rfl
    rw [h2, h1]
    rfl
  have hherm : (Spec.mat (d * d) f).IsHermitian := by
    rw [hmat]
    unfold Matrix.IsHermitian
    rw [Matrix.reindex_apply, Matrix.conjTranspose_submatrix, Matrix.conjTranspose_smul,
      Matrix.conjTranspose_kronecker, hρ.1.1.eq, hM.1.eq]
    simp
  obtain ⟨p, h1, h2, h3⟩ := op_of_state ⟨data, d * d, dims, labels⟩ h f hherm
  obtain ⟨r, h4, h5, h6⟩ := tomoRecord_ok fields meas ofMeas zeros data.length other p h2 hm ho hne
  refine ⟨r, p, ?_, h5, h6, ?_⟩
  · unfold processHeurCall
    dsimp only
    rw [← hf]
    dsimp only at h1
    rw [h1]
    exact h4
  intro m A hA x hx
  obtain ⟨x', g1, g2, g3⟩ := op_of_state ⟨data, d * d, dims, labels⟩ h
    (toPlane (Matrix.reindex finProdFinEquiv finProdFinEquiv (Spec.choiState (Spec.kraus A)))) (by
      rw [mat_toPlane]
      exact ((choi_psd A).submatrix _).1)
  have hxx : x = x' := by
    have := hx.symm.trans g1
    simpa using this
  subst hxx
  dsimp only at g2 g3 h3 h2
  rw [mat_toPlane] at g3
  have hstat : trace (Spec.op (d * d) data p * Spec.op (d * d) data x) = trace (M * Spec.kraus A ρᵀ) := by
    rw [h3, hmat, g3, reindex_trace_mul, choi_stat hd]
  have hΛ : Spec.IsDensity (Spec.kraus A ρᵀ) :=
    ⟨kraus_psd A hρ.1.transpose, by rw [kraus_trace A hA, Matrix.trace_transpose, hρ.2]⟩
  have hb := C41_born_rule M _ hM hM' hΛ
  obtain ⟨L, k1, k2⟩ := C41_likelihood (b := ⟨data, d * d, dims, labels⟩) (nM := 1) (nE := 1) h [0, 1]
    (by simp) (fun _ => x) (fun _ => p) (fun _ => g2) (fun _ => h2)
  obtain ⟨l₀, L', e0, k3, rfl⟩ := List.forall₂_cons_left_iff.1 k2
  obtain ⟨l₁, L'', e1, k4, rfl⟩ := List.forall₂_cons_left_iff.1 k3
  rw [List.forall₂_nil_left_iff] at k4
  subst k4
  dsimp only at e0 e1
  refine ⟨l₀, l₁, k1, ?_, ?_, (e1 0 0).2.1, (e1 0 0).2.2⟩
  · rw [(e1 0 0).1, if_neg (by norm_num), hstat, hb]
  · rw [(e0 0 0).1, (e1 0 0).1, if_pos rfl, if_neg (by norm_num)]

end

/-- **C100, normalization.**  `unit()` makes a state of every positive operator other than zero. -/
theorem C100_unit (M : Matrix (Fin d) (Fin d) ℂ) (hM : M.PosSemidef) (h0 : M ≠ 0) :
    ∃ ρ, qobjUnit M = some ρ ∧ Spec.IsDensity ρ ∧ ρ = (trace M)⁻¹ • M := by
  have htr : (((M.charpoly.roots.map fun z => ‖z‖).sum : ℝ) : ℂ) = trace M := by
    rw [hM.1.roots_charpoly_eq_eigenvalues, hM.1.trace_eq_sum_eigenvalues, Multiset.map_map]
    have : ∀ i, ‖((hM.1.eigenvalues i : ℝ) : ℂ)‖ = hM.1.eigenvalues i := fun i => by
      rw [Complex.norm_real, Real.norm_eq_abs, abs_of_nonneg (hM.eigenvalues_nonneg i)]
    rw [show (Finset.univ.val.map ((fun z : ℂ => ‖z‖) ∘ (RCLike.ofReal ∘ hM.1.eigenvalues))).sum =
      ∑ i, hM.1.eigenvalues i from Finset.sum_congr rfl fun i _ => this i]
    push_cast
    rfl
  have ht : trace M ≠ 0 := fun h => h0 (hM.trace_eq_zero_iff.1 h)
  have hne : (M.charpoly.roots.map fun z => ‖z‖).sum ≠ 0 := fun h => ht (by rw [← htr, h]; simp)
  have e : ((((M.charpoly.roots.map fun z => ‖z‖).sum)⁻¹ : ℝ) : ℂ) • M = (trace M)⁻¹ • M := by
    rw [Complex.ofReal_inv, htr]
  refine ⟨_, by unfold qobjUnit; dsimp only; rw [if_neg hne, e], ⟨?_, ?_⟩, rfl⟩
  · exact hM.smul (inv_nonneg.2 hM.trace_nonneg)
  · rw [Matrix.trace_smul, smul_eq_mul, inv_mul_cancel₀ ht]

/-- **C100, products of stabilizer states.**  `ProductHeuristic` with two
`RandomStabilizerStateHeuristic`s takes the stabilizer state drawn first as preparation and the projector
drawn second as measurement; they satisfy what `C100_process_partial` asks for. -/
theorem C100_product_stabilizer (eigenstates : Matrix (Fin d) (Fin d) ℂ → List (Fin d → ℂ))
    (hE : Spec.Eigenstates eigenstates) (i k i' k' : Nat) (P M : Matrix (Fin d) (Fin d) ℂ)
    (hP : stabilizerMeas d eigenstates i k = .ok P) (hM : stabilizerMeas d eigenstates i' k' = .ok M) :
    productPrepmeas P M = some (P, M) ∧ Spec.IsDensity P ∧ M.PosSemidef ∧ (1 - M).PosSemidef := by
  obtain ⟨h1, -, -, h2, -⟩ := (C99_stabilizer eigenstates hE i k).2 P hP
  obtain ⟨h3, h4, -⟩ := (C99_stabilizer eigenstates hE i' k').2 M hM
  have h0 : P ≠ 0 := by
    rintro rfl
    simp at h2
  obtain ⟨ρ, e1, -, e2⟩ := C100_unit P h1 h0
  rw [h2, inv_one, one_smul] at e2
  subst e2
  exact ⟨by unfold productPrepmeas; rw [e1]; rfl, ⟨h1, h2⟩, h3, h4⟩

/-- **C100, products of Pauli measurements.**  `ProductHeuristic` with `RandomPauliHeuristic` for
preparations and measurements never delivers a record: the operators drawn have the dimension of the
channel and not of the system, and `state_to_modelparams` raises `ValueError`. -/
theorem C100_product_pauli_fails (b : TomoBasis) (nq : Nat) (hq : 0 < nq)
    (hside : b.side = 2 ^ nq) (c₁ c₂ : Nat) (h₁ : c₁ < 4 ^ nq - 1) (h₂ : c₂ < 4 ^ nq - 1) :
    productPauliCall (2 ^ nq) b c₁ c₂ = .error .valueError := by
  obtain ⟨t, ht, hl, hc⟩ := C69_projector nq hq
  obtain ⟨m₁, g1, g2, g3, g4, -⟩ := hc c₁ (by omega)
  obtain ⟨m₂, k1, -⟩ := hc c₂ (by omega)
  unfold productPauliCall
  rw [ht]
  simp only [bind, Except.bind, g1, k1]
  have hpsd : (Spec.mat (2 ^ nq) m₁).PosSemidef := by
    rw [← g3]
    nth_rw 1 [← g2.eq]
    exact Matrix.posSemidef_conjTranspose_mul_self _
  have h0 : Spec.mat (2 ^ nq) m₁ ≠ 0 := by
    intro h
    rw [h, Matrix.trace_zero] at g4
    have : (2 : ℂ) ^ nq ≠ 0 := pow_ne_zero _ two_ne_zero
    exact this (by linear_combination (-2 : ℂ) * g4)
  obtain ⟨u, e, -⟩ := C100_unit _ hpsd h0
  have e' : qobjUnit (Matrix.of fun i j : Fin (2 ^ nq) => m₁ i j) = some u := e
  rw [e']
  dsimp only
  unfold stateToModelparams
  rw [if_pos]
  rw [hside]
  have h2 : 2 ≤ 2 ^ nq := by
    calc 2 = 2 ^ 1 := rfl
      _ ≤ 2 ^ nq := Nat.pow_le_pow_right (by norm_num) hq
  intro h
  have : 2 ^ nq < 2 ^ nq * 2 ^ nq := by nlinarith
  have := Nat.mul_self_lt_mul_self this
  omega

/-- Case for C99: in every dimension there are eigenstates as QuTiP promises, at least one for each
operator; so measurements can be drawn. -/
theorem exists_eigenstates (hd : 0 < d) :
    ∃ es : Matrix (Fin d) (Fin d) ℂ → List (Fin d → ℂ), Spec.Eigenstates es ∧ ∀ W, es W ≠ [] := by
  have key : ∀ W : Matrix (Fin d) (Fin d) ℂ, ∃ v : Fin d → ℂ, (∃ c : ℂ, W *ᵥ v = c • v) ∧ star v ⬝ᵥ v = 1 := by
    intro W
    haveI : Nonempty (Fin d) := ⟨⟨0, hd⟩⟩
    obtain ⟨c, hc⟩ := Module.End.exists_eigenvalue (Matrix.toLin' W)
    obtain ⟨v, hv⟩ := hc.exists_hasEigenvector
    have hW : W *ᵥ v = c • v := by
      have := hv.apply_eq_smul
      rwa [Matrix.toLin'_apply] at this
    have hv0 : v ≠ 0 := hv.2
    have hpos : 0 < star v ⬝ᵥ v := Matrix.dotProduct_star_self_pos_iff.2 hv0
    obtain ⟨h1, h2⟩ := Complex.pos_iff.1 hpos
    set n := (star v ⬝ᵥ v).re with hn
    have hvn : star v ⬝ᵥ v = (n : ℂ) := Complex.ext rfl (by simpa using h2.symm)
    refine ⟨((1 / Real.sqrt n : ℝ) : ℂ) • v, ⟨c, ?_⟩, ?_⟩
    · rw [Matrix.mulVec_smul, hW, smul_comm]
    · rw [star_smul, smul_dotProduct, dotProduct_smul, hvn, Complex.star_def, Complex.conj_ofReal,
        smul_eq_mul, smul_eq_mul, ← Complex.ofReal_mul, ← Complex.ofReal_mul]
      have h3 : 1 / Real.sqrt n * (1 / Real.sqrt n * n) = 1 := by
        have h4 : Real.sqrt n ≠ 0 := (Real.sqrt_pos.2 h1).ne'
        field_simp
        rw [Real.sq_sqrt h1.le]
      rw [h3, Complex.ofReal_one]
  choose f hf using key
  exact ⟨fun W => [f W], fun W v hv => by rw [List.mem_singleton.1 hv]; exact hf W, fun W => by simp⟩

/-- In dimension three all nine operators can be drawn. -/
example : ∃ es : Matrix (Fin 3) (Fin 3) ℂ → List (Fin 3 → ℂ), Spec.Eigenstates es ∧
    ∀ i < 9, ∃ M, stabilizerMeas 3 es i 0 = .ok M ∧ trace M = 1 := by
  obtain ⟨es, h1, h2⟩ := exists_eigenstates (d := 3) (by norm_num)
  refine ⟨es, h1, fun i hi => ?_⟩
  have hl : i < (heisenbergWeyl 3).length := by rw [hw_length]; exact hi
  obtain ⟨M, hM⟩ := (C99_stabilizer es h1 i 0).1.1
    ⟨_, List.getElem?_eq_getElem hl, List.length_pos_of_ne_nil (h2 _)⟩
  exact ⟨M, hM, ((C99_stabilizer es h1 i 0).2 M hM).2.2.2.1⟩

/-- **C100, transposition.**  The transposition in `C100_process_partial` matters: for the eigenstate `ρ` of `σ_y` the
model predicts that `ρ` sent through the identity channel is never found in `ρ`. -/
theorem C100_transposed : ∃ ρ : Matrix (Fin 2) (Fin 2) ℂ, Spec.IsDensity ρ ∧ (1 - ρ).PosSemidef ∧
    ∃ A : Fin 1 → Matrix (Fin 2) (Fin 2) ℂ, ∑ a, (A a)ᴴ * A a = 1 ∧ Spec.kraus A ρ = ρ ∧
      trace (ρ * Spec.kraus A ρ) = 1 ∧ trace (ρ * Spec.kraus A ρᵀ) = 0 := by
  have hρ : (!![1 / 2, -Complex.I / 2; Complex.I / 2, 1 / 2] : Matrix (Fin 2) (Fin 2) ℂ).IsHermitian := by
    ext i j
    fin_cases i <;> fin_cases j <;> simp
  have hsq : (!![1 / 2, -Complex.I / 2; Complex.I / 2, 1 / 2] : Matrix (Fin 2) (Fin 2) ℂ) *
      !![1 / 2, -Complex.I / 2; Complex.I / 2, 1 / 2] = !![1 / 2, -Complex.I / 2; Complex.I / 2, 1 / 2] := by
    ext i j
    fin_cases i <;> fin_cases j <;> simp [Matrix.mul_apply, Fin.sum_univ_two] <;> ring_nf <;>
      simp <;> ring
  have hk : ∀ X : Matrix (Fin 2) (Fin 2) ℂ, Spec.kraus (fun _ : Fin 1 => 1) X = X := by
    intro X
    simp [Spec.kraus]
  have htr : trace (!![1 / 2, -Complex.I / 2; Complex.I / 2, 1 / 2] : Matrix (Fin 2) (Fin 2) ℂ) = 1 := by
    rw [Matrix.trace_fin_two]
    norm_num
  refine ⟨!![1 / 2, -Complex.I / 2; Complex.I / 2, 1 / 2], ⟨?_, htr⟩, projector_le_one _ hρ hsq,
    fun _ => 1, by simp, hk _, ?_, ?_⟩
  · rw [← hsq]
    nth_rw 1 [← hρ.eq]
    exact Matrix.posSemidef_conjTranspose_mul_self _
  · rw [hk, hsq, htr]
  · rw [hk, Matrix.trace_fin_two]
    simp [Matrix.mul_apply, Fin.sum_univ_two, Matrix.transpose_apply]
    ring_nf
    simp
    try ring

/-- The full statement fails already for one qubit. -/
theorem C100_statement_fails : ¬ C100Statement 2 := by
  intro h
  obtain ⟨ρ, h1, h2, A, h3, -, h5, h6⟩ := C100_transposed
  obtain ⟨b, hb, hs, -, hT, -⟩ := C40_pauli 2 (by norm_num)
  have hs' : b.side = 2 * 2 := hs
  obtain ⟨r, p, g1, g2, -, g4⟩ := C100_process_partial (F := Unit) (d := 2) b (by norm_num) hs' (hs ▸ hT) [()] ()
    id (fun _ => []) [] (by simp) (by simp) (by simp) ρ ρ h1 h1.1 h2
  have hx : ∃ x, stateToModelparams b (2 * 2) (toPlane (Matrix.reindex finProdFinEquiv finProdFinEquiv
          (Spec.choiState (Spec.kraus A)))) = .ok x := by
    unfold stateToModelparams
    rw [if_neg (by rw [hs']; simp)]
    exact ⟨_, rfl⟩
  obtain ⟨x, hx⟩ := hx
  obtain ⟨l₀, l₁, k1, k2, -⟩ := g4 A h3 x hx
  obtain ⟨l₀', l₁', k1', k2'⟩ := h ρ ρ h1 h1.1 h2 A h3 b hs' (hs ▸ hT) r x g1 hx
  rw [g2] at k1'
  have := k1'.symm.trans k1
  simp only [Except.ok.injEq, List.cons.injEq, and_true] at this
  rw [this.2, k2, h5, h6] at k2'
  simp at k2'

/-- Case for `C100_process_partial`: on one qubit with the Pauli basis of two, through every channel. -/
example {m : Nat} (A : Fin m → Matrix (Fin 2) (Fin 2) ℂ) (hA : ∑ a, (A a)ᴴ * A a = 1)
    (ρ M : Matrix (Fin 2) (Fin 2) ℂ) (hρ : Spec.IsDensity ρ) (hM : M.PosSemidef) (hM' : (1 - M).PosSemidef) :
    ∃ b, pauliBasis 2 = .ok b ∧ ∃ r : String → List ℝ, ∃ x,
      processHeurCall 4 b ["meas"] "meas" id (fun _ => []) 16 [] (ρ, M) = .ok r ∧
      stateToModelparams b 4 (toPlane (Matrix.reindex finProdFinEquiv finProdFinEquiv
          (Spec.choiState (Spec.kraus A)))) = .ok x ∧
      ∃ l₀ l₁, tomoLikelihood (nM := 1) (nE := 1) (.array [0, 1]) (fun _ => x) (fun _ => r "meas") = .ok [l₀, l₁] ∧
        l₁ 0 0 = (trace (M * Spec.kraus A ρᵀ)).re := by
  obtain ⟨b, hb, hs, -, hT, -⟩ := C40_pauli 2 (by norm_num)
  have hs' : b.side = 2 * 2 := hs
  have hl : b.data.length = 16 := by rw [hT.len]; norm_num
  obtain ⟨r, p, h1, h2, -, h4⟩ := C100_process_partial (d := 2) b (by norm_num) hs' (hs ▸ hT) ["meas"] "meas" id
    (fun _ => []) [] (by simp) (by simp) (by simp) ρ M hρ hM hM'
  refine ⟨b, hb, r, ?_⟩
  rw [hl] at h1
  have hx : ∃ x, stateToModelparams b (2 * 2) (toPlane (Matrix.reindex finProdFinEquiv finProdFinEquiv
          (Spec.choiState (Spec.kraus A)))) = .ok x := by
    unfold stateToModelparams
    rw [if_neg (by rw [hs']; simp)]
    exact ⟨_, rfl⟩
  obtain ⟨x, hx⟩ := hx
  obtain ⟨l₀, l₁, g1, g2, -⟩ := h4 A hA x hx
  exact ⟨x, h1, hx, l₀, l₁, by rw [h2]; exact g1, g2⟩

end

end QInfer
