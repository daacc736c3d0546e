import Verif.Lemmas.Particle
import Mathlib.Data.Rat.Floor
import Mathlib.LinearAlgebra.Matrix.PosDef

/-!
# Properties of the particle distribution: C11, C12, C13, C16, C17, C52
-/

set_option linter.unusedSectionVars false

namespace QInfer

open Finset

variable {K : Type*} [Field K] [LinearOrder K] [IsStrictOrderedRing K]

/-! ## C11 -/

/-- **C11.**  The effective sample size of a probability vector is finite, at least 1 and at most the
particle count; it is the particle count exactly for uniform weights, and 1 exactly when one particle
carries all the weight. -/
theorem C11_ess_bounds (w : List K) (h : IsProb w) :
    ∃ v : K, nEss w = (v : WithTop K) ∧ 1 ≤ v ∧ v ≤ w.length ∧
      (v = w.length ↔ ∀ x ∈ w, x = 1 / w.length) ∧
      (v = 1 ↔ ∃ l r, w = l ++ 1 :: r ∧ (∀ x ∈ l, x = 0) ∧ ∀ x ∈ r, x = 0) := by
  obtain ⟨h0, h1⟩ := h
  set S := (w.map fun x => x ^ 2).sum with hS
  have hne : w ≠ [] := by rintro rfl; simp at h1
  have hn : (0 : K) < w.length := by
    have : 0 < w.length := List.length_pos_iff.2 hne
    exact_mod_cast this
  have hvar := list_sum_sq_sub (1 / (w.length : K)) w
  rw [h1, ← hS] at hvar
  have hvar' : (w.map fun x => (x - 1 / (w.length : K)) ^ 2).sum = S - 1 / w.length := by
    rw [hvar]; field_simp; ring
  have hsqnn : ∀ y ∈ w.map (fun x => (x - 1 / (w.length : K)) ^ 2), (0 : K) ≤ y := by
    intro y hy; obtain ⟨x, -, rfl⟩ := List.mem_map.1 hy; positivity
  have hlow : 1 / (w.length : K) ≤ S := by
    have := List.sum_nonneg hsqnn
    linarith
  have hSpos : 0 < S := lt_of_lt_of_le (by positivity) hlow
  have hsub := list_sum_sub_sq w
  rw [h1, ← hS] at hsub
  have hdnn : ∀ y ∈ w.map (fun x => x - x ^ 2), (0 : K) ≤ y := by
    intro y hy; obtain ⟨x, hx, rfl⟩ := List.mem_map.1 hy
    have a := h0 x hx
    have b := list_le_sum h0 x hx
    rw [h1] at b
    nlinarith
  have hup : S ≤ 1 := by
    have := List.sum_nonneg hdnn
    linarith
  refine ⟨1 / S, ?_, ?_, ?_, ?_, ?_⟩
  · unfold nEss recip; rw [if_neg hSpos.ne']
  · rw [le_div_iff₀ hSpos]; linarith
  · rw [div_le_iff₀ hSpos]
    rw [div_le_iff₀ hn] at hlow
    linarith
  · constructor
    · intro hv
      have hSv : S = 1 / w.length := by rw [← hv]; field_simp
      have hz : (w.map fun x => (x - 1 / (w.length : K)) ^ 2).sum = 0 := by rw [hvar', hSv]; ring
      intro x hx
      have := list_sum_zero hsqnn hz _ (List.mem_map.2 ⟨x, hx, rfl⟩)
      have := pow_eq_zero_iff (two_ne_zero) |>.1 this
      linarith
    · intro hall
      have : S = 1 / w.length := by
        have hmap : w.map (fun x => (x - 1 / (w.length : K)) ^ 2) = w.map fun _ => 0 := by
          apply List.map_congr_left
          intro x hx; rw [hall x hx]; ring
        rw [hmap] at hvar'
        simp at hvar'
        simp; linarith
      rw [this]; field_simp
  · constructor
    · intro hv
      have hS1 : S = 1 := by field_simp at hv; exact hv.symm
      have hz : (w.map fun x => x - x ^ 2).sum = 0 := by rw [hsub, hS1]; ring
      have h01 : ∀ x ∈ w, x = 0 ∨ x = 1 := by
        intro x hx
        have := list_sum_zero hdnn hz _ (List.mem_map.2 ⟨x, hx, rfl⟩)
        have : x * (1 - x) = 0 := by linear_combination this
        rcases mul_eq_zero.1 this with h | h
        · exact Or.inl h
        · right; linarith
      have hex : (1 : K) ∈ w := by
        by_contra hno
        have : w.sum = 0 := List.sum_eq_zero fun x hx => by
          rcases h01 x hx with h | h
          · exact h
          · exact absurd (h ▸ hx) hno
        rw [this] at h1; exact zero_ne_one h1
      obtain ⟨l, r, rfl⟩ := List.append_of_mem hex
      refine ⟨l, r, rfl, ?_, ?_⟩
      all_goals
        rw [List.sum_append, List.sum_cons] at h1
        have hl : 0 ≤ l.sum := List.sum_nonneg fun x hx => h0 x (by simp [hx])
        have hr : 0 ≤ r.sum := List.sum_nonneg fun x hx => h0 x (by simp [hx])
        apply list_sum_zero
        · intro x hx; exact h0 x (by simp [hx])
        · linarith
    · rintro ⟨l, r, rfl, hl, hr⟩
      have : S = 1 := by
        rw [hS, List.map_append, List.sum_append, List.map_cons, List.sum_cons]
        rw [List.sum_eq_zero, List.sum_eq_zero]
        · ring
        · intro y hy; obtain ⟨x, hx, rfl⟩ := List.mem_map.1 hy; rw [hr x hx]; ring
        · intro y hy; obtain ⟨x, hx, rfl⟩ := List.mem_map.1 hy; rw [hl x hx]; ring
      rw [this]; simp

/-- Case for C11. -/
example : IsProb ([1/2, 1/4, 1/4] : List ℚ) ∧ nEss ([1/2, 1/4, 1/4] : List ℚ) = ((8/3 : ℚ) : WithTop ℚ) := by
  refine ⟨⟨?_, by decide +kernel⟩, by decide +kernel⟩
  simp

/-! ## C12 -/

/-- **C12.**  From locations and weights that are not all zero, the constructor keeps the locations
and stores non-negative weights that sum to one and are proportional to the absolute values. -/
theorem C12_constructor_normalises (l : List (List K)) (w : List K) (hw : ∃ x ∈ w, x ≠ 0) :
    ∃ w' : List K, particleInit none (some l) (some w) = .ok (l, w'.map some) ∧
      IsProb w' ∧ ∃ c : K, 0 < c ∧ w' = w.map fun x => c * |x| := by
  have hnn : ∀ y ∈ w.map (fun x => |x|), (0 : K) ≤ y := by
    intro y hy; obtain ⟨x, -, rfl⟩ := List.mem_map.1 hy; exact abs_nonneg x
  have hpos : 0 < (w.map fun x => |x|).sum := by
    rcases (List.sum_nonneg hnn).lt_or_eq with h | h
    · exact h
    · obtain ⟨x, hx, hx0⟩ := hw
      have := list_sum_zero hnn h.symm _ (List.mem_map.2 ⟨x, hx, rfl⟩)
      exact absurd (abs_eq_zero.1 this) hx0
  set S := (w.map fun x => |x|).sum with hS
  refine ⟨w.map fun x => (1 / S) * |x|, ?_, ⟨?_, ?_⟩, 1 / S, by positivity, rfl⟩
  · simp only [particleInit, npDiv, ← hS, hpos.ne', if_false, List.map_map]
    congr 2
    apply List.map_congr_left
    intro x _
    simp [div_eq_inv_mul]
  · intro y hy; obtain ⟨x, -, rfl⟩ := List.mem_map.1 hy; positivity
  · have : (w.map fun x => (1 / S) * |x|).sum = (1 / S) * S := by
      rw [hS, ← List.sum_map_mul_left]
    rw [this]; field_simp

/-- **C12, all-zero weights.**  Every stored weight is NaN. -/
theorem C12_zero_weights_nan (l : List (List K)) (w : List K) (hw : ∀ x ∈ w, x = 0) :
    particleInit none (some l) (some w) = .ok (l, w.map fun _ => none) := by
  have hS : (w.map fun x => |x|).sum = 0 := by
    apply List.sum_eq_zero
    intro y hy; obtain ⟨x, hx, rfl⟩ := List.mem_map.1 hy; rw [hw x hx]; simp
  simp only [particleInit, npDiv, hS, if_true, List.map_map]
  rfl

/-- **C12, other argument combinations.**  Particles and a dimension together raise `ValueError`
whatever they are; without both locations and weights a dimension gives one particle at the origin
with weight one, and no dimension raises `TypeError`. -/
theorem C12_argument_combinations (l : Option (List (List K))) (w : Option (List K)) (d : Nat) :
    (l.isSome ∧ w.isSome → particleInit (some d) l w = .error .valueError) ∧
    (¬ (l.isSome ∧ w.isSome) →
      particleInit (some d) l w = .ok ([List.replicate d 0], [some 1]) ∧
      particleInit none l w = .error .typeError) := by
  cases l <;> cases w <;> simp [particleInit]

/-- Case for C12. -/
example : particleInit none (some [[1], [2], [3]]) (some [-1, 2, 1]) =
    .ok (([[1], [2], [3]] : List (List ℚ)), [some (1/4), some (1/2), some (1/4)]) := by
  simp [particleInit, npDiv]; norm_num

/-! ## C13 -/

variable {n d : Nat}

/-- **C13, formula.**  For weights that sum to one the covariance estimate is the weighted centred
second moment. -/
theorem C13_cov_is_centred_moment (w : Fin n → K) (x : Fin n → Fin d → K) (h1 : ∑ i, w i = 1)
    (a b : Fin d) :
    pcov w x a b = ∑ i, w i * ((x i a - ∑ k, w k * x k a) * (x i b - ∑ k, w k * x k b)) := by
  unfold pcov
  have ha : pmean w x a = ∑ k, w k * x k a := rfl
  have hb : pmean w x b = ∑ k, w k * x k b := rfl
  rw [← ha, ← hb]
  have : ∀ i, w i * ((x i a - pmean w x a) * (x i b - pmean w x b)) =
      w i * x i a * x i b - pmean w x b * (w i * x i a) - pmean w x a * (w i * x i b)
        + pmean w x a * pmean w x b * w i := fun i => by ring
  simp only [this, sum_add_distrib, sum_sub_distrib, ← mul_sum, h1]
  rw [← ha, ← hb]
  ring

/-- The quadratic form of the covariance along `v` is the weighted variance of `v · x`. -/
theorem pcov_quadratic (w : Fin n → K) (x : Fin n → Fin d → K) (h1 : ∑ i, w i = 1)
    (v : Fin d → K) :
    ∑ a, ∑ b, v a * pcov w x a b * v b =
      ∑ i, w i * (∑ a, v a * (x i a - ∑ k, w k * x k a)) ^ 2 := by
  simp only [C13_cov_is_centred_moment w x h1]
  have : ∀ i, w i * (∑ a, v a * (x i a - ∑ k, w k * x k a)) ^ 2 =
      ∑ a, ∑ b, v a * (w i * ((x i a - ∑ k, w k * x k a) * (x i b - ∑ k, w k * x k b))) * v b := by
    intro i
    rw [sq, sum_mul_sum, mul_sum]
    refine sum_congr rfl fun a _ => ?_
    rw [mul_sum]
    exact sum_congr rfl fun b _ => by ring
  simp only [this]
  conv_rhs => rw [sum_comm]
  refine sum_congr rfl fun a _ => ?_
  conv_rhs => rw [sum_comm]
  refine sum_congr rfl fun b _ => ?_
  rw [mul_sum, sum_mul]

/-- **C13, symmetric and positive semidefinite.** -/
theorem C13_cov_psd (w : Fin n → K) (x : Fin n → Fin d → K) (h0 : ∀ i, 0 ≤ w i)
    (h1 : ∑ i, w i = 1) :
    (∀ a b, pcov w x a b = pcov w x b a) ∧
    (∀ v : Fin d → K, 0 ≤ ∑ a, ∑ b, v a * pcov w x a b * v b) := by
  refine ⟨fun a b => ?_, fun v => ?_⟩
  · unfold pcov
    rw [mul_comm (pmean w x a)]
    congr 1
    exact sum_congr rfl fun i _ => by ring
  · rw [pcov_quadratic w x h1]
    exact sum_nonneg fun i _ => mul_nonneg (h0 i) (sq_nonneg _)

/-- **C13, degenerate directions.**  The covariance vanishes along a direction exactly when all
particles of positive weight have the same component along it. -/
theorem C13_cov_zero_iff (w : Fin n → K) (x : Fin n → Fin d → K) (h0 : ∀ i, 0 ≤ w i)
    (h1 : ∑ i, w i = 1) (v : Fin d → K) :
    ∑ a, ∑ b, v a * pcov w x a b * v b = 0 ↔
      ∀ i j, 0 < w i → 0 < w j → ∑ a, v a * x i a = ∑ a, v a * x j a := by
  rw [pcov_quadratic w x h1, sum_eq_zero_iff_of_nonneg
    fun i _ => mul_nonneg (h0 i) (sq_nonneg _)]
  have hsplit : ∀ i, ∑ a, v a * (x i a - ∑ k, w k * x k a) =
      ∑ a, v a * x i a - ∑ k, w k * ∑ a, v a * x k a := by
    intro i
    simp only [mul_sub, sum_sub_distrib]
    congr 1
    simp only [mul_sum]
    rw [sum_comm]
    exact sum_congr rfl fun k _ => sum_congr rfl fun a _ => by ring
  simp only [hsplit, mem_univ, true_implies]
  constructor
  · intro h i j hi hj
    have key : ∀ i, 0 < w i → ∑ a, v a * x i a = ∑ k, w k * ∑ a, v a * x k a := by
      intro i hi
      have := (mul_eq_zero.1 (h i)).resolve_left hi.ne'
      exact sub_eq_zero.1 (pow_eq_zero_iff two_ne_zero |>.1 this)
    rw [key i hi, key j hj]
  · intro h i
    rcases (h0 i).lt_or_eq with hi | hi
    · have : ∑ k, w k * ∑ a, v a * x k a = ∑ a, v a * x i a := by
        have : ∀ k, w k * ∑ a, v a * x k a = w k * ∑ a, v a * x i a := by
          intro k
          rcases (h0 k).lt_or_eq with hk | hk
          · rw [h k i hk hi]
          · rw [← hk]; simp
        simp only [this, ← sum_mul, h1, one_mul]
      rw [this]; simp
    · rw [← hi]; simp

/-- **C13, over the reals:** positive semidefinite in the sense of the library, so no eigenvalue is
negative and the warning at distributions.py 396 is only ever a rounding artefact. -/
theorem C13_cov_posSemidef (w : Fin n → ℝ) (x : Fin n → Fin d → ℝ) (h0 : ∀ i, 0 ≤ w i)
    (h1 : ∑ i, w i = 1) : (pcov w x).PosSemidef := by
  obtain ⟨hs, hp⟩ := C13_cov_psd w x h0 h1
  refine Matrix.PosSemidef.of_dotProduct_mulVec_nonneg ?_ ?_
  · ext a b; simp [Matrix.conjTranspose_apply, hs a b]
  · intro v
    have := hp v
    simp only [star_trivial, dotProduct, Matrix.mulVec, mul_sum]
    simpa [mul_assoc] using this

/-- Case for C13. -/
example : (∑ i, (![1/4, 1/4, 1/2] : Fin 3 → ℚ) i = 1) ∧
    pcov ![1/4, 1/4, 1/2] ![![0, 1], ![2, 1], ![1, 1]] 0 0 = (1/2 : ℚ) ∧
    pcov ![1/4, 1/4, 1/2] ![![0, 1], ![2, 1], ![1, 1]] 1 1 = (0 : ℚ) := by
  refine ⟨?_, ?_, ?_⟩ <;> decide +kernel

/-! ## C16 -/

/-- **C16.**  For non-negative weights, a sort by descending weight (with any tie-breaking) and
`0 ≤ level < total weight`, the region is described by index lists `I` (inside) and `J` (outside)
which together list every particle once; the inside weighs more than the level; no outside particle
is heavier than an inside one; and without its last, lightest particle the inside weighs at most the
level. -/
theorem C16_credible_region {α : Type*} (w : List K) (mps : List α) (hlen : mps.length = w.length)
    (hw : ∀ x ∈ w, 0 ≤ x) (idSort : List Nat) (hperm : idSort.Perm (List.range w.length))
    (hsort : (idSort.filterMap fun i => w[i]?).Pairwise (· ≥ ·)) (level : K) (hl0 : 0 ≤ level)
    (hl1 : level < w.sum) :
    ∃ (I J : List Nat) (inside outside : List α),
      credRegion w mps idSort level = .ok (inside, outside) ∧
      (I ++ J).Perm (List.range w.length) ∧
      inside.map some = I.map (fun i => mps[i]?) ∧ outside.map some = J.map (fun i => mps[i]?) ∧
      level < (I.map fun i => w.getD i 0).sum ∧
      (∀ i ∈ I, ∀ j ∈ J, w.getD j 0 ≤ w.getD i 0) ∧
      ∃ I' last, I = I' ++ [last] ∧ (∀ i ∈ I, w.getD last 0 ≤ w.getD i 0) ∧
        (I'.map fun i => w.getD i 0).sum ≤ level := by
  have hin : ∀ i ∈ idSort, i < w.length := fun i hi => by simpa using hperm.mem_iff.1 hi
  have hws : idSort.filterMap (fun i => w[i]?) = idSort.map fun i => w.getD i 0 := by
    rw [← List.filterMap_eq_map]
    refine List.filterMap_congr fun i hi => ?_
    simp [hin i hi]
  have hmp : ∀ L : List Nat, (∀ i ∈ L, i < w.length) →
      (L.filterMap fun i => mps[i]?).map some = L.map fun i => mps[i]? := by
    intro L hL
    induction L with
    | nil => rfl
    | cons i L ih =>
      have hi : i < mps.length := by rw [hlen]; exact hL i (by simp)
      have := ih fun j hj => hL j (by simp [hj])
      simp [hi, this]
  have hlen2 : (idSort.filterMap fun i => mps[i]?).length = idSort.length := by
    have := congrArg List.length (hmp idSort hin)
    simpa using this
  set ws := idSort.map fun i => w.getD i 0 with hwsdef
  have hwslen : ws.length = idSort.length := by simp [hwsdef]
  have hws0 : ∀ x ∈ ws, 0 ≤ x := by
    intro x hx
    obtain ⟨i, hi, rfl⟩ := List.mem_map.1 hx
    have := hin i hi
    apply hw
    rw [getD_lt _ _ this]; exact List.getElem_mem this
  have hsumws : ws.sum = w.sum := by
    have h1 : ws.Perm ((List.range w.length).map fun i => w.getD i 0) := hperm.map _
    rw [h1.sum_eq, range_getD]
  obtain ⟨k, hk, hmask, hle, hgt⟩ := mask_shape 0 ws level hws0 hl0
  have hk' : k < ws.length := by
    rcases lt_or_eq_of_le hk with h | h
    · exact h
    · exfalso
      rw [h, List.take_length, hsumws] at hle
      linarith
  have hgt' := hgt hk'
  rw [zero_add] at hgt' hle
  have hcm : credMask ws level =
      .ok (List.replicate (k + 1) true ++ List.replicate (ws.length - (k + 1)) false) := by
    have hcount : (List.replicate k true ++ List.replicate (ws.length - k) false).count true = k := by
      simp [List.count_replicate]
    unfold credMask
    rw [cumsum_eq]
    simp only [hmask, hcount]
    rw [if_pos (by simp; omega)]
    congr 1
    obtain ⟨m, hm⟩ : ∃ m, ws.length - k = m + 1 := ⟨ws.length - k - 1, by omega⟩
    have hm' : ws.length - (k + 1) = m := by omega
    rw [hm, hm', List.set_append, if_neg (by simp), List.length_replicate, Nat.sub_self,
      List.replicate_succ, List.set_cons_zero, List.replicate_succ', List.append_assoc]
    rfl
  have hkI : k < idSort.length := by omega
  have hIJ : idSort.take (k + 1) ++ idSort.drop (k + 1) = idSort := List.take_append_drop _ _
  have hdesc : ws.Pairwise (· ≥ ·) := by rw [← hws]; exact hsort
  have hpair : idSort.Pairwise fun i j => w.getD j 0 ≤ w.getD i 0 := by
    rw [hwsdef, List.pairwise_map] at hdesc; exact hdesc
  refine ⟨idSort.take (k + 1), idSort.drop (k + 1),
    (idSort.filterMap fun i => mps[i]?).take (k + 1),
    (idSort.filterMap fun i => mps[i]?).drop (k + 1), ?_, ?_, ?_, ?_, ?_, ?_, ?_⟩
  · unfold credRegion
    rw [hws, hcm]
    dsimp only
    rw [hwslen, ← hlen2, select_shape _ _ (by omega)]
    rw [List.map_append, List.map_replicate, List.map_replicate]
    simp only [Bool.not_true, Bool.not_false]
    rw [select_shape' _ _ (by omega)]
  · rw [hIJ]; exact hperm
  · rw [List.map_take, hmp idSort hin, ← List.map_take]
  · rw [List.map_drop, hmp idSort hin, ← List.map_drop]
  · rw [List.map_take]; exact hgt'
  · have := hpair
    rw [← hIJ, List.pairwise_append] at this
    exact this.2.2
  · refine ⟨idSort.take k, idSort[k], by rw [List.take_succ_eq_append_getElem hkI], ?_, ?_⟩
    · intro i hi
      rw [List.take_succ_eq_append_getElem hkI, List.mem_append] at hi
      rcases hi with hi | hi
      · have := hpair
        have h2 : idSort = idSort.take k ++ idSort.drop k := (List.take_append_drop _ _).symm
        rw [h2, List.pairwise_append] at this
        exact this.2.2 i hi _ (by rw [List.drop_eq_getElem_cons hkI]; exact List.mem_cons_self)
      · simp at hi; rw [hi]
    · rw [List.map_take]; exact hle

/-- **C16, level too high.**  With level at least the total weight the code raises `IndexError`. -/
theorem C16_level_too_high {α : Type*} (w : List K) (mps : List α)
    (hw : ∀ x ∈ w, 0 ≤ x) (idSort : List Nat) (hperm : idSort.Perm (List.range w.length))
    (level : K) (hl1 : w.sum ≤ level) :
    credRegion w mps idSort level = .error .indexError := by
  have hin : ∀ i ∈ idSort, i < w.length := fun i hi => by simpa using hperm.mem_iff.1 hi
  have hws : idSort.filterMap (fun i => w[i]?) = idSort.map fun i => w.getD i 0 := by
    rw [← List.filterMap_eq_map]
    refine List.filterMap_congr fun i hi => ?_
    simp [hin i hi]
  set ws := idSort.map fun i => w.getD i 0 with hwsdef
  have hws0 : ∀ x ∈ ws, 0 ≤ x := by
    intro x hx
    obtain ⟨i, hi, rfl⟩ := List.mem_map.1 hx
    have := hin i hi
    apply hw
    rw [getD_lt _ _ this]; exact List.getElem_mem this
  have hsumws : ws.sum = w.sum := by
    have h1 : ws.Perm ((List.range w.length).map fun i => w.getD i 0) := hperm.map _
    rw [h1.sum_eq, range_getD]
  have h0 : 0 ≤ level := (List.sum_nonneg hw).trans hl1
  obtain ⟨k, hk, hmask, hle, hgt⟩ := mask_shape 0 ws level hws0 h0
  have hkeq : k = ws.length := by
    by_contra hne
    have h1 := hgt (lt_of_le_of_ne hk hne)
    have h2 := take_sum_mono ws hws0 (i := k + 1) (j := ws.length) (by omega)
    rw [List.take_length, hsumws] at h2
    linarith
  unfold credRegion
  rw [hws]
  have : credMask ws level = .error .indexError := by
    unfold credMask
    rw [cumsum_eq]
    simp only [hmask, hkeq]
    simp
  rw [this]

/-- Case for C16. -/
example : credRegion ([1/5, 1/2, 3/10] : List ℚ) ["a", "b", "c"] [1, 2, 0] (3/5) =
    .ok (["b", "c"], ["a"]) := by decide +kernel

/-! ## C17 -/

/-- **C17.**  A variate `u` with `0 ≤ u < total weight` selects particle `i` exactly when it lies
between the cumulative weights before and after `i`. -/
theorem C17_inverse_cdf (w : List K) (hw : ∀ x ∈ w, 0 ≤ x) (u : K) (hu0 : 0 ≤ u)
    (hu1 : u < w.sum) (i : Nat) (hi : i < w.length) :
    sampleIdx w u = i ↔ (w.take i).sum ≤ u ∧ u < (w.take i).sum + w[i] := by
  have hshape := takeWhile_shape 0 w u hu0
  unfold sampleIdx searchsortedRight
  rw [cumsum_eq]
  set k := ((cumsumFrom 0 w).takeWhile fun x => decide (x ≤ u)).length with hk
  obtain ⟨h1, h2, h3⟩ := hshape
  rw [zero_add] at h2
  have hlt : k < w.length := by
    rcases lt_or_eq_of_le h1 with h | h
    · exact h
    · exfalso; rw [h, List.take_length] at h2; linarith
  have h3 := h3 hlt
  rw [zero_add] at h3
  have hmin : min k (w.length - 1) = k := by omega
  have hsucc : (w.take i).sum + w[i] = (w.take (i + 1)).sum := by
    rw [List.sum_take_succ w i hi]
  rw [hmin, hsucc]
  constructor
  · rintro rfl; exact ⟨h2, h3⟩
  · rintro ⟨h4, h5⟩
    rcases lt_trichotomy k i with h | h | h
    · have := take_sum_mono w hw (i := k + 1) (j := i) (by omega)
      linarith
    · exact h
    · have := take_sum_mono w hw (i := i + 1) (j := k) (by omega)
      linarith

/-- **C17.**  Every draw is an existing particle, whatever the variates are, as long as there is at
least one particle; there are as many draws as variates, and each is the particle at the selected
index; with no particle a draw raises `IndexError`. -/
theorem C17_draws_are_particles {α : Type*} (w : List K) (locs : List α)
    (hlen : locs.length = w.length) (us : List K) :
    (w ≠ [] → ∃ xs, particleSample w locs us = .ok xs ∧
      List.Forall₂ (fun u x => locs[sampleIdx w u]? = some x ∧ x ∈ locs) us xs) ∧
    (w = [] → us ≠ [] → particleSample w locs us = .error .indexError) := by
  constructor
  · intro hne
    have hpos : 0 < w.length := List.length_pos_iff.2 hne
    induction us with
    | nil => exact ⟨[], rfl, .nil⟩
    | cons u us ih =>
      obtain ⟨xs, h1, h2⟩ := ih
      have hlt : sampleIdx w u < locs.length := by unfold sampleIdx; omega
      refine ⟨locs[sampleIdx w u] :: xs, ?_, .cons ⟨by simp [hlt], List.getElem_mem _⟩ h2⟩
      unfold particleSample at h1 ⊢
      rw [List.mapM_cons, h1]
      simp [hlt]; rfl
  · rintro rfl hus
    have : locs = [] := List.length_eq_zero_iff.1 hlen
    subst this
    cases us with
    | nil => exact absurd rfl hus
    | cons u us => simp [particleSample, List.mapM_cons]; rfl

/-- **C17, zero weights.**  A particle of weight zero is not drawn by a variate in
`[0, total weight)`. -/
theorem C17_zero_weight_never_drawn (w : List K) (hw : ∀ x ∈ w, 0 ≤ x) (u : K) (hu0 : 0 ≤ u)
    (hu1 : u < w.sum) (i : Nat) (hi : i < w.length) (h0 : w[i] = 0) : sampleIdx w u ≠ i := by
  intro h
  have := (C17_inverse_cdf w hw u hu0 hu1 i hi).1 h
  rw [h0] at this; linarith [this.1, this.2]

/-- Case for C17: the boundary variate 1/4 selects the third particle, the second has no weight. -/
example : sampleIdx ([1/4, 0, 3/4] : List ℚ) (1/4) = 2 ∧ sampleIdx ([1/4, 0, 3/4] : List ℚ) (1/8) = 0 ∧
    sampleIdx ([1/4, 0, 3/4] : List ℚ) 1 = 2 := by
  refine ⟨?_, ?_, ?_⟩ <;> decide +kernel

/-! ## C52 -/

/-- **C52.**  The entropy estimate is between 0 and the logarithm of the number of particles with
positive weight. -/
theorem C52_entropy_bounds (w : List ℝ) (h : IsProb w) :
    0 ≤ entropy w ∧ entropy w ≤ Real.log ((w.filter fun x => decide (0 < x)).length) := by
  obtain ⟨h0, h1⟩ := h
  unfold entropy
  set nz := w.filter fun x => decide (0 < x) with hnz
  have hpos : ∀ x ∈ nz, 0 < x := by
    intro x hx; rw [hnz, List.mem_filter] at hx; simpa using hx.2
  have hsum : nz.sum = 1 := by
    have : ∀ l : List ℝ, (∀ x ∈ l, 0 ≤ x) → (l.filter fun x => decide (0 < x)).sum = l.sum := by
      intro l hl
      induction l with
      | nil => rfl
      | cons a l ih =>
        have := ih fun x hx => hl x (by simp [hx])
        rcases (hl a (by simp)).lt_or_eq with ha | ha
        · simp [ha, this]
        · simp [← ha, this]
    rw [hnz, this w h0, h1]
  have hle1 : ∀ x ∈ nz, x ≤ 1 := fun x hx => hsum ▸ list_le_sum (fun y hy => (hpos y hy).le) x hx
  have hne : nz ≠ [] := by intro hc; rw [hc] at hsum; simp at hsum
  have hN : (0 : ℝ) < nz.length := by exact_mod_cast List.length_pos_iff.2 hne
  constructor
  · rw [neg_nonneg]
    have hnn : ∀ y ∈ nz.map (fun x => -(Real.log x * x)), 0 ≤ y := by
      intro y hy; obtain ⟨x, hx, rfl⟩ := List.mem_map.1 hy
      have := Real.log_nonpos (hpos x hx).le (hle1 x hx)
      nlinarith [hpos x hx]
    have h2 : (nz.map fun x => -(Real.log x * x)).sum = -((nz.map fun x => Real.log x * x).sum) := by
      have : ∀ l : List ℝ, (l.map fun x => -(Real.log x * x)).sum =
          -((l.map fun x => Real.log x * x).sum) := by
        intro l
        induction l with
        | nil => simp
        | cons a l ih => simp only [List.map_cons, List.sum_cons, ih]; ring
      exact this nz
    have := List.sum_nonneg hnn
    linarith
  · have key : ∀ l : List ℝ, (∀ x ∈ l, 0 < x) →
        -((l.map fun x => Real.log x * x).sum) - Real.log nz.length * l.sum ≤
          l.length * (1 / nz.length) - l.sum := by
      intro l hl
      induction l with
      | nil => simp
      | cons a l ih =>
        have := ih fun x hx => hl x (by simp [hx])
        have ha := hl a (by simp)
        have hlog := Real.log_le_sub_one_of_pos (show 0 < 1 / ((nz.length : ℝ) * a) by positivity)
        rw [one_div, Real.log_inv, Real.log_mul hN.ne' ha.ne'] at hlog
        have h3 : a * (-(Real.log nz.length + Real.log a)) ≤ a * (((nz.length : ℝ) * a)⁻¹ - 1) :=
          mul_le_mul_of_nonneg_left hlog ha.le
        have h4 : a * (((nz.length : ℝ) * a)⁻¹ - 1) = 1 / nz.length - a := by field_simp
        rw [h4] at h3
        simp only [List.map_cons, List.sum_cons, List.length_cons, Nat.cast_add, Nat.cast_one]
        linarith
    have := key nz hpos
    rw [hsum] at this
    have h5 : (nz.length : ℝ) * (1 / nz.length) = 1 := by field_simp
    rw [h5] at this
    linarith

/-- Case for C52: two equal weights and a zero one have entropy `log 2`. -/
example : IsProb ([1/2, 0, 1/2] : List ℝ) ∧ entropy [1/2, 0, 1/2] = Real.log 2 := by
  refine ⟨⟨by simp, by norm_num⟩, ?_⟩
  simp [entropy]
  ring

end QInfer
