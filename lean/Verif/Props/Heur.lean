import Verif.Model.Heur
import Verif.Props.Particle
import Verif.Props.SmcHistory
import Mathlib.Analysis.InnerProductSpace.PiL2
import Mathlib.Tactic.FieldSimp
import Mathlib.Tactic.Ring
import Mathlib.Tactic.NormNum
import Mathlib.Tactic.Positivity
import Mathlib.Tactic.FinCases

/-!
# C59-C63: distances and heuristics
-/

set_option linter.unusedSectionVars false

namespace QInfer

open scoped BigOperators

/-! ## C59: distances -/

section
variable {K : Type} [Field K] [LinearOrder K] [IsStrictOrderedRing K]

theorem modelDistance_cons (q a b : K) (Q as bs : List K) :
    modelDistance (q :: Q) (a :: as) (b :: bs) = |q * (a - b)| + modelDistance Q as bs := by
  simp [modelDistance]

/-- C59: the distance between parameter vectors is a pseudometric, for every scale vector (also with
negative entries). -/
theorem C59_pseudometric (Q a b c : List K) (ha : a.length = Q.length) (hb : b.length = Q.length)
    (hc : c.length = Q.length) :
    0 ≤ modelDistance Q a b ∧ modelDistance Q a a = 0 ∧
      modelDistance Q a b = modelDistance Q b a ∧
      modelDistance Q a c ≤ modelDistance Q a b + modelDistance Q b c := by
  induction Q generalizing a b c with
  | nil => simp [modelDistance]
  | cons q Q ih =>
    match a, b, c, ha, hb, hc with
    | a :: as, b :: bs, c :: cs, ha, hb, hc =>
      simp only [List.length_cons, add_left_inj] at ha hb hc
      obtain ⟨h1, h2, h3, h4⟩ := ih as bs cs ha hb hc
      simp only [modelDistance_cons]
      refine ⟨by positivity, by simp [h2], ?_, ?_⟩
      · rw [h3, ← abs_neg, ← mul_neg, neg_sub]
      · have : q * (a - c) = q * (a - b) + q * (b - c) := by ring
        rw [this]
        have := abs_add_le (q * (a - b)) (q * (b - c))
        linarith

/-- C59: two vectors have distance zero exactly if they agree in every parameter of nonzero scale. -/
theorem C59_zero_iff (Q a b : List K) (ha : a.length = Q.length) (hb : b.length = Q.length) :
    modelDistance Q a b = 0 ↔ ∀ j (_ : j < Q.length), Q[j] = 0 ∨ a[j] = b[j] := by
  induction Q generalizing a b with
  | nil => simp [modelDistance]
  | cons q Q ih =>
    match a, b, ha, hb with
    | a :: as, b :: bs, ha, hb =>
      simp only [List.length_cons, add_left_inj] at ha hb
      have h0 := (C59_pseudometric Q as bs as ha hb ha).1
      rw [modelDistance_cons, add_eq_zero_iff_of_nonneg (abs_nonneg _) h0, ih as bs ha hb,
        abs_eq_zero, mul_eq_zero, sub_eq_zero]
      constructor
      · rintro ⟨h1, h2⟩ j hj
        cases j with
        | zero => exact h1
        | succ j => exact h2 j (by simpa using hj)
      · intro h
        exact ⟨h 0 (by simp), fun j hj => h (j + 1) (by simpa using hj)⟩

/-- C59: the distance is the sum of the scaled absolute differences. -/
theorem C59_sum {d : Nat} (Q a b : Fin d → K) :
    modelDistance (List.ofFn Q) (List.ofFn a) (List.ofFn b) = ∑ j, |Q j| * |a j - b j| := by
  induction d with
  | zero => simp [modelDistance]
  | succ d ih =>
    rw [List.ofFn_succ, List.ofFn_succ, List.ofFn_succ, modelDistance_cons, ih, Fin.sum_univ_succ,
      abs_mul]

end

/-- C59: `rescaled_distance_mtx` has entries `√(∑ Q_j (p_j - q_j)²)`. -/
theorem C59_rescaled {d : Nat} (Q : Fin d → ℝ) (hQ : ∀ j, 0 ≤ Q j) (p q : Fin d → ℝ) :
    rescaledDistance Q p q = some (Real.sqrt (∑ j, Q j * (p j - q j) ^ 2)) := by
  unfold rescaledDistance
  rw [if_neg (by push Not; exact hQ)]
  congr 3
  funext j
  rw [mul_pow, Real.sq_sqrt (hQ j)]

/-- C59: these entries obey the triangle inequality, are symmetric, and vanish exactly for vectors
that agree where `Q` is not zero. -/
theorem C59_rescaled_metric {d : Nat} (Q : Fin d → ℝ) (hQ : ∀ j, 0 ≤ Q j) (p q r : Fin d → ℝ) :
    ∃ a b c, rescaledDistance Q p q = some a ∧ rescaledDistance Q q r = some b ∧
      rescaledDistance Q p r = some c ∧ rescaledDistance Q q p = some a ∧ 0 ≤ a ∧ c ≤ a + b ∧
      (a = 0 ↔ ∀ j, Q j = 0 ∨ p j = q j) := by
  have hn : ¬ ∃ j, Q j < 0 := by push Not; exact hQ
  have key : ∀ p q : Fin d → ℝ, Real.sqrt (∑ j, (Real.sqrt (Q j) * (p j - q j)) ^ 2) =
      dist (WithLp.toLp 2 fun j => Real.sqrt (Q j) * p j : EuclideanSpace ℝ (Fin d))
        (WithLp.toLp 2 fun j => Real.sqrt (Q j) * q j) := by
    intro p q
    rw [EuclideanSpace.dist_eq]
    congr 1
    refine Finset.sum_congr rfl fun j _ => ?_
    rw [Real.dist_eq, sq_abs, mul_sub]
  refine ⟨_, _, _, if_neg hn, if_neg hn, if_neg hn, ?_, Real.sqrt_nonneg _, ?_, ?_⟩
  · rw [rescaledDistance, if_neg hn, key, key, dist_comm]
  · rw [key, key, key]; exact dist_triangle _ _ _
  · rw [Real.sqrt_eq_zero (Finset.sum_nonneg fun j _ => sq_nonneg _),
      Finset.sum_eq_zero_iff_of_nonneg fun j _ => sq_nonneg _]
    constructor
    · intro h j
      have := h j (Finset.mem_univ j)
      rw [sq_eq_zero_iff, mul_eq_zero, Real.sqrt_eq_zero (hQ j), sub_eq_zero] at this
      exact this
    · intro h j _
      rw [sq_eq_zero_iff, mul_eq_zero, Real.sqrt_eq_zero (hQ j), sub_eq_zero]
      exact h j

/-- C59: `weighted_pairwise_distances` leaves the distances of uniformly weighted points as they are,
keeps symmetry and zeros, and brings heavier points closer. -/
theorem C59_weighted {n : Nat} (base : Fin n → Fin n → ℝ) (w v : Fin n → ℝ) (pow : ℝ)
    (hw : ∀ i, 0 < w i) (i j : Fin n) :
    weightedDistance base (fun _ => 1 / (n : ℝ)) pow i j = base i j ∧
    (base i j = base j i → weightedDistance base w pow i j = weightedDistance base w pow j i) ∧
    (weightedDistance base w pow i j = 0 ↔ base i j = 0) ∧
    ((∀ k, w k ≤ v k) → 0 ≤ pow → 0 ≤ base i j →
      weightedDistance base v pow i j ≤ weightedDistance base w pow i j) := by
  have hn : (0 : ℝ) < n := by exact_mod_cast i.pos
  have hp : 0 < w i * w j * (n : ℝ) ^ 2 := by have := hw i; have := hw j; positivity
  refine ⟨?_, ?_, ?_, ?_⟩
  · unfold weightedDistance
    have : 1 / (n : ℝ) * (1 / n) * (n : ℝ) ^ 2 = 1 := by field_simp
    rw [this, Real.one_rpow, div_one]
  · intro h
    unfold weightedDistance
    rw [h, mul_comm (w i)]
  · unfold weightedDistance
    rw [div_eq_zero_iff]
    have := (Real.rpow_pos_of_pos hp pow).ne'
    tauto
  · intro hv h0 hb
    unfold weightedDistance
    refine div_le_div_of_nonneg_left hb (Real.rpow_pos_of_pos hp pow) ?_
    refine Real.rpow_le_rpow hp.le ?_ h0
    have h1 := hv i
    have h2 := hv j
    have h3 := hw i
    have h4 := hw j
    have h5 : 0 ≤ v i := h3.le.trans h1
    gcongr

example : modelDistance ([1, -2] : List ℚ) [3, 1] [1, 0] = 4 := by decide +kernel

/-! ## Records -/

section
variable {K V F : Type} [Field K] [LinearOrder K] [IsStrictOrderedRing K] [DecidableEq F]

/-- The record after a list of assignments: the last assignment to a field counts. -/
def Spec.assigned (ps : List (F × V)) (r : F → V) (g : F) : V :=
  match ps with
  | [] => r g
  | p :: ps => Spec.assigned ps (fun g => if g = p.1 then p.2 else r g) g

theorem Spec.assigned_append (ps qs : List (F × V)) (r : F → V) :
    Spec.assigned (ps ++ qs) r = Spec.assigned qs (Spec.assigned ps r) := by
  induction ps generalizing r with
  | nil => rfl
  | cons p ps ih => simp only [List.cons_append]; funext g; simp only [Spec.assigned]; rw [ih]

/-- A field not assigned keeps its value. -/
theorem Spec.assigned_of_not_mem (ps : List (F × V)) (r : F → V) (g : F)
    (h : g ∉ ps.map Prod.fst) : Spec.assigned ps r g = r g := by
  induction ps generalizing r with
  | nil => rfl
  | cons p ps ih =>
    simp only [List.map_cons, List.mem_cons, not_or] at h
    rw [Spec.assigned, ih _ h.2, if_neg h.1]

theorem setFields_eq (fields : List F) (ps : List (F × V)) (r : F → V) :
    (if ∀ p ∈ ps, p.1 ∈ fields then setFields fields ps r = .ok (Spec.assigned ps r)
      else setFields fields ps r = .error .valueError) := by
  induction ps generalizing r with
  | nil => simp [setFields]; rfl
  | cons p ps ih =>
    have ih' := ih (fun g => if g = p.1 then p.2 else r g)
    unfold setFields setField
    by_cases hp : p.1 ∈ fields
    · simp only [hp, if_true, List.mem_cons, forall_eq_or_imp, true_and]
      exact ih'
    · simp only [hp, if_false, List.mem_cons, forall_eq_or_imp, false_and]
      rfl

theorem setFields_ok (fields : List F) (ps : List (F × V)) (r : F → V)
    (h : ∀ p ∈ ps, p.1 ∈ fields) : setFields fields ps r = .ok (Spec.assigned ps r) := by
  have := setFields_eq fields ps r
  rwa [if_pos h] at this

theorem setFields_err (fields : List F) (ps : List (F × V)) (r : F → V)
    (h : ¬ ∀ p ∈ ps, p.1 ∈ fields) : setFields fields ps r = .error .valueError := by
  have := setFields_eq fields ps r
  rwa [if_neg h] at this

/-! ## C60: the particle guess heuristic -/

/-- `x` is the particle that the variate `u` selects from the cloud by inverse transform. -/
def Spec.Selects (w : List K) (locs : List (List K)) (u : K) (x : List K) : Prop :=
  ∃ i, ∃ _ : i < w.length, locs[i]? = some x ∧ (w.take i).sum ≤ u ∧ u < (w.take i).sum + w[i]

theorem particleSample_selects (w : List K) (locs : List (List K)) (hw : ∀ x ∈ w, 0 ≤ x)
    (hs : w.sum = 1) (u v : K) (hu : 0 ≤ u ∧ u < 1) (hv : 0 ≤ v ∧ v < 1) (x y : List K)
    (hx : Spec.Selects w locs u x) (hy : Spec.Selects w locs v y) :
    particleSample w locs [u, v] = .ok [x, y] := by
  obtain ⟨i, hi, h1, h2, h3⟩ := hx
  obtain ⟨j, hj, h4, h5, h6⟩ := hy
  have e1 := (C17_inverse_cdf w hw u hu.1 (by rw [hs]; exact hu.2) i hi).2 ⟨h2, h3⟩
  have e2 := (C17_inverse_cdf w hw v hv.1 (by rw [hs]; exact hv.2) j hj).2 ⟨h5, h6⟩
  simp only [particleSample, List.mapM_cons, List.mapM_nil, e1, e2, h1, h4]
  rfl

/-- Every variate selects a particle. -/
theorem exists_selects (w : List K) (locs : List (List K)) (hlen : locs.length = w.length)
    (hw : ∀ x ∈ w, 0 ≤ x) (hs : w.sum = 1) (u : K) (hu : 0 ≤ u ∧ u < 1) :
    ∃ x, x ∈ locs ∧ Spec.Selects w locs u x := by
  have hne : w ≠ [] := by rintro rfl; simp at hs
  have hpos := List.length_pos_iff.2 hne
  have hi : sampleIdx w u < w.length := by unfold sampleIdx; omega
  have := (C17_inverse_cdf w hw u hu.1 (by rw [hs]; exact hu.2) _ hi).1 rfl
  exact ⟨locs[sampleIdx w u], List.getElem_mem _, _, hi, List.getElem?_eq_getElem _, this⟩

/-- The record PGH returns for the pair `x`, `xp`: `other_fields` win over the two computed
fields. -/
def Spec.pghRecord (p : Pgh K V F) (dist : K) (x : List K) (junk : F → V) : F → V :=
  Spec.assigned ((p.invField, p.invFunc x) :: (p.tField, p.tFunc (1 / dist)) :: p.other) junk

theorem pghRecord_eq (p : Pgh K V F) (Q : List K) (junk : F → V) (x xp : List K) :
    pghRecord p Q junk x xp = setFields p.fields
      ((p.invField, p.invFunc x) :: (p.tField, p.tFunc (1 / modelDistance Q x xp)) :: p.other)
      junk := by
  simp only [pghRecord, setFields]

theorem pghLoop_zeros (Q w : List K) (locs : List (List K)) (us : Nat → K × K)
    (x xp : Nat → List K)
    (hd : ∀ k, particleSample w locs [(us k).1, (us k).2] = .ok [x k, xp k]) (n k : Nat)
    (last : Option (List K × List K))
    (h0 : ∀ l, k ≤ l → l < k + n → ¬ 0 < modelDistance Q (x l) (xp l)) :
    pghLoop Q w locs us n k last =
      .ok (if n = 0 then last else some (x (k + n - 1), xp (k + n - 1))) := by
  induction n generalizing k last with
  | zero => rfl
  | succ n ih =>
    rw [pghLoop, hd k]
    dsimp only
    rw [if_neg (h0 k le_rfl (by omega)), ih (k + 1) _ fun l h1 h2 => h0 l (by omega) (by omega)]
    simp only [Nat.add_eq_zero_iff, one_ne_zero, and_false, if_false]
    by_cases hn : n = 0
    · subst hn; simp
    · rw [if_neg hn]; congr 4 <;> omega

theorem pghLoop_found (Q w : List K) (locs : List (List K)) (us : Nat → K × K)
    (x xp : Nat → List K)
    (hd : ∀ k, particleSample w locs [(us k).1, (us k).2] = .ok [x k, xp k]) (n k j : Nat)
    (last : Option (List K × List K)) (hj : j < n)
    (h0 : ∀ l, k ≤ l → l < k + j → ¬ 0 < modelDistance Q (x l) (xp l))
    (h1 : 0 < modelDistance Q (x (k + j)) (xp (k + j))) :
    pghLoop Q w locs us n k last = .ok (some (x (k + j), xp (k + j))) := by
  induction n generalizing k j last with
  | zero => omega
  | succ n ih =>
    rw [pghLoop, hd k]
    dsimp only
    cases j with
    | zero => rw [if_pos (by simpa using h1)]; simp
    | succ j =>
      rw [if_neg (h0 k le_rfl (by omega)), ih (k + 1) j _ (by omega)
        (fun l a b => h0 l (by omega) (by omega)) (by convert h1 using 3 <;> omega)]
      congr 4 <;> omega

/-- C60: PGH uses the first pair of drawn particles with nonzero distance.  The inversion field is
made from the first particle, the time field from the inverse distance, and `other_fields` are written
last.  A name that is no field of the experiment record raises `ValueError`. -/
theorem C60_first_distinct_pair (p : Pgh K V F) (Q w : List K) (locs : List (List K))
    (hw : ∀ x ∈ w, 0 ≤ x) (hs : w.sum = 1) (us : Nat → K × K)
    (hu : ∀ k, (0 ≤ (us k).1 ∧ (us k).1 < 1) ∧ 0 ≤ (us k).2 ∧ (us k).2 < 1) (x xp : Nat → List K)
    (hx : ∀ k, Spec.Selects w locs (us k).1 (x k)) (hxp : ∀ k, Spec.Selects w locs (us k).2 (xp k))
    (hQ : ∀ k, (x k).length = Q.length ∧ (xp k).length = Q.length) (junk : F → V) (k : Nat)
    (hk : (k : Int) < p.maxiters) (h0 : ∀ l < k, modelDistance Q (x l) (xp l) = 0)
    (h1 : modelDistance Q (x k) (xp k) ≠ 0) :
    (p.invField ∈ p.fields ∧ p.tField ∈ p.fields ∧ (∀ q ∈ p.other, q.1 ∈ p.fields) →
      pghCall p Q w locs us junk =
        .ok (Spec.pghRecord p (modelDistance Q (x k) (xp k)) (x k) junk)) ∧
    (¬ (p.invField ∈ p.fields ∧ p.tField ∈ p.fields ∧ ∀ q ∈ p.other, q.1 ∈ p.fields) →
      pghCall p Q w locs us junk = .error .valueError) := by
  have hd : ∀ k, particleSample w locs [(us k).1, (us k).2] = .ok [x k, xp k] := fun k =>
    particleSample_selects w locs hw hs _ _ (hu k).1 (hu k).2 _ _ (hx k) (hxp k)
  have hpos : 0 < modelDistance Q (x k) (xp k) :=
    lt_of_le_of_ne (C59_pseudometric Q _ _ _ (hQ k).1 (hQ k).2 (hQ k).1).1 h1.symm
  have hl := pghLoop_found Q w locs us x xp hd p.maxiters.toNat 0 k none (by omega)
    (fun l _ h => by rw [h0 l (by omega)]; exact lt_irrefl _) (by simpa using hpos)
  rw [Nat.zero_add] at hl
  unfold pghCall
  rw [hl]
  dsimp only
  rw [if_neg h1, pghRecord_eq]
  constructor
  · rintro ⟨a, b, c⟩
    rw [setFields_ok]
    · rfl
    · intro q hq
      simp only [List.mem_cons] at hq
      rcases hq with rfl | rfl | hq
      · exact a
      · exact b
      · exact c q hq
  · intro hn
    apply setFields_err
    intro hall
    exact hn ⟨hall _ List.mem_cons_self, hall _ (List.mem_cons_of_mem _ List.mem_cons_self),
      fun q hq => hall q (List.mem_cons_of_mem _ (List.mem_cons_of_mem _ hq))⟩

/-- C60: if no attempt finds two particles at nonzero distance, a `RuntimeError` is raised; without
attempts the error is `UnboundLocalError`. -/
theorem C60_gives_up (p : Pgh K V F) (Q w : List K) (locs : List (List K))
    (hw : ∀ x ∈ w, 0 ≤ x) (hs : w.sum = 1) (us : Nat → K × K)
    (hu : ∀ k, (0 ≤ (us k).1 ∧ (us k).1 < 1) ∧ 0 ≤ (us k).2 ∧ (us k).2 < 1) (x xp : Nat → List K)
    (hx : ∀ k, Spec.Selects w locs (us k).1 (x k)) (hxp : ∀ k, Spec.Selects w locs (us k).2 (xp k))
    (junk : F → V) (h0 : ∀ l : Nat, (l : Int) < p.maxiters → modelDistance Q (x l) (xp l) = 0) :
    (0 < p.maxiters → pghCall p Q w locs us junk = .error .runtimeError) ∧
    (p.maxiters ≤ 0 → pghCall p Q w locs us junk = .error .unboundLocalError) := by
  have hd : ∀ k, particleSample w locs [(us k).1, (us k).2] = .ok [x k, xp k] := fun k =>
    particleSample_selects w locs hw hs _ _ (hu k).1 (hu k).2 _ _ (hx k) (hxp k)
  have hl := pghLoop_zeros Q w locs us x xp hd p.maxiters.toNat 0 none
    (fun l _ h => by rw [h0 l (by omega)]; exact lt_irrefl _)
  unfold pghCall
  rw [hl]
  constructor
  · intro hm
    rw [if_neg (by omega)]
    dsimp only
    rw [if_pos (h0 _ (by omega))]
  · intro hm
    rw [if_pos (by omega)]

/-- C60: on a cloud whose particles agree in every parameter of nonzero scale PGH always gives up,
whatever it draws. -/
theorem C60_collapsed_cloud (p : Pgh K V F) (Q w : List K) (locs : List (List K))
    (hlen : locs.length = w.length) (hw : ∀ x ∈ w, 0 ≤ x) (hs : w.sum = 1) (us : Nat → K × K)
    (hu : ∀ k, (0 ≤ (us k).1 ∧ (us k).1 < 1) ∧ 0 ≤ (us k).2 ∧ (us k).2 < 1) (junk : F → V)
    (hm : 0 < p.maxiters) (hQ : ∀ x ∈ locs, x.length = Q.length)
    (hsame : ∀ x ∈ locs, ∀ y ∈ locs, ∀ j : Nat, Q[j]? = some 0 ∨ x[j]? = y[j]?) :
    pghCall p Q w locs us junk = .error .runtimeError := by
  have h1 := fun k => exists_selects w locs hlen hw hs (us k).1 (hu k).1
  have h2 := fun k => exists_selects w locs hlen hw hs (us k).2 (hu k).2
  choose x hx using h1
  choose xp hxp using h2
  refine (C60_gives_up p Q w locs hw hs us hu x xp (fun k => (hx k).2) (fun k => (hxp k).2) junk
    fun l _ => ?_).1 hm
  have a := hQ _ (hx l).1
  have b := hQ _ (hxp l).1
  rw [C59_zero_iff Q _ _ a b]
  intro j hj
  rcases hsame _ (hx l).1 _ (hxp l).1 j with h | h
  · left; rw [List.getElem?_eq_getElem hj] at h; exact Option.some.inj h
  · right
    rw [List.getElem?_eq_getElem (by omega), List.getElem?_eq_getElem (by omega)] at h
    exact Option.some.inj h

/-- Case for C60: the first two attempts draw the same particle twice, the third gives particles 1
and 4, hence time 1/3; the field `"n"` comes from `other_fields`. -/
example :
    let p : Pgh ℚ ℚ String := ⟨["x_", "t", "n"], "x_", "t", fun x => x.sum, fun t => t, 10, [("n", 7)]⟩
    (match pghCall p [1] [1/2, 1/2] [[1], [4]]
        (fun k => if k < 2 then (3/4, 3/4) else (1/4, 3/4)) (fun _ => 0) with
      | .ok r => (r "x_", r "t", r "n")
      | .error _ => (0, 0, 0)) = (1, 1/3, 7) := by
  decide +kernel

/-! ## C61: exponentially sparse times -/

/-- Number of `update` calls in a history. -/
def Spec.nUpdates {O E : Type} (ops : List (Op O E)) : Nat :=
  ops.countP fun op => match op with
    | .update .. => true
    | _ => false

/-- C61: after any history of `update`, `resample` and `reset` calls with `n` updates in it (also
failed ones) the designed time is `A bⁿ`. -/
theorem C61_time {O E ω : Type} (cfg : SmcConfig K) (env : Env K O E ω) (ops : List (Op O E))
    (hb : ∀ op ∈ ops, ∀ os es i, op ≠ .batch os es i) (s : Smc K O ω) (hs : s.dataRecord = [])
    (h : ExpSparse K V F) (ofTime : K → V) (junk : F → V) (ht : h.tField = none) :
    expSparseCall h ofTime (run cfg env ops s).dataRecord.length junk =
      .ok (.scalar (h.scale * h.base ^ Spec.nUpdates ops)) := by
  have hl : (run cfg env ops s).dataRecord.length = Spec.nUpdates ops := by
    rw [C06_data_record_exact cfg env ops hb s, hs, List.nil_append]
    unfold Spec.nUpdates
    clear hs
    induction ops with
    | nil => rfl
    | cons op ops ih =>
      rw [List.flatMap_cons, List.length_append, ih fun x hx => hb x (by simp [hx]), List.countP_cons]
      cases op with
      | batch os es i => exact absurd rfl (hb _ (by simp) os es i)
      | update o e c => simp [Op.outcomes, Nat.add_comm]
      | resample => simp [Op.outcomes]
      | reset n o r => simp [Op.outcomes]
  rw [hl]
  unfold expSparseCall
  rw [ht]

/-- C61: with a time field, the record holds `other_fields` and the time, which wins over an entry of
the same name; unknown names raise `ValueError`, and leaving out `other_fields` raises
`AttributeError`. -/
theorem C61_record (h : ExpSparse K V F) (ofTime : K → V) (n : Nat) (junk : F → V) (f : F)
    (hf : h.tField = some f) :
    (h.other = none → expSparseCall h ofTime n junk = .error .attributeError) ∧
    (∀ other, h.other = some other → f ∈ h.fields → (∀ q ∈ other, q.1 ∈ h.fields) →
      ∃ r, expSparseCall h ofTime n junk = .ok (.record r) ∧
        r f = ofTime (h.scale * h.base ^ n) ∧ ∀ g, g ≠ f → r g = Spec.assigned other junk g) ∧
    (∀ other, h.other = some other → ¬ (f ∈ h.fields ∧ ∀ q ∈ other, q.1 ∈ h.fields) →
      expSparseCall h ofTime n junk = .error .valueError) := by
  unfold expSparseCall
  rw [hf]
  refine ⟨fun ho => by rw [ho], ?_, ?_⟩
  · intro other ho h1 h2
    rw [ho]
    dsimp only
    rw [setFields_ok _ _ _ h2]
    refine ⟨_, by simp only [setField, h1, if_true]; rfl, by simp, fun g hg => by simp [hg]⟩
  · intro other ho hn
    rw [ho]
    dsimp only
    by_cases h2 : ∀ q ∈ other, q.1 ∈ h.fields
    · rw [setFields_ok _ _ _ h2]
      have : f ∉ h.fields := fun h1 => hn ⟨h1, h2⟩
      simp only [setField, this, if_false]
      rfl
    · rw [setFields_err _ _ _ h2]; rfl

/-- Case for C61: times 1, 9/8, 81/64. -/
example : ([0, 1, 2].map fun n =>
    match expSparseCall (V := ℚ) (F := Unit) ⟨[], (1 : ℚ), 9/8, none, none⟩ id n (fun _ => 0) with
      | .ok (.scalar t) => t
      | _ => 0) = [1, 9/8, 81/64] := by decide +kernel

/-! ## C62: ensembles of heuristics -/

theorem cumsum_map_div (p : List K) (c : K) : (cumsum p).map (· / c) = cumsum (p.map (· / c)) := by
  unfold cumsum
  rw [List.map_tail]
  congr 1
  suffices ∀ a : K, (p.scanl (· + ·) a).map (· / c) = (p.map (· / c)).scanl (· + ·) (a / c) by
    rw [this, zero_div]
  induction p with
  | nil => intro a; simp
  | cons x p ih => intro a; simp [ih, add_div]

theorem sum_map_div_const (p : List K) (c : K) : (p.map (· / c)).sum = p.sum / c := by
  induction p with
  | nil => simp
  | cons x p ih => simp [ih, add_div]

/-- C62: with valid probabilities, member `i` answers exactly if the variate falls in the `i`-th of
consecutive intervals of lengths `pᵢ / ∑ p`. -/
theorem C62_chosen {R : Type} (atol : K) (ens : List (R × K)) (hne : ens ≠ [])
    (hp : ∀ q ∈ ens, 0 ≤ q.2) (hs : 0 < (ens.map Prod.snd).sum)
    (ha : |(ens.map Prod.snd).sum - 1| ≤ atol) (u : K) (hu0 : 0 ≤ u) (hu1 : u < 1) :
    ∃ i, ∃ hi : i < ens.length, ensembleCall atol ens u = .ok ens[i].1 ∧
      ((ens.map Prod.snd).take i).sum / (ens.map Prod.snd).sum ≤ u ∧
      u < (((ens.map Prod.snd).take i).sum + ens[i].2) / (ens.map Prod.snd).sum ∧ 0 < ens[i].2 := by
  set p := ens.map Prod.snd with hpd
  set S := p.sum with hS
  set w := p.map (· / S) with hwd
  have hws : w.sum = 1 := by
    rw [hwd, sum_map_div_const]; exact div_self hs.ne'
  have hwn : ∀ x ∈ w, 0 ≤ x := by
    intro x hx
    obtain ⟨y, hy, rfl⟩ := List.mem_map.1 hx
    obtain ⟨q, hq, rfl⟩ := List.mem_map.1 hy
    exact div_nonneg (hp q hq) hs.le
  have hwl : w.length = ens.length := by simp [hwd, hpd]
  have hpos : 0 < w.length := by rw [hwl]; exact List.length_pos_iff.2 hne
  have hi : sampleIdx w u < w.length := by unfold sampleIdx; omega
  have hcdf := (C17_inverse_cdf w hwn u hu0 (by rw [hws]; exact hu1) _ hi).1 rfl
  -- the index is not cut off
  have hidx : searchsortedRight (cumsum w) u = sampleIdx w u := by
    unfold sampleIdx
    have hlt : searchsortedRight (cumsum w) u < w.length := by
      by_contra hge
      have hshape := takeWhile_shape 0 w u hu0
      unfold searchsortedRight at hge
      rw [cumsum_eq] at hge
      obtain ⟨h1, h2, -⟩ := hshape
      have he : ((cumsumFrom 0 w).takeWhile fun x => decide (x ≤ u)).length = w.length := by omega
      rw [he, List.take_length, zero_add, hws] at h2
      linarith
    omega
  have hi' : sampleIdx w u < ens.length := by omega
  have htake : (w.take (sampleIdx w u)).sum = (p.take (sampleIdx w u)).sum / S := by
    rw [hwd, ← List.map_take, sum_map_div_const]
  have hwi : w[sampleIdx w u] = ens[sampleIdx w u].2 / S := by simp [hwd, hpd]
  rw [htake, hwi, ← add_div] at hcdf
  refine ⟨sampleIdx w u, hi', ?_, hcdf.1, hcdf.2, ?_⟩
  · unfold ensembleCall npChoice
    simp only [List.length_map]
    rw [if_neg (by simpa using hne), if_neg (by simp), if_neg, if_neg (not_lt.2 ha), cumsum_map_div,
      hidx]
    · dsimp only
      rw [List.getElem?_map, List.getElem?_eq_getElem hi']
      rfl
    · simp only [List.any_eq_true, not_exists, not_and, decide_eq_true_eq, not_lt]
      intro x hx
      obtain ⟨q, hq, rfl⟩ := List.mem_map.1 hx
      exact hp q hq
  · have := hcdf.1.trans_lt hcdf.2
    rw [div_lt_div_iff_of_pos_right hs] at this
    linarith

/-- C62: an empty ensemble, a negative probability or a total away from one raise `ValueError`. -/
theorem C62_invalid {R : Type} (atol : K) (ens : List (R × K)) (u : K)
    (h : ens = [] ∨ (∃ q ∈ ens, q.2 < 0) ∨ atol < |(ens.map Prod.snd).sum - 1|) :
    ensembleCall atol ens u = .error .valueError := by
  unfold ensembleCall npChoice
  dsimp only
  by_cases h0 : (ens.map Prod.fst).length = 0
  · rw [if_pos h0]
  · rw [if_neg h0, if_neg (by simp)]
    by_cases h1 : ((ens.map Prod.snd).any fun x => decide (x < 0)) = true
    · rw [if_pos h1]
    · rw [if_neg h1]
      rcases h with rfl | ⟨q, hq, hneg⟩ | h
      · simp at h0
      · exact absurd (List.any_eq_true.2 ⟨q.2, List.mem_map_of_mem hq, by simpa using hneg⟩) h1
      · rw [if_pos h]

/-- Case for C62. -/
example : ensembleCall (1/10^8 : ℚ) [("a", 1/4), ("b", 0), ("c", 3/4)] (1/4) = .ok "c" ∧
    ensembleCall (1/10^8 : ℚ) [("a", 1/4), ("b", 0), ("c", 3/4)] (1/5) = .ok "a" ∧
    ensembleCall (1/10^8 : ℚ) [("a", 1/4), ("b", 1/4)] (1/5) = .error .valueError := by
  refine ⟨?_, ?_, ?_⟩ <;> decide +kernel

/-! ## C63: best of k measurements -/

theorem foldl_max_spec (x : K) (xs : List K) :
    (∀ y ∈ x :: xs, y ≤ xs.foldl max x) ∧ xs.foldl max x ∈ x :: xs := by
  induction xs generalizing x with
  | nil => simp
  | cons z xs ih =>
    obtain ⟨h1, h2⟩ := ih (max x z)
    simp only [List.foldl_cons]
    constructor
    · intro y hy
      simp only [List.mem_cons] at hy
      have hm := h1 (max x z) (by simp)
      rcases hy with rfl | rfl | hy
      · exact (le_max_left _ _).trans hm
      · exact (le_max_right _ _).trans hm
      · exact h1 y (by simp [hy])
    · simp only [List.mem_cons] at h2 ⊢
      rcases h2 with h2 | h2
      · rcases max_choice x z with h | h
        · left; rw [h2]; exact h
        · right; left; rw [h2]; exact h
      · right; right; exact h2

theorem npArgmax_spec (l : List K) (hne : l ≠ []) :
    ∃ i, ∃ hi : i < l.length, npArgmax l = .ok i ∧ (∀ y ∈ l, y ≤ l[i]) ∧
      ∀ j (hj : j < i), l[j]'(hj.trans hi) < l[i] := by
  match l, hne with
  | x :: xs, _ =>
    obtain ⟨h1, h2⟩ := foldl_max_spec x xs
    set best := xs.foldl max x with hb
    have hi : (x :: xs).findIdx (fun y => decide (best ≤ y)) < (x :: xs).length :=
      List.findIdx_lt_length_of_exists ⟨best, h2, by simp⟩
    have hge : best ≤ (x :: xs)[(x :: xs).findIdx fun y => decide (best ≤ y)] := by
      simpa using List.findIdx_getElem (w := hi)
    refine ⟨_, hi, rfl, fun y hy => (h1 y hy).trans hge, fun j hj => ?_⟩
    have := List.not_of_lt_findIdx hj
    simp only [decide_eq_false_iff_not, not_le] at this
    exact this.trans_le hge

/-- Posterior variance of the number `m · x` under a weighted cloud. -/
def Spec.linVar {n d : Nat} (w : Fin n → K) (x : Fin n → Fin d → K) (m : Fin d → K) : K :=
  ∑ i, w i * ((∑ a, m a * x i a) - ∑ k, w k * ∑ a, m a * x k a) ^ 2

theorem linVar_eq {n d : Nat} (w : Fin n → K) (hw : ∑ i, w i = 1) (x : Fin n → Fin d → K)
    (m : Fin d → K) :
    (∑ a, ∑ b, m a * pcov w x a b * m b) = Spec.linVar w x m := by
  set f : Fin n → K := fun i => ∑ a, m a * x i a with hf
  have h1 : ∑ a, ∑ b, m a * pcov w x a b * m b = (∑ i, w i * f i ^ 2) - (∑ i, w i * f i) ^ 2 := by
    have hA : (∑ i, w i * f i ^ 2) = ∑ a, ∑ b, m a * (∑ i, w i * x i a * x i b) * m b := by
      simp only [hf, sq, Finset.mul_sum, Finset.sum_mul]
      rw [Finset.sum_comm]
      refine Finset.sum_congr rfl fun a _ => ?_
      rw [Finset.sum_comm]
      refine Finset.sum_congr rfl fun b _ => Finset.sum_congr rfl fun i _ => by ring
    have hM : (∑ i, w i * f i) = ∑ a, m a * pmean w x a := by
      simp only [hf, pmean, Finset.mul_sum]
      rw [Finset.sum_comm]
      refine Finset.sum_congr rfl fun a _ => Finset.sum_congr rfl fun i _ => by ring
    rw [hA, hM, sq, Finset.sum_mul_sum, ← Finset.sum_sub_distrib]
    refine Finset.sum_congr rfl fun a _ => ?_
    rw [← Finset.sum_sub_distrib]
    refine Finset.sum_congr rfl fun b _ => ?_
    unfold pcov
    ring
  rw [h1, Spec.linVar]
  change _ = ∑ i, w i * (f i - ∑ k, w k * f k) ^ 2
  set μ := ∑ k, w k * f k with hμ
  have : ∀ i, w i * (f i - μ) ^ 2 = w i * f i ^ 2 - 2 * μ * (w i * f i) + μ ^ 2 * w i := fun i => by
    ring
  simp only [this]
  rw [Finset.sum_add_distrib, Finset.sum_sub_distrib, ← Finset.mul_sum, ← Finset.mul_sum, hw, ← hμ]
  ring

/-- C63: of the drawn candidates the heuristic returns the first whose measurement has the largest
posterior variance, with `other_fields` written over it; without candidates it raises
`ValueError`. -/
theorem C63_best_candidate {n d : Nat} (fields : List F) (meas : (F → V) → Fin d → K)
    (other : List (F × V)) (hother : ∀ q ∈ other, q.1 ∈ fields) (w : Fin n → K) (hw : ∑ i, w i = 1)
    (x : Fin n → Fin d → K) (cands : List (F → V)) :
    (cands = [] → bestOfK fields meas other w x cands = .error .valueError) ∧
    (cands ≠ [] → ∃ i, ∃ hi : i < cands.length,
      bestOfK fields meas other w x cands = .ok (Spec.assigned other cands[i]) ∧
      (∀ c ∈ cands, Spec.linVar w x (meas c) ≤ Spec.linVar w x (meas cands[i])) ∧
      ∀ j (hj : j < i), Spec.linVar w x (meas (cands[j]'(hj.trans hi))) <
        Spec.linVar w x (meas cands[i])) := by
  constructor
  · rintro rfl; rfl
  · intro hne
    have hm : (cands.map fun c => ∑ a, ∑ b, meas c a * pcov w x a b * meas c b) =
        cands.map fun c => Spec.linVar w x (meas c) :=
      List.map_congr_left fun c _ => linVar_eq w hw x (meas c)
    obtain ⟨i, hi, h1, h2, h3⟩ := npArgmax_spec (cands.map fun c => Spec.linVar w x (meas c))
      (by simpa using hne)
    have hi' : i < cands.length := by simpa using hi
    refine ⟨i, hi', ?_, ?_, ?_⟩
    · unfold bestOfK
      dsimp only
      rw [hm, h1]
      change (match cands[i]? with
        | none => (Except.error .indexError : Except PyErr (F → V))
        | some c => setFields fields other c) = _
      rw [List.getElem?_eq_getElem hi']
      exact setFields_ok _ _ _ hother
    · intro c hc
      have := h2 _ (List.mem_map_of_mem hc)
      simpa using this
    · intro j hj
      have := h3 j hj
      simpa using this

/-- Case for C63: two measurements along the axes; the cloud spreads along the second. -/
example : (match bestOfK (K := ℚ) (V := Bool) (F := Unit) (n := 2) (d := 2) [] (fun r a =>
      if r () then (if a = 1 then 1 else 0) else (if a = 0 then 1 else 0)) []
      (fun _ => 1/2) (fun i a => if a = 1 then (if i = 0 then 3 else 0) else 1)
      [fun _ => false, fun _ => true, fun _ => true] with
    | .ok r => some (r ())
    | .error _ => none) = some true := by decide +kernel

end

end QInfer
