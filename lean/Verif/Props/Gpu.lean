import Verif.Model.Gpu
import Mathlib.Analysis.SpecialFunctions.Trigonometric.Deriv
import Mathlib.Analysis.SpecialFunctions.Trigonometric.Bounds
import Mathlib.Data.List.ProdSigma

/-!
# C102: the accelerated precession model agrees with the plain one
-/

namespace QInfer

/-- All work items of the work size `(nM, nE)`. -/
def Spec.workItems (nM nE : Nat) : List (Nat × Nat) := List.range nM ×ˢ List.range nE

/-- Precession: the probability of an outcome after time `t` at frequency `ω`. -/
noncomputable def Spec.precession (ω t : ℝ) (o : ℤ) : ℝ :=
  if o = 0 then Real.cos (ω * t / 2) ^ 2 else Real.sin (ω * t / 2) ^ 2

/-- Arithmetic with relative error at most `ε`. -/
def Spec.RelRound (ε : ℝ) (rnd : ℝ → ℝ) : Prop := ∀ x, |rnd x - x| ≤ ε * |x|

theorem cosModelRun_other (rnd : ℝ → ℝ) (n : Nat) (m e : Nat → ℝ) (items : List (Nat × Nat)) (buf : Nat → ℝ)
    (k : Nat) (h : ∀ id ∈ items, k ≠ id.1 * n + id.2) : cosModelRun rnd n m e items buf k = buf k := by
  induction items generalizing buf with
  | nil => rfl
  | cons a items ih =>
    unfold cosModelRun
    rw [List.foldl_cons]
    have := ih (cosModelItem rnd n m e a buf) fun id hid => h id (by simp [hid])
    unfold cosModelRun at this
    rw [this, cosModelItem, if_neg (h a (by simp))]

theorem offset_inj {n i j i' j' : Nat} (hj : j < n) (hj' : j' < n) (h : i * n + j = i' * n + j') :
    i = i' ∧ j = j' := by
  have hn : 0 < n := by omega
  have h1 : (i * n + j) / n = i := by
    rw [Nat.mul_comm, Nat.mul_add_div hn, Nat.div_eq_of_lt hj, Nat.add_zero]
  have h2 : (i' * n + j') / n = i' := by
    rw [Nat.mul_comm, Nat.mul_add_div hn, Nat.div_eq_of_lt hj', Nat.add_zero]
  have h3 : i = i' := by rw [← h1, ← h2, h]
  subst h3
  exact ⟨rfl, by omega⟩

theorem cosModelRun_at (rnd : ℝ → ℝ) (n : Nat) (m e : Nat → ℝ) (items : List (Nat × Nat)) (buf : Nat → ℝ)
    (hlt : ∀ id ∈ items, id.2 < n) (id : Nat × Nat) (hid : id ∈ items) :
    cosModelRun rnd n m e items buf (id.1 * n + id.2) = cosModelValue rnd (m id.1) (e id.2) := by
  induction items generalizing buf with
  | nil => cases hid
  | cons a items ih =>
    by_cases hmem : id ∈ items
    · have := ih (cosModelItem rnd n m e a buf) (fun b hb => hlt b (by simp [hb])) hmem
      unfold cosModelRun at this ⊢
      rw [List.foldl_cons, this]
    · have ha : id = a := by
        rcases List.mem_cons.1 hid with h | h
        · exact h
        · exact absurd h hmem
      subst ha
      have := cosModelRun_other rnd n m e items (cosModelItem rnd n m e id buf) (id.1 * n + id.2) (by
        intro b hb heq
        obtain ⟨h1, h2⟩ := offset_inj (hlt id (by simp)) (hlt b (by simp [hb])) heq
        exact hmem (by rw [show id = b from Prod.ext h1 h2]; exact hb))
      unfold cosModelRun at this ⊢
      rw [List.foldl_cons, this, cosModelItem, if_pos rfl]

variable {nM nE : Nat}

/-- **C102, order.**  In whatever order the device runs the work items, and whatever was in its memory before,
every entry is the value of the kernel for its own model and experiment. -/
theorem C102_any_order (rnd : ℝ → ℝ) (items : List (Nat × Nat)) (hitems : items.Perm (Spec.workItems nM nE))
    (garbage : Nat → ℝ) (outcomes : OutcomesArg) (mps : Fin nM → ℝ) (eps : Fin nE → ℝ) :
    gpuLikelihood rnd items garbage outcomes mps eps =
      pr0ToLikelihood outcomes fun i j => rnd (rnd (Real.cos (rnd (rnd (rnd (mps i) * rnd (eps j)) / 2))) ^ 2) := by
  have hmem : ∀ id, id ∈ items ↔ id.1 < nM ∧ id.2 < nE := fun id => by
    rw [hitems.mem_iff]
    obtain ⟨a, b⟩ := id
    simp [Spec.workItems]
  unfold gpuLikelihood
  dsimp only
  congr 1
  funext i j
  have := cosModelRun_at rnd nE (fun i => if h : i < nM then rnd (mps ⟨i, h⟩) else 0)
    (fun j => if h : j < nE then rnd (eps ⟨j, h⟩) else 0) items garbage (fun id hid => ((hmem id).1 hid).2)
    (i.val, j.val) ((hmem _).2 ⟨i.isLt, j.isLt⟩)
  rw [this]
  simp [cosModelValue]

/-- **C102, agreement.**  In exact arithmetic the accelerated model returns what `SimplePrecessionModel`
returns, and both are the probabilities of precession. -/
theorem C102_same_as_plain (items : List (Nat × Nat)) (hitems : items.Perm (Spec.workItems nM nE))
    (garbage : Nat → ℝ) (outcomes : OutcomesArg) (mps : Fin nM → ℝ) (eps : Fin nE → ℝ) :
    gpuLikelihood id items garbage outcomes mps eps =
      pr0ToLikelihood outcomes (fun i j => precessionPr0 (mps i) (eps j)) ∧
    ∀ os, os ≠ [] → gpuLikelihood id items garbage (.array os) mps eps =
      .ok (os.map fun o i j => Spec.precession (mps i) (eps j) o) := by
  have h1 : ∀ outcomes, gpuLikelihood id items garbage outcomes mps eps =
      pr0ToLikelihood outcomes (fun i j => precessionPr0 (mps i) (eps j)) := by
    intro outcomes
    rw [C102_any_order id items hitems garbage outcomes mps eps]
    congr 1
    funext i j
    simp only [id, precessionPr0, inversionPr0, sub_zero]
    rw [mul_comm]
  refine ⟨h1 outcomes, fun os hos => ?_⟩
  rw [h1]
  unfold pr0ToLikelihood
  dsimp only
  rw [if_neg hos]
  congr 1
  refine List.map_congr_left fun o _ => ?_
  funext i j
  unfold Spec.precession precessionPr0 inversionPr0
  split_ifs
  · dsimp only
    rw [sub_zero, mul_comm (eps j)]
  · dsimp only
    rw [sub_zero, mul_comm (eps j)]
    have := Real.sin_sq_add_cos_sq (mps i * eps j / 2)
    linarith

theorem cos_sq_lipschitz (a b : ℝ) : |Real.cos a ^ 2 - Real.cos b ^ 2| ≤ |a - b| := by
  have h : Real.cos a ^ 2 - Real.cos b ^ 2 = (Real.cos (2 * a) - Real.cos (2 * b)) / 2 := by
    rw [Real.cos_sq, Real.cos_sq]; ring
  rw [h, Real.cos_sub_cos]
  have h1 : |Real.sin ((2 * a + 2 * b) / 2)| ≤ 1 := Real.abs_sin_le_one _
  have h2 : |Real.sin ((2 * a - 2 * b) / 2)| ≤ |a - b| := by
    rw [show (2 * a - 2 * b) / 2 = a - b by ring]
    exact Real.abs_sin_le_abs
  rw [abs_div, abs_mul, abs_mul]
  norm_num
  nlinarith [abs_nonneg (Real.sin ((2 * a + 2 * b) / 2)), abs_nonneg (a - b)]

/-- A chain of relative errors. -/
theorem relRound_trans {ε : ℝ} (hε : 0 ≤ ε) {rnd : ℝ → ℝ} (hr : Spec.RelRound ε rnd) (x y c : ℝ) (n : Nat)
    (hx : |x| ≤ c) (h : |y - x| ≤ ((1 + ε) ^ n - 1) * c) :
    |rnd y - x| ≤ ((1 + ε) ^ (n + 1) - 1) * c := by
  have h1 : |y| ≤ (1 + ε) ^ n * c := by
    calc |y| = |(y - x) + x| := by ring_nf
      _ ≤ |y - x| + |x| := abs_add_le _ _
      _ ≤ ((1 + ε) ^ n - 1) * c + c := add_le_add h hx
      _ = (1 + ε) ^ n * c := by ring
  calc |rnd y - x| = |(rnd y - y) + (y - x)| := by ring_nf
    _ ≤ |rnd y - y| + |y - x| := abs_add_le _ _
    _ ≤ ε * ((1 + ε) ^ n * c) + ((1 + ε) ^ n - 1) * c :=
        add_le_add ((hr y).trans (mul_le_mul_of_nonneg_left h1 hε)) h
    _ = ((1 + ε) ^ (n + 1) - 1) * c := by ring

/-- **C102, precision.**  With relative error at most `ε` in every operation the probability of outcome 0 is
off by at most `((1 + ε)⁴ - 1) |ω t| / 2` from the phase and `(1 + ε)³ - 1` from the cosine and its square. -/
theorem C102_precision {ε : ℝ} (hε : 0 ≤ ε) {rnd : ℝ → ℝ} (hr : Spec.RelRound ε rnd) (ω t : ℝ) :
    |cosModelValue rnd (rnd ω) (rnd t) - Spec.precession ω t 0| ≤
      ((1 + ε) ^ 4 - 1) * (|ω * t| / 2) + ((1 + ε) ^ 3 - 1) := by
  have hω : |rnd ω - ω| ≤ ((1 + ε) ^ 1 - 1) * |ω| := by simpa using hr ω
  have ht : |rnd t - t| ≤ ((1 + ε) ^ 1 - 1) * |t| := by simpa using hr t
  have hp : |rnd ω * rnd t - ω * t| ≤ ((1 + ε) ^ 2 - 1) * |ω * t| := by
    have e : rnd ω * rnd t - ω * t = (rnd ω - ω) * (rnd t - t) + (rnd ω - ω) * t + ω * (rnd t - t) := by ring
    rw [e, abs_mul ω t]
    have hω' := hr ω
    have ht' := hr t
    calc _ ≤ |(rnd ω - ω) * (rnd t - t)| + |(rnd ω - ω) * t| + |ω * (rnd t - t)| := abs_add_three _ _ _
      _ = |rnd ω - ω| * |rnd t - t| + |rnd ω - ω| * |t| + |ω| * |rnd t - t| := by simp only [abs_mul]
      _ ≤ (ε * |ω|) * (ε * |t|) + (ε * |ω|) * |t| + |ω| * (ε * |t|) := by gcongr
      _ = ((1 + ε) ^ 2 - 1) * (|ω| * |t|) := by ring
  have hp3 : |rnd (rnd ω * rnd t) - ω * t| ≤ ((1 + ε) ^ 3 - 1) * |ω * t| :=
    relRound_trans hε hr _ _ _ 2 le_rfl hp
  have hp3' : |rnd (rnd ω * rnd t) / 2 - ω * t / 2| ≤ ((1 + ε) ^ 3 - 1) * (|ω * t| / 2) := by
    rw [← sub_div, abs_div, abs_two]
    linarith
  have hp4 : |rnd (rnd (rnd ω * rnd t) / 2) - ω * t / 2| ≤ ((1 + ε) ^ 4 - 1) * (|ω * t| / 2) :=
    relRound_trans hε hr _ _ _ 3 (by rw [abs_div, abs_two]) hp3'
  set φ := rnd (rnd (rnd ω * rnd t) / 2) with hφ
  have hc1 : |rnd (Real.cos φ) - Real.cos φ| ≤ ε * |Real.cos φ| := hr _
  have hsq : |rnd (Real.cos φ) ^ 2 - Real.cos φ ^ 2| ≤ ((1 + ε) ^ 2 - 1) * 1 := by
    have e : rnd (Real.cos φ) ^ 2 - Real.cos φ ^ 2 =
        (rnd (Real.cos φ) - Real.cos φ) * (rnd (Real.cos φ) - Real.cos φ) +
          2 * Real.cos φ * (rnd (Real.cos φ) - Real.cos φ) := by ring
    have hcos := Real.abs_cos_le_one φ
    have hc2 : |rnd (Real.cos φ) - Real.cos φ| ≤ ε := hc1.trans (by nlinarith)
    rw [e]
    calc _ ≤ |(rnd (Real.cos φ) - Real.cos φ) * (rnd (Real.cos φ) - Real.cos φ)| +
          |2 * Real.cos φ * (rnd (Real.cos φ) - Real.cos φ)| := abs_add_le _ _
      _ = |rnd (Real.cos φ) - Real.cos φ| * |rnd (Real.cos φ) - Real.cos φ| +
          2 * |Real.cos φ| * |rnd (Real.cos φ) - Real.cos φ| := by simp only [abs_mul, abs_two]
      _ ≤ ε * ε + 2 * 1 * ε := by gcongr
      _ = ((1 + ε) ^ 2 - 1) * 1 := by ring
  have hfin : |rnd (rnd (Real.cos φ) ^ 2) - Real.cos φ ^ 2| ≤ ((1 + ε) ^ 3 - 1) * 1 :=
    relRound_trans hε hr _ _ _ 2 (by
      rw [abs_of_nonneg (sq_nonneg _)]; exact Real.cos_sq_le_one φ) hsq
  have hl := cos_sq_lipschitz φ (ω * t / 2)
  have hS : Spec.precession ω t 0 = Real.cos (ω * t / 2) ^ 2 := by simp [Spec.precession]
  rw [hS, cosModelValue, ← hφ]
  calc _ = |(rnd (rnd (Real.cos φ) ^ 2) - Real.cos φ ^ 2) + (Real.cos φ ^ 2 - Real.cos (ω * t / 2) ^ 2)| := by
        ring_nf
    _ ≤ _ + _ := abs_add_le _ _
    _ ≤ ((1 + ε) ^ 3 - 1) * 1 + ((1 + ε) ^ 4 - 1) * (|ω * t| / 2) := add_le_add hfin (hl.trans hp4)
    _ = _ := by ring

/-- **C102, range.**  With monotone rounding that keeps -1, 0 and 1, all results are probabilities. -/
theorem C102_range {rnd : ℝ → ℝ} (hmono : Monotone rnd) (h0 : rnd 0 = 0) (h1 : rnd 1 = 1) (hm1 : rnd (-1) = -1)
    (ω t : ℝ) : 0 ≤ cosModelValue rnd (rnd ω) (rnd t) ∧ cosModelValue rnd (rnd ω) (rnd t) ≤ 1 := by
  unfold cosModelValue
  set φ := rnd (rnd (rnd ω * rnd t) / 2)
  have a : -1 ≤ rnd (Real.cos φ) := hm1 ▸ hmono (Real.neg_one_le_cos φ)
  have b : rnd (Real.cos φ) ≤ 1 := h1 ▸ hmono (Real.cos_le_one φ)
  constructor
  · rw [← h0]; exact hmono (sq_nonneg _)
  · rw [← h1]
    refine hmono ?_
    nlinarith

/-- **C102, finding.**  The bound on the phase is needed: for every precision there are a rounding of this
precision, a frequency and a time for which the model returns 0 where the probability is 1. -/
theorem C102_long_times {ε : ℝ} (hε : 0 < ε) :
    ∃ rnd, Spec.RelRound ε rnd ∧ Monotone rnd ∧ rnd 0 = 0 ∧ rnd 1 = 1 ∧ rnd (-1) = -1 ∧ ∃ ω t : ℝ, 0 < ω ∧
      Spec.precession ω t 0 = 1 ∧ cosModelValue rnd (rnd ω) (rnd t) = 0 := by
  obtain ⟨N, hN⟩ := exists_nat_gt (1 / ε)
  have hN1 : 1 < ε * N := by rwa [div_lt_iff₀ hε, mul_comm] at hN
  have hNp : 0 < N := by
    rcases Nat.eq_zero_or_pos N with h | h
    · subst h; norm_num at hN1
    · exact h
  have hNR : (1 : ℝ) ≤ N := by exact_mod_cast hNp
  have hpi := Real.two_le_pi
  have hbig : 3 < 2 * Real.pi * N := by nlinarith
  refine ⟨fun x => if 2 * Real.pi * N ≤ x ∧ x ≤ 2 * Real.pi * N + Real.pi then 2 * Real.pi * N + Real.pi else x,
    ?_, ?_, ?_, ?_, ?_, 1, 2 * Real.pi * N, one_pos, ?_, ?_⟩
  · intro x
    dsimp only
    split_ifs with h
    · have hx : 0 ≤ x := by linarith [h.1]
      rw [abs_of_nonneg hx, abs_of_nonneg (by linarith [h.2])]
      have : ε * (2 * Real.pi * N) ≤ ε * x := mul_le_mul_of_nonneg_left h.1 hε.le
      nlinarith [h.1]
    · rw [sub_self, abs_zero]
      positivity
  · intro x y hxy
    dsimp only
    split_ifs with h1 h2 h2
    · exact le_rfl
    · by_contra hc
      exact h2 ⟨h1.1.trans hxy, (not_le.1 hc).le⟩
    · linarith [h2.2]
    · exact hxy
  · exact if_neg fun h => by linarith [h.1]
  · exact if_neg fun h => by linarith [h.1]
  · exact if_neg fun h => by linarith [h.1]
  · have : Real.cos (1 * (2 * Real.pi * N) / 2) ^ 2 = 1 := by
      rw [show 1 * (2 * Real.pi * N) / 2 = (N : ℝ) * Real.pi by ring, Real.cos_nat_mul_pi, ← pow_mul, mul_comm,
        pow_mul]
      norm_num
    simpa [Spec.precession] using this
  · have h1 : ¬ (2 * Real.pi * N ≤ 1 ∧ (1 : ℝ) ≤ 2 * Real.pi * N + Real.pi) := fun h => by linarith [h.1]
    have h2 : 2 * Real.pi * N ≤ 2 * Real.pi * N ∧ 2 * Real.pi * N ≤ 2 * Real.pi * N + Real.pi :=
      ⟨le_rfl, by linarith⟩
    have h3 : 2 * Real.pi * N ≤ 2 * Real.pi * N + Real.pi ∧
        2 * Real.pi * N + Real.pi ≤ 2 * Real.pi * N + Real.pi := ⟨by linarith, le_rfl⟩
    have h4 : ¬ (2 * Real.pi * N ≤ (2 * Real.pi * N + Real.pi) / 2 ∧
        (2 * Real.pi * N + Real.pi) / 2 ≤ 2 * Real.pi * N + Real.pi) := fun h => by nlinarith [h.1]
    have h5 : ¬ (2 * Real.pi * N ≤ 0 ∧ (0 : ℝ) ≤ 2 * Real.pi * N + Real.pi) := fun h => by linarith [h.1]
    have hcos : Real.cos ((2 * Real.pi * N + Real.pi) / 2) = 0 := by
      rw [Real.cos_eq_zero_iff]
      exact ⟨N, by push_cast; ring⟩
    unfold cosModelValue
    simp only [if_neg h1, if_pos h2, one_mul, if_pos h3, if_neg h4, hcos, if_neg h5]
    norm_num
    intro h
    linarith

/-- **C102, validity.**  The accelerated model accepts exactly the positive frequencies, as the plain model with its
default lower bound does. -/
theorem C102_validity (ω : ℝ) (xs : List ℝ) :
    (gpuValid xs = true ↔ ∀ x ∈ xs, 0 < x) ∧ gpuValid [ω] = inversionValid 0 ω := by
  constructor
  · simp [gpuValid]
  · simp [gpuValid, inversionValid]

/-- Case for C102: two models, three experiments, work items in reverse order. -/
example : (Spec.workItems 2 3).reverse.Perm (Spec.workItems 2 3) ∧
    Spec.workItems 2 3 = [(0, 0), (0, 1), (0, 2), (1, 0), (1, 1), (1, 2)] :=
  ⟨List.reverse_perm _, by decide⟩

end QInfer
