import Verif.Model.Estimates
import Verif.Props.Particle
import Verif.Props.SimpleDists
import Mathlib.Data.List.Dedup
import Mathlib.Data.List.Perm.Subperm
import Mathlib.Tactic.Positivity

/-!
# C74-C78: correlations, clusters, divergence, marginals and meshes
-/

namespace QInfer

set_option linter.unusedSectionVars false

open Matrix
open scoped BigOperators

/-! ## C74 -/

section
variable {n d : Nat}

/-- Cauchy-Schwarz for the particle covariance. -/
theorem pcov_cauchy (w : Fin n → ℝ) (x : Fin n → Fin d → ℝ) (h0 : ∀ i, 0 ≤ w i) (h1 : ∑ i, w i = 1)
    (a b : Fin d) : pcov w x a b ^ 2 ≤ pcov w x a a * pcov w x b b := by
  rw [C13_cov_is_centred_moment w x h1, C13_cov_is_centred_moment w x h1 a a,
    C13_cov_is_centred_moment w x h1 b b]
  have := Finset.sum_mul_sq_le_sq_mul_sq Finset.univ
    (fun i => Real.sqrt (w i) * (x i a - ∑ k, w k * x k a))
    (fun i => Real.sqrt (w i) * (x i b - ∑ k, w k * x k b))
  have e : ∀ i (s t : ℝ), Real.sqrt (w i) * s * (Real.sqrt (w i) * t) = w i * (s * t) := by
    intro i s t
    calc _ = Real.sqrt (w i) * Real.sqrt (w i) * (s * t) := by ring
      _ = _ := by rw [Real.mul_self_sqrt (h0 i)]
  have e2 : ∀ i (s : ℝ), (Real.sqrt (w i) * s) ^ 2 = w i * (s * s) := by
    intro i s; rw [sq, e]
  simpa only [e, e2] using this

/-- C74: for weights that form a probability vector, the correlation of two parameters with nonzero
variances exists, lies between -1 and 1, does not depend on the order of the two, and is their covariance in
units of the standard deviations; a parameter has correlation one with itself. -/
theorem C74_correlation (w : Fin n → ℝ) (x : Fin n → Fin d → ℝ) (h0 : ∀ i, 0 ≤ w i) (h1 : ∑ i, w i = 1)
    (a b : Fin d) (ha : pcov w x a a ≠ 0) (hb : pcov w x b b ≠ 0) :
    ∃ r, corrEntry w x a b = some r ∧ corrEntry w x b a = some r ∧ -1 ≤ r ∧ r ≤ 1 ∧
      pcov w x a b = r * Real.sqrt (pcov w x a a) * Real.sqrt (pcov w x b b) ∧ (a = b → r = 1) := by
  have hd : ∀ c : Fin d, 0 ≤ pcov w x c c := by
    intro c
    rw [C13_cov_is_centred_moment w x h1]
    exact Finset.sum_nonneg fun i _ => mul_nonneg (h0 i) (mul_self_nonneg _)
  have sa : 0 < Real.sqrt (pcov w x a a) := Real.sqrt_pos.2 (lt_of_le_of_ne (hd a) ha.symm)
  have sb : 0 < Real.sqrt (pcov w x b b) := Real.sqrt_pos.2 (lt_of_le_of_ne (hd b) hb.symm)
  have hden : 0 < Real.sqrt (pcov w x a a) * Real.sqrt (pcov w x b b) := mul_pos sa sb
  have habs : |pcov w x a b| ≤ Real.sqrt (pcov w x a a) * Real.sqrt (pcov w x b b) := by
    rw [← Real.sqrt_mul (hd a), ← Real.sqrt_sq_eq_abs]
    exact Real.sqrt_le_sqrt (pcov_cauchy w x h0 h1 a b)
  obtain ⟨hl, hu⟩ := abs_le.1 habs
  refine ⟨pcov w x a b / (Real.sqrt (pcov w x a a) * Real.sqrt (pcov w x b b)), ?_, ?_, ?_, ?_, ?_, ?_⟩
  · unfold corrEntry
    dsimp only
    rw [if_neg (by push Not; exact ⟨hd a, hd b⟩), if_neg hden.ne']
  · unfold corrEntry
    dsimp only
    rw [if_neg (by push Not; exact ⟨hd b, hd a⟩), if_neg (by rw [mul_comm]; exact hden.ne'),
      (C13_cov_psd w x h0 h1).1 b a, mul_comm (Real.sqrt (pcov w x b b))]
  · rw [le_div_iff₀ hden]; linarith
  · rw [div_le_iff₀ hden]; linarith
  · field_simp
  · rintro rfl
    rw [Real.mul_self_sqrt (hd a), div_self ha]

/-- C74: a parameter without spread has NaN correlations with everything, itself included. -/
theorem C74_no_spread (w : Fin n → ℝ) (x : Fin n → Fin d → ℝ) (a b : Fin d) (ha : pcov w x a a = 0) :
    corrEntry w x a b = none ∧ corrEntry w x b a = none := by
  constructor
  · unfold corrEntry
    dsimp only
    split_ifs with h1 h2
    · rfl
    · rfl
    · exfalso; apply h2; rw [ha]; simp
  · unfold corrEntry
    dsimp only
    split_ifs with h1 h2
    · rfl
    · rfl
    · exfalso; apply h2; rw [ha]; simp

/-- C74: correlations do not depend on the units and origins of the parameters. -/
theorem C74_units (w : Fin n → ℝ) (x : Fin n → Fin d → ℝ) (h1 : ∑ i, w i = 1) (s t : Fin d → ℝ)
    (hs : ∀ j, 0 < s j) (a b : Fin d) :
    corrEntry w (fun i j => s j * x i j + t j) a b = corrEntry w x a b := by
  have hcov : ∀ a b, pcov w (fun i j => s j * x i j + t j) a b = s a * s b * pcov w x a b := by
    intro a b
    rw [C13_cov_is_centred_moment w _ h1, C13_cov_is_centred_moment w x h1, Finset.mul_sum]
    have hm : ∀ c, ∑ k, w k * (s c * x k c + t c) = s c * (∑ k, w k * x k c) + t c := by
      intro c
      calc _ = s c * (∑ k, w k * x k c) + (∑ k, w k) * t c := by
            rw [Finset.mul_sum, Finset.sum_mul, ← Finset.sum_add_distrib]
            exact Finset.sum_congr rfl fun k _ => by ring
        _ = _ := by rw [h1, one_mul]
    refine Finset.sum_congr rfl fun i _ => ?_
    rw [hm, hm]; ring
  have hsq : ∀ c, Real.sqrt (s c * s c * pcov w x c c) = s c * Real.sqrt (pcov w x c c) := by
    intro c
    rw [Real.sqrt_mul (mul_self_nonneg _), Real.sqrt_mul_self (hs c).le]
  have hneg : ∀ c, s c * s c * pcov w x c c < 0 ↔ pcov w x c c < 0 := fun c =>
    ⟨fun h => by
      by_contra hn
      push Not at hn
      have := mul_nonneg (mul_self_nonneg (s c)) hn
      linarith, fun h => mul_neg_of_pos_of_neg (mul_pos (hs c) (hs c)) h⟩
  unfold corrEntry
  simp only [hcov, hsq, hneg]
  by_cases h2 : pcov w x a a < 0 ∨ pcov w x b b < 0
  · rw [if_pos h2, if_pos h2]
  · rw [if_neg h2, if_neg h2]
    have ha := hs a
    have hb := hs b
    by_cases h3 : Real.sqrt (pcov w x a a) * Real.sqrt (pcov w x b b) = 0
    · rw [if_pos h3, if_pos (by
        calc _ = s a * s b * (Real.sqrt (pcov w x a a) * Real.sqrt (pcov w x b b)) := by ring
          _ = 0 := by rw [h3, mul_zero])]
    · have h4 : s a * Real.sqrt (pcov w x a a) * (s b * Real.sqrt (pcov w x b b)) ≠ 0 := by
        intro h
        apply h3
        have h5 : s a * s b * (Real.sqrt (pcov w x a a) * Real.sqrt (pcov w x b b)) = 0 := by
          rw [← h]; ring
        rcases mul_eq_zero.1 h5 with h6 | h6
        · exact absurd h6 (mul_pos ha hb).ne'
        · exact h6
      rw [if_neg h3, if_neg h4]
      congr 1
      have h7 : s a * Real.sqrt (pcov w x a a) * (s b * Real.sqrt (pcov w x b b)) =
          s a * s b * (Real.sqrt (pcov w x a a) * Real.sqrt (pcov w x b b)) := by ring
      rw [h7, mul_div_mul_left _ _ (mul_pos ha hb).ne']

end

/-- Case for C74: two parameters with spread. -/
example : (∑ i, (![1/2, 1/2] : Fin 2 → ℚ) i = 1) ∧ pcov ![1/2, 1/2] ![![0, 1], ![2, 3]] 0 0 = (1 : ℚ) ∧
    pcov ![1/2, 1/2] ![![0, 1], ![2, 3]] 1 1 = (1 : ℚ) := by
  refine ⟨?_, ?_, ?_⟩ <;> decide +kernel

/-! ## C75 -/

/-- What DBSCAN returns: labels `0, ..., k - 1`, each used, and `-1` for noise. -/
def Spec.IsLabelling (labels : List Int) (k : Nat) : Prop :=
  (∀ l ∈ labels, -1 ≤ l ∧ l < k) ∧ ∀ c < k, (c : Int) ∈ labels

theorem cluster_count (labels : List Int) (k : Nat) (h : Spec.IsLabelling labels k) :
    labels.dedup.length - (if labels.contains (-1) then 1 else 0) = k := by
  have hmem : ∀ l, l ∈ labels.dedup ↔ l ∈ (if labels.contains (-1) then [(-1 : Int)] else []) ++
      (List.range k).map fun k : Nat => (k : Int) := by
    intro l
    rw [List.mem_dedup, List.mem_append, List.mem_map]
    constructor
    · intro hl
      obtain ⟨h1, h2⟩ := h.1 l hl
      by_cases hm : l = -1
      · left
        rw [if_pos (by rw [← hm]; simpa using hl), hm]
        simp
      · right
        exact ⟨l.toNat, List.mem_range.2 (by omega), by omega⟩
    · rintro (hl | ⟨c, hc, rfl⟩)
      · split_ifs at hl with hm
        · rw [List.mem_singleton] at hl
          rw [hl]; simpa using hm
        · simp at hl
      · exact h.2 c (List.mem_range.1 hc)
  have hnd : ((if labels.contains (-1) then [(-1 : Int)] else []) ++
      (List.range k).map fun k : Nat => (k : Int)).Nodup := by
    rw [List.nodup_append]
    refine ⟨by split_ifs <;> simp, List.Nodup.map (fun a b hab => by exact_mod_cast hab) List.nodup_range, ?_⟩
    intro a ha b hb
    split_ifs at ha with hm
    · rw [List.mem_singleton] at ha
      obtain ⟨c, -, rfl⟩ := List.mem_map.1 hb
      intro hab
      omega
    · simp at ha
  have hlen := ((List.perm_ext_iff_of_nodup (List.nodup_dedup labels) hnd).2 hmem).length_eq
  rw [hlen]
  split_ifs <;> simp

/-- C75: the clusters yielded are the noise (first, if there is any) and then the clusters in order; none
is empty, and every particle is in exactly one, the one of its label. -/
theorem C75_partition (labels : List Int) (k : Nat) (h : Spec.IsLabelling labels k) :
    (particleClusters labels).map Prod.fst =
      (if (-1 : Int) ∈ labels then [-1] else []) ++ (List.range k).map (fun c : Nat => (c : Int)) ∧
    (∀ p ∈ particleClusters labels, p.2.length = labels.length ∧ true ∈ p.2) ∧
    ∀ (i : Nat) (l : Int), labels[i]? = some l →
      ∃ p ∈ particleClusters labels, p.1 = l ∧ p.2[i]? = some true ∧
        ∀ q ∈ particleClusters labels, q.2[i]? = some true → q = p := by
  have e : particleClusters labels = ((if labels.contains (-1) then [(-1 : Int)] else []) ++
      (List.range k).map fun k : Nat => (k : Int)).map
        fun c => (c, labels.map fun l => decide (l = c)) := by
    unfold particleClusters
    dsimp only
    rw [cluster_count labels k h]
  have hfst : (particleClusters labels).map Prod.fst =
      (if (-1 : Int) ∈ labels then [-1] else []) ++ (List.range k).map (fun c : Nat => (c : Int)) := by
    rw [e, List.map_map]
    simp [Function.comp_def]
  have hin : ∀ c ∈ (particleClusters labels).map Prod.fst, c ∈ labels := by
    intro c hc
    rw [hfst, List.mem_append] at hc
    rcases hc with hc | hc
    · split_ifs at hc with hm
      · rw [List.mem_singleton] at hc; rw [hc]; exact hm
      · simp at hc
    · obtain ⟨a, ha, rfl⟩ := List.mem_map.1 hc
      exact h.2 a (List.mem_range.1 ha)
  have hform : ∀ p ∈ particleClusters labels, p.2 = labels.map fun l => decide (l = p.1) := by
    intro p hp
    rw [e, List.mem_map] at hp
    obtain ⟨c, -, rfl⟩ := hp
    rfl
  refine ⟨hfst, fun p hp => ⟨by rw [hform p hp, List.length_map], ?_⟩, fun i l hl => ?_⟩
  · rw [hform p hp, List.mem_map]
    exact ⟨p.1, hin p.1 (List.mem_map.2 ⟨p, hp, rfl⟩), by simp⟩
  · have hlm : l ∈ (particleClusters labels).map Prod.fst := by
      have hl' := List.mem_of_getElem? hl
      obtain ⟨h1, h2⟩ := h.1 l hl'
      rw [hfst, List.mem_append]
      by_cases hm : l = -1
      · left; rw [if_pos (hm ▸ hl'), hm]; simp
      · right; exact List.mem_map.2 ⟨l.toNat, List.mem_range.2 (by omega), by omega⟩
    obtain ⟨p, hp, hpl⟩ := List.mem_map.1 hlm
    refine ⟨p, hp, hpl, by rw [hform p hp, List.getElem?_map, hl, hpl]; simp, ?_⟩
    intro q hq hqi
    rw [hform q hq, List.getElem?_map, hl] at hqi
    have : l = q.1 := by simpa using hqi
    refine Prod.ext (by rw [← this, hpl]) ?_
    rw [hform q hq, hform p hp, ← this, hpl]

section
variable {K : Type} [Field K] {n d k : Nat}

/-- C75: over clusters that partition the particles, the zeroth moments add up to the total weight and the
first moments to the mean of the whole cloud. -/
theorem C75_moments_add_up (w : Fin n → K) (x : Fin n → Fin d → K) (masks : Fin k → Fin n → Bool)
    (h : ∀ i, ∃! c, masks c i = true) (j : Fin d) :
    ∑ c, clusterMass w (masks c) = ∑ i, w i ∧ ∑ c, clusterMean w x (masks c) j = pmean w x j := by
  have key : ∀ f : Fin n → K, ∑ c, (∑ i with masks c i = true, f i) = ∑ i, f i := by
    intro f
    simp only [Finset.sum_filter]
    rw [Finset.sum_comm]
    refine Finset.sum_congr rfl fun i _ => ?_
    obtain ⟨c, hc, hu⟩ := h i
    rw [Finset.sum_eq_single c]
    · rw [if_pos hc]
    · intro b _ hb
      rw [if_neg]
      intro hb'
      exact hb (hu b hb')
    · intro hc'; exact absurd (Finset.mem_univ _) hc'
  exact ⟨key w, key fun i => w i * x i j⟩

/-- C75: when all particles are in one cluster, the variance within the cluster is the covariance of the
cloud and there is none between clusters.  For several clusters the law of total variance, `total_var` =
covariance of the cloud, fails, see `C75_total_variance_fails`. -/
theorem C75_one_cluster_partial (w : Fin n → K) (x : Fin n → Fin d → K) (h1 : ∑ i, w i = 1) (a b : Fin d) :
    withinVar w x (fun _ : Fin 1 => fun _ => true) a b = pcov w x a b ∧
    betweenVar w x (fun _ : Fin 1 => fun _ => true) a b = 0 ∧
    totalVar w x (fun _ : Fin 1 => fun _ => true) a b = pcov w x a b := by
  have hw : withinVar w x (fun _ : Fin 1 => fun _ => true) a b = pcov w x a b := by
    simp [withinVar, clusterMass, clusterCov, clusterMean, h1, pcov, pmean]
  have hb : betweenVar w x (fun _ : Fin 1 => fun _ => true) a b = 0 := by
    simp [betweenVar, clusterMass, clusterMean, h1, pcov, pmean]
  exact ⟨hw, hb, by rw [totalVar, hw, hb, add_zero]⟩

/-- C75: the metric is the share of the variance between clusters: with one cluster it is zero (or undefined,
for a parameter without spread); for nonnegative weights and any partition it is between zero and one, and
it is one exactly if there is no variance within the clusters. -/
theorem C75_metric [LinearOrder K] [IsStrictOrderedRing K] (w : Fin n → K) (x : Fin n → Fin d → K)
    (h0 : ∀ i, 0 ≤ w i) (h1 : ∑ i, w i = 1) (a : Fin d) :
    clusterMetric w x (fun _ : Fin 1 => fun _ => true) a =
      (if pcov w x a a = 0 then none else some 0) ∧
    ∀ masks : Fin k → Fin n → Bool, (∀ i, ∃! c, masks c i = true) → ∀ m, clusterMetric w x masks a = some m →
      0 ≤ m ∧ m ≤ 1 ∧ (m = 1 ↔ withinVar w x masks a a = 0) ∧ (m = 0 ↔ betweenVar w x masks a a = 0) := by
  constructor
  · obtain ⟨-, hb, ht⟩ := C75_one_cluster_partial w x h1 a a
    rw [clusterMetric, hb, ht, zero_div]
  · intro masks hm m hmet
    have hmass : ∀ c, 0 ≤ clusterMass w (masks c) ∧ clusterMass w (masks c) ≤ 1 := by
      intro c
      refine ⟨Finset.sum_nonneg fun i _ => h0 i, ?_⟩
      rw [← h1]
      exact Finset.sum_le_sum_of_subset_of_nonneg (Finset.filter_subset _ _) fun i _ _ => h0 i
    have hvar : ∀ {ι : Type} (s : Finset ι) (w : ι → K) (y : ι → K), (∀ i ∈ s, 0 ≤ w i) → ∑ i ∈ s, w i ≤ 1 →
        0 ≤ (∑ i ∈ s, w i * y i * y i) - (∑ i ∈ s, w i * y i) * ∑ i ∈ s, w i * y i := by
      intro ι s w y hw hs
      set m := ∑ i ∈ s, w i * y i with hmdef
      have h2 : 0 ≤ ∑ i ∈ s, w i * (y i - m) ^ 2 :=
        Finset.sum_nonneg fun i hi => mul_nonneg (hw i hi) (sq_nonneg _)
      have h3 : ∑ i ∈ s, w i * (y i - m) ^ 2 =
          (∑ i ∈ s, w i * y i * y i) - 2 * m * m + m ^ 2 * ∑ i ∈ s, w i := by
        have : ∀ i ∈ s, w i * (y i - m) ^ 2 = w i * y i * y i - 2 * m * (w i * y i) + m ^ 2 * w i :=
          fun i _ => by ring
        rw [Finset.sum_congr rfl this, Finset.sum_add_distrib, Finset.sum_sub_distrib, ← Finset.mul_sum,
          ← Finset.mul_sum, ← hmdef]
      nlinarith [mul_nonneg (sq_nonneg m) (sub_nonneg.2 hs)]
    have hw : 0 ≤ withinVar w x masks a a :=
      Finset.sum_nonneg fun c _ => mul_nonneg (hmass c).1
        (hvar _ w (fun i => x i a) (fun i _ => h0 i) (hmass c).2)
    have hb : 0 ≤ betweenVar w x masks a a :=
      hvar Finset.univ (fun c => clusterMass w (masks c)) (fun c => clusterMean w x (masks c) a)
        (fun c _ => (hmass c).1) (by rw [(C75_moments_add_up w x masks hm a).1, h1])
    rw [clusterMetric] at hmet
    split at hmet
    · cases hmet
    · rename_i ht
      have htot : totalVar w x masks a a = withinVar w x masks a a + betweenVar w x masks a a := rfl
      have hpos : 0 < totalVar w x masks a a := lt_of_le_of_ne (by rw [htot]; linarith) (Ne.symm ht)
      have hm' : m = betweenVar w x masks a a / totalVar w x masks a a := (Option.some.inj hmet).symm
      rw [hm']
      refine ⟨div_nonneg hb hpos.le, (div_le_one hpos).2 (by rw [htot]; linarith), ?_, ?_⟩
      · rw [div_eq_one_iff_eq hpos.ne', htot]
        constructor <;> intro h <;> linarith
      · rw [div_eq_zero_iff]
        exact ⟨fun h => h.resolve_right hpos.ne', Or.inl⟩

end

/-- C75, finding: the moments of the clusters are not divided by their weight.  Two clusters at the same
point, of weights 3/4 and 1/4: the cloud has no spread at all, but `total_var` and `between_cluster_var`
are positive, so part of the variance is "explained" by a separation that does not exist.  Two pointlike
clusters at 1 and -1: all the variance is between the clusters, but the reported share is one half. -/
theorem C75_total_variance_fails :
    (let w : Fin 2 → ℚ := ![3/4, 1/4]
     let x : Fin 2 → Fin 1 → ℚ := ![![1], ![1]]
     let masks : Fin 2 → Fin 2 → Bool := fun c i => decide (i = c)
     pcov w x 0 0 = 0 ∧ 0 < betweenVar w x masks 0 0 ∧ 0 < withinVar w x masks 0 0) ∧
    (let w : Fin 2 → ℚ := ![1/2, 1/2]
     let x : Fin 2 → Fin 1 → ℚ := ![![1], ![-1]]
     let masks : Fin 2 → Fin 2 → Bool := fun c i => decide (i = c)
     pcov w x 0 0 = 1 ∧ totalVar w x masks 0 0 = 1 / 2 ∧ clusterMetric w x masks 0 = some (1 / 2)) := by
  refine ⟨⟨?_, ?_, ?_⟩, ⟨?_, ?_, ?_⟩⟩ <;> decide +kernel

/-- C75: the warning appears when at least one particle in ten is noise. -/
theorem C75_noise_warning (labels : List Int) (h : labels ≠ []) :
    clusterWarning labels = true ↔ labels.length ≤ 10 * labels.count (-1) := by
  have hl : (0 : ℚ) < (labels.length : ℚ) := by exact_mod_cast List.length_pos_iff.2 h
  rw [clusterWarning, decide_eq_true_eq, ge_iff_le, div_le_div_iff₀ (by norm_num) hl]
  constructor
  · intro h2
    have : ((labels.length : ℕ) : ℚ) ≤ ((10 * labels.count (-1) : ℕ) : ℚ) := by push_cast; linarith
    exact_mod_cast this
  · intro h2
    have : ((labels.length : ℕ) : ℚ) ≤ ((10 * labels.count (-1) : ℕ) : ℚ) := by exact_mod_cast h2
    push_cast at this
    linarith

/-- Case for C75: two clusters and noise. -/
example : Spec.IsLabelling [0, 1, -1, 0] 2 ∧
    particleClusters [0, 1, -1, 0] =
      [(-1, [false, false, true, false]), (0, [true, false, false, true]), (1, [false, true, false, false])] := by
  refine ⟨⟨by decide, ?_⟩, by decide⟩
  intro c hc
  have : c = 0 ∨ c = 1 := by omega
  rcases this with rfl | rfl <;> decide

/-! ## C76 -/

open ProbabilityTheory

/-- The plug-in estimate of the Kullback-Leibler divergence for one parameter: the density of the other
cloud at particle `i` is the kernel estimate `S i / delta` of bandwidth `delta`. -/
noncomputable def Spec.klEstimate {n : Nat} (w : Fin n → ℝ) (S : Fin n → ℝ) (delta : ℝ) : ℝ :=
  ∑ i, w i * Real.log (w i) - ∑ i, w i * Real.log (S i / delta)

theorem entropy_ofFn {n : Nat} (w : Fin n → ℝ) (h0 : ∀ i, 0 ≤ w i) :
    -entropy (List.ofFn w) = ∑ i, w i * Real.log (w i) := by
  have key : ∀ l : List ℝ, (∀ y ∈ l, 0 ≤ y) → -entropy l = (l.map fun y => y * Real.log y).sum := by
    intro l hl
    unfold entropy
    rw [neg_neg]
    induction l with
    | nil => simp
    | cons y l ih =>
      have ih' := ih fun z hz => hl z (List.mem_cons_of_mem _ hz)
      by_cases hy : 0 < y
      · rw [List.filter_cons_of_pos (by simpa using hy), List.map_cons, List.sum_cons, List.map_cons,
          List.sum_cons, ih', mul_comm]
      · have : y = 0 := le_antisymm (not_lt.1 hy) (hl y (by simp))
        rw [List.filter_cons_of_neg (by simpa using hy), List.map_cons, List.sum_cons, ih', this]
        simp
  rw [key _ (by intro y hy; obtain ⟨i, rfl⟩ := (List.mem_ofFn' w y).1 hy; exact h0 i), List.map_ofFn,
    List.sum_ofFn]
  rfl

theorem klSmooth_pos {m : Nat} (kernel : ℝ → ℝ) (hk : ∀ t, 0 < kernel t) (delta : ℝ) (v : Fin m → ℝ)
    (hv0 : ∀ j, 0 ≤ v j) (hv1 : ∑ j, v j = 1) (dist : Fin m → ℝ) : 0 < klSmooth kernel delta v dist := by
  have hnn : ∀ j, 0 ≤ v j * kernel (dist j / delta) := fun j => mul_nonneg (hv0 j) (hk _).le
  obtain ⟨j, hj⟩ : ∃ j, 0 < v j := by
    by_contra hn
    push Not at hn
    have : ∑ j, v j ≤ 0 := Finset.sum_nonpos fun j _ => hn j
    linarith
  exact Finset.sum_pos' (fun j _ => hnn j) ⟨j, Finset.mem_univ _, mul_pos hj (hk _)⟩

/-- C76: with a positive kernel the estimate is always a number, the code's formula. -/
theorem C76_defined {n m : Nat} (kernel : ℝ → ℝ) (hk : ∀ t, 0 < kernel t) (delta : ℝ) (w : Fin n → ℝ)
    (hw0 : ∀ i, 0 ≤ w i) (v : Fin m → ℝ) (hv0 : ∀ j, 0 ≤ v j) (hv1 : ∑ j, v j = 1)
    (dist : Fin n → Fin m → ℝ) :
    klDivergence kernel delta w v dist = some (∑ i, w i * Real.log (w i) -
      1 / delta * ∑ i, w i * Real.log (∑ j, v j * kernel (dist i j / delta))) := by
  unfold klDivergence
  rw [if_neg (by push Not; intro i; exact klSmooth_pos kernel hk delta v hv0 hv1 (dist i)),
    entropy_ofFn w hw0]
  rfl

/-- C76: for bandwidth one the estimate is the plug-in estimate.  For other bandwidths the factor
`1 / delta` is outside the logarithm, see `C76_overestimates`. -/
theorem C76_bandwidth_one_partial {n m : Nat} (kernel : ℝ → ℝ) (hk : ∀ t, 0 < kernel t) (w : Fin n → ℝ)
    (hw0 : ∀ i, 0 ≤ w i) (v : Fin m → ℝ) (hv0 : ∀ j, 0 ≤ v j) (hv1 : ∑ j, v j = 1)
    (dist : Fin n → Fin m → ℝ) :
    klDivergence kernel 1 w v dist =
      some (Spec.klEstimate w (fun i => ∑ j, v j * kernel (dist i j / 1)) 1) := by
  rw [C76_defined kernel hk 1 w hw0 v hv0 hv1 dist, Spec.klEstimate]
  simp

theorem gaussian_lt_one (t : ℝ) : 0 < gaussianPDFReal 0 1 t ∧ gaussianPDFReal 0 1 t < 1 := by
  refine ⟨gaussianPDFReal_pos 0 1 t one_ne_zero, ?_⟩
  have e : gaussianPDFReal 0 1 t = (Real.sqrt (2 * Real.pi * ((1 : NNReal) : ℝ)))⁻¹ *
      Real.exp (-(t - 0) ^ 2 / (2 * ((1 : NNReal) : ℝ))) := rfl
  rw [e]
  have h1 : 1 < Real.sqrt (2 * Real.pi * ((1 : NNReal) : ℝ)) := by
    rw [Real.lt_sqrt (by norm_num)]
    have := Real.two_le_pi
    simp only [NNReal.coe_one]
    linarith
  have h2 : Real.exp (-(t - 0) ^ 2 / (2 * ((1 : NNReal) : ℝ))) ≤ 1 := by
    rw [Real.exp_le_one_iff]
    simp only [NNReal.coe_one]
    have := sq_nonneg (t - 0)
    apply div_nonpos_of_nonpos_of_nonneg <;> linarith
  have h3 : (Real.sqrt (2 * Real.pi * ((1 : NNReal) : ℝ)))⁻¹ < 1 := inv_lt_one_of_one_lt₀ h1
  have h4 : 0 < (Real.sqrt (2 * Real.pi * ((1 : NNReal) : ℝ)))⁻¹ := inv_pos.2 (by linarith)
  calc _ ≤ (Real.sqrt (2 * Real.pi * ((1 : NNReal) : ℝ)))⁻¹ * 1 := mul_le_mul_of_nonneg_left h2 h4.le
    _ < 1 := by rw [mul_one]; exact h3

/-- C76, finding: with the default normal kernel and any bandwidth below one (the default is 0.01) the
estimate always exceeds the plug-in estimate, because `1 / delta` multiplies the logarithm. -/
theorem C76_overestimates {n m : Nat} (delta : ℝ) (hd0 : 0 < delta) (hd1 : delta < 1) (w : Fin n → ℝ)
    (hw0 : ∀ i, 0 ≤ w i) (hw1 : ∑ i, w i = 1) (v : Fin m → ℝ) (hv0 : ∀ j, 0 ≤ v j) (hv1 : ∑ j, v j = 1)
    (dist : Fin n → Fin m → ℝ) :
    ∃ r, klDivergence (gaussianPDFReal 0 1) delta w v dist = some r ∧
      Spec.klEstimate w (fun i => ∑ j, v j * gaussianPDFReal 0 1 (dist i j / delta)) delta < r := by
  have hk : ∀ t, 0 < gaussianPDFReal 0 1 t := fun t => (gaussian_lt_one t).1
  refine ⟨_, C76_defined _ hk delta w hw0 v hv0 hv1 dist, ?_⟩
  set S : Fin n → ℝ := fun i => ∑ j, v j * gaussianPDFReal 0 1 (dist i j / delta) with hS
  have hS0 : ∀ i, 0 < S i := fun i => klSmooth_pos _ hk delta v hv0 hv1 (dist i)
  have hS1 : ∀ i, S i ≤ 1 := by
    intro i
    rw [← hv1]
    exact Finset.sum_le_sum fun j _ => mul_le_of_le_one_right (hv0 j) (gaussian_lt_one _).2.le
  have hA : ∑ i, w i * Real.log (S i) ≤ 0 := Finset.sum_nonpos fun i _ =>
    mul_nonpos_of_nonneg_of_nonpos (hw0 i) (Real.log_nonpos (hS0 i).le (hS1 i))
  have hlog : Real.log delta < 0 := Real.log_neg hd0 hd1
  have e : ∑ i, w i * Real.log (S i / delta) = ∑ i, w i * Real.log (S i) - Real.log delta := by
    have : ∀ i, w i * Real.log (S i / delta) = w i * Real.log (S i) - w i * Real.log delta := by
      intro i; rw [Real.log_div (hS0 i).ne' hd0.ne']; ring
    simp only [this, Finset.sum_sub_distrib]
    rw [← Finset.sum_mul, hw1, one_mul]
  rw [Spec.klEstimate, e]
  have h1 : 1 ≤ 1 / delta := by rw [le_div_iff₀ hd0]; linarith
  have h2 : 1 / delta * ∑ i, w i * Real.log (S i) ≤ 1 * ∑ i, w i * Real.log (S i) :=
    mul_le_mul_of_nonpos_right h1 hA
  linarith

/-! ## C77 -/

theorem cumsumFrom_getD_take (a : ℝ) (w : List ℝ) (k : Nat) (hk : k < w.length) :
    (cumsumFrom a w).getD k 0 = a + (w.take (k + 1)).sum := by
  induction w generalizing a k with
  | nil => simp at hk
  | cons y w ih =>
    cases k with
    | zero => simp [cumsumFrom]
    | succ k =>
      rw [cumsumFrom, List.getD_cons_succ, ih (a + y) k (by simpa using hk), List.take_succ_cons,
        List.sum_cons]
      ring

/-- Linear interpolation of an increasing table with nondecreasing values is nondecreasing. -/
theorem interp1d_mono (cs xs : List ℝ) (hn : 2 ≤ cs.length)
    (hc : ∀ j k : Nat, j < k → k < cs.length → cs.getD j 0 < cs.getD k 0)
    (hx : ∀ j k : Nat, j ≤ k → k < cs.length → xs.getD j 0 ≤ xs.getD k 0) (u v : ℝ) (huv : u ≤ v)
    (h0 : cs.getD 0 0 ≤ u) (h1 : v ≤ cs.getD (cs.length - 1) 0) :
    ∃ a b, interp1d cs xs u = some a ∧ interp1d cs xs v = some b ∧ a ≤ b ∧ xs.getD 0 0 ≤ a := by
  obtain ⟨j, j1, j2, j3, j4⟩ := interp1d_spec cs xs u hn hc h0 (huv.trans h1)
  obtain ⟨k, k1, k2, k3, k4⟩ := interp1d_spec cs xs v hn hc (h0.trans huv) h1
  have gap : ∀ l, l + 1 < cs.length → 0 < cs.getD (l + 1) 0 - cs.getD l 0 := fun l hl =>
    sub_pos.2 (hc l (l + 1) (by omega) hl)
  have xgap : ∀ l, l + 1 < cs.length → 0 ≤ xs.getD (l + 1) 0 - xs.getD l 0 := fun l hl =>
    sub_nonneg.2 (hx l (l + 1) (by omega) hl)
  have low : ∀ l t, l + 1 < cs.length → cs.getD l 0 ≤ t → xs.getD l 0 ≤ xs.getD l 0 +
      (t - cs.getD l 0) / (cs.getD (l + 1) 0 - cs.getD l 0) * (xs.getD (l + 1) 0 - xs.getD l 0) := by
    intro l t hl ht
    have := mul_nonneg (div_nonneg (sub_nonneg.2 ht) (gap l hl).le) (xgap l hl)
    linarith
  have high : ∀ l t, l + 1 < cs.length → t ≤ cs.getD (l + 1) 0 → xs.getD l 0 +
      (t - cs.getD l 0) / (cs.getD (l + 1) 0 - cs.getD l 0) * (xs.getD (l + 1) 0 - xs.getD l 0) ≤
        xs.getD (l + 1) 0 := by
    intro l t hl ht
    have h2 : (t - cs.getD l 0) / (cs.getD (l + 1) 0 - cs.getD l 0) ≤ 1 := by
      rw [div_le_one (gap l hl)]; linarith
    have := mul_le_mul_of_nonneg_right h2 (xgap l hl)
    linarith
  refine ⟨_, _, j4, k4, ?_, (hx 0 j (by omega) (by omega)).trans (low j u j1 j2)⟩
  rcases Nat.lt_trichotomy j k with h | h | h
  · exact (high j u j1 j3).trans ((hx (j + 1) k h (by omega)).trans (low k v k1 k2))
  · subst h
    have h2 := mul_le_mul_of_nonneg_right
      (div_le_div_of_nonneg_right (sub_le_sub_right huv (cs.getD j 0)) (gap j j1).le) (xgap j j1)
    linarith
  · have h2 : cs.getD (k + 1) 0 ≤ cs.getD j 0 := by
      rcases Nat.lt_or_eq_of_le (Nat.succ_le_of_lt h) with h3 | h3
      · exact (hc (k + 1) j h3 (by omega)).le
      · rw [← h3]
    have h3 : u = v := le_antisymm huv (k3.trans (h2.trans j2))
    rw [h3] at j4
    rw [k4] at j4
    rw [h3] at j2 j3
    have := Option.some.inj j4
    rw [← h3] at this ⊢
    exact this.ge

theorem gradient_mass (f : Nat → ℝ) (h : ℝ) (hh : h ≠ 0) (n : Nat) (hn : 2 ≤ n) :
    ∑ i ∈ Finset.range (n - 1), h * (npGradient f h n i + npGradient f h n (i + 1)) / 2 =
      f (n - 1) - f 0 := by
  obtain ⟨m, rfl⟩ : ∃ m, n = m + 2 := ⟨n - 2, by omega⟩
  have e : m + 2 - 1 = m + 1 := by omega
  rw [e]
  have g0 : npGradient f h (m + 2) 0 = (f 1 - f 0) / h := by simp [npGradient]
  have gl : npGradient f h (m + 2) (m + 1) = (f (m + 1) - f m) / h := by
    rw [npGradient, if_neg (by omega), if_pos (by omega)]
    congr 2
  have gi : ∀ i, 1 ≤ i → i ≤ m → npGradient f h (m + 2) i = (f (i + 1) - f (i - 1)) / (2 * h) := by
    intro i h1 h2
    rw [npGradient, if_neg (by omega), if_neg (by omega)]
  rcases Nat.eq_zero_or_pos m with rfl | hm
  · rw [Finset.sum_range_one, g0]
    have : npGradient f h 2 1 = (f 1 - f 0) / h := gl
    rw [this]
    field_simp
    ring
  · have part : ∀ k, 1 ≤ k → k ≤ m →
        ∑ i ∈ Finset.range k, h * (npGradient f h (m + 2) i + npGradient f h (m + 2) (i + 1)) / 2 =
          -f 0 + f k / 2 + f (k - 1) / 4 + f (k + 1) / 4 := by
      intro k hk1
      induction k, hk1 using Nat.le_induction with
      | base =>
        intro hk
        rw [Finset.sum_range_one, g0, gi 1 (by omega) hk]
        field_simp
        ring
      | succ k hk1 ih =>
        intro hk
        rw [Finset.sum_range_succ, ih (by omega), gi k hk1 (by omega), gi (k + 1) (by omega) hk]
        have e1 : k + 1 - 1 = k := by omega
        rw [e1]
        field_simp
        ring
    rw [Finset.sum_range_succ, part m hm le_rfl, gl, gi m hm le_rfl]
    field_simp
    ring

/-- C77: `posterior_marginal` without smoothing, for particles at distinct places, weights forming a
probability vector, and a range that contains all particles: the grid runs from one end of the range to the
other, the density is nonnegative, and its integral by the trapezium rule is one, less the weight of the
lowest particle when the range starts there (as it does by default). -/
theorem C77_marginal (sorted : List (ℝ × ℝ)) (hne : sorted ≠ []) (rangeMin rangeMax : Option ℝ)
    (hs : sorted.Pairwise fun a b => a.1 < b.1) (hw0 : ∀ a ∈ sorted, 0 ≤ a.2)
    (hw1 : (sorted.map Prod.snd).sum = 1) (res : Nat) (hres : 2 ≤ res) (rMin rMax : ℝ)
    (hmin : rangeMin.getD (sorted.head hne).1 = rMin) (hmax : rangeMax.getD (sorted.getLast hne).1 = rMax)
    (hlo : rMin ≤ (sorted.head hne).1) (hhi : (sorted.getLast hne).1 ≤ rMax) (hr : rMin < rMax) :
    ∃ ps pr, posteriorMarginal sorted rangeMin rangeMax res = .ok (ps, pr) ∧
      ps 0 = rMin ∧ ps (res - 1) = rMax ∧
      (∀ i, ps (i + 1) - ps i = (rMax - rMin) / ((res : ℝ) - 1)) ∧
      (∀ i < res, 0 ≤ pr i) ∧
      ∑ i ∈ Finset.range (res - 1), (ps (i + 1) - ps i) * (pr i + pr (i + 1)) / 2 =
        1 - (if rMin < (sorted.head hne).1 then 0 else (sorted.head hne).2) := by
  have hlen : 0 < sorted.length := List.length_pos_iff.2 hne
  have hhead : (sorted.map Prod.fst).getD 0 0 = (sorted.head hne).1 := by
    rw [List.getD_eq_getElem?_getD, List.getElem?_map, List.getElem?_eq_getElem hlen,
      List.head_eq_getElem]
    rfl
  have hlast : (sorted.map Prod.fst).getD (sorted.length - 1) 0 = (sorted.getLast hne).1 := by
    rw [List.getD_eq_getElem?_getD, List.getElem?_map, List.getElem?_eq_getElem (by omega),
      List.getLast_eq_getElem]
    rfl
  have hmin' : rangeMin.getD ((sorted.map Prod.fst).getD 0 0) = rMin := by rw [hhead]; exact hmin
  have hmax' : rangeMax.getD ((sorted.map Prod.fst).getD ((sorted.map Prod.fst).length - 1) 0) = rMax := by
    rw [List.length_map, hlast]; exact hmax
  have hres1 : (0 : ℝ) < (res : ℝ) - 1 := by
    have : (2 : ℝ) ≤ res := by exact_mod_cast hres
    linarith
  have hres1' : ((res - 1 : ℕ) : ℝ) = (res : ℝ) - 1 := by
    rw [Nat.cast_sub (by omega), Nat.cast_one]
  have hstep : ∀ i, linspace rMin rMax res (i + 1) - linspace rMin rMax res i =
      (rMax - rMin) / ((res : ℝ) - 1) := by
    intro i
    simp only [linspace, Nat.cast_add, Nat.cast_one]
    ring
  have hh : 0 < (rMax - rMin) / ((res : ℝ) - 1) := div_pos (by linarith) hres1
  have hps0 : linspace rMin rMax res 0 = rMin := by simp [linspace]
  have hpsl : linspace rMin rMax res (res - 1) = rMax := by
    rw [linspace, hres1', mul_div_cancel₀ _ hres1.ne']
    ring
  -- the table
  set R := rMax + |rMax - rMin| with hR
  have hRgt : rMax < R := by
    rw [hR, abs_of_pos (by linarith)]; linarith
  set cs := sorted.map Prod.fst ++ [R] with hcs
  set ws := sorted.map Prod.snd with hws
  set ys := cumsum ws ++ [1] with hys
  have hcl : cs.length = sorted.length + 1 := by simp [hcs]
  have hwl : ws.length = sorted.length := by simp [hws]
  have hcget : ∀ k (hk : k < sorted.length), cs.getD k 0 = (sorted[k]).1 := by
    intro k hk
    rw [List.getD_eq_getElem?_getD, hcs, List.getElem?_append_left (by simpa using hk), List.getElem?_map,
      List.getElem?_eq_getElem hk]
    rfl
  have hclast : cs.getD sorted.length 0 = R := by
    rw [List.getD_eq_getElem?_getD, hcs, List.getElem?_append_right (by simp)]
    simp
  have hcinc : ∀ j k : Nat, j < k → k < cs.length → cs.getD j 0 < cs.getD k 0 := by
    intro j k hjk hk
    rw [hcl] at hk
    rcases Nat.lt_or_eq_of_le (Nat.lt_succ_iff.1 hk) with h | h
    · rw [hcget j (by omega), hcget k h]
      exact List.pairwise_iff_getElem.1 hs j k (by omega) h hjk
    · rw [h, hclast, hcget j (by omega)]
      have h2 : (sorted[j]'(by omega)).1 ≤ (sorted.getLast hne).1 := by
        rw [List.getLast_eq_getElem]
        rcases Nat.lt_or_eq_of_le (show j ≤ sorted.length - 1 by omega) with h3 | h3
        · exact (List.pairwise_iff_getElem.1 hs j (sorted.length - 1) (by omega) (by omega) h3).le
        · simp only [h3]; exact le_rfl
      linarith
  have hyget : ∀ k, k < sorted.length → ys.getD k 0 = (ws.take (k + 1)).sum := by
    intro k hk
    have h2 : (cumsum ws)[k]?.getD 0 = (ws.take (k + 1)).sum := by
      rw [cumsum_eq, ← List.getD_eq_getElem?_getD, cumsumFrom_getD_take 0 ws k (by rw [hwl]; exact hk), zero_add]
    rw [List.getD_eq_getElem?_getD, hys, List.getElem?_append_left
      (by rw [cumsum_eq, cumsumFrom_length, hwl]; exact hk), h2]
  have hylast : ys.getD sorted.length 0 = 1 := by
    have : (cumsum ws).length = sorted.length := by rw [cumsum_eq, cumsumFrom_length, hwl]
    rw [List.getD_eq_getElem?_getD, hys, List.getElem?_append_right (by rw [this]), this]
    simp
  have hws0 : ∀ y ∈ ws, 0 ≤ y := by
    intro y hy
    obtain ⟨a, ha, rfl⟩ := List.mem_map.1 hy
    exact hw0 a ha
  have htake : ∀ a b : Nat, a ≤ b → (ws.take a).sum ≤ (ws.take b).sum := by
    intro a b hab
    rw [← List.take_append_drop a (ws.take b), List.take_take, min_eq_left hab, List.sum_append]
    have : 0 ≤ ((ws.take b).drop a).sum := List.sum_nonneg fun y hy =>
      hws0 y (List.mem_of_mem_take (List.mem_of_mem_drop hy))
    linarith
  have hymono : ∀ j k : Nat, j ≤ k → k < cs.length → ys.getD j 0 ≤ ys.getD k 0 := by
    intro j k hjk hk
    rw [hcl] at hk
    rcases Nat.lt_or_eq_of_le (Nat.lt_succ_iff.1 hk) with h | h
    · rw [hyget j (by omega), hyget k h]; exact htake _ _ (by omega)
    · rcases Nat.lt_or_eq_of_le hjk with h2 | h2
      · rw [h, hylast, hyget j (by omega), ← hw1]
        have := htake (j + 1) ws.length (by omega)
        rwa [List.take_length] at this
      · rw [h2]
  have h0' : cs.getD 0 0 = (sorted.head hne).1 := by
    rw [hcget 0 hlen, List.head_eq_getElem]
  have hy0 : ys.getD 0 0 = (sorted.head hne).2 := by
    rw [hyget 0 hlen, zero_add]
    have h1 : ws.take 1 = [(sorted.head hne).2] := by
      rw [List.take_one, hws, List.head?_map, List.head?_eq_some_head hne]
      rfl
    rw [h1, List.sum_singleton]
  have hn2 : 2 ≤ cs.length := by rw [hcl]; omega
  -- the distribution function
  set F := fun p => (interp1d cs ys p).getD 0 with hF
  have hFlow : ∀ p, p < cs.getD 0 0 → F p = 0 := by
    intro p hp
    simp only [hF]
    unfold interp1d
    rw [if_pos (Or.inl hp)]
    rfl
  have hFmono : ∀ p q, p ≤ q → q ≤ rMax → F p ≤ F q := by
    intro p q hpq hq
    have hqR : q ≤ cs.getD (cs.length - 1) 0 := by
      rw [hcl, Nat.add_sub_cancel, hclast]; linarith
    by_cases hq0 : q < cs.getD 0 0
    · rw [hFlow q hq0, hFlow p (lt_of_le_of_lt hpq hq0)]
    · push Not at hq0
      by_cases hp0 : p < cs.getD 0 0
      · obtain ⟨a, b, ha, hb, hab, h3⟩ := interp1d_mono cs ys hn2 hcinc hymono q q le_rfl hq0 hqR
        rw [hFlow p hp0]
        simp only [hF, ha, Option.getD_some]
        exact le_trans (by rw [hy0]; exact hw0 _ (List.head_mem hne)) h3
      · push Not at hp0
        obtain ⟨a, b, ha, hb, hab, -⟩ := interp1d_mono cs ys hn2 hcinc hymono p q hpq hp0 hqR
        simp only [hF, ha, hb, Option.getD_some]
        exact hab
  have hnode : ∀ (p : ℝ) k, k < sorted.length → p = cs.getD k 0 → F p = ys.getD k 0 := by
    intro p k hk hp
    have h3 : cs.getD 0 0 ≤ p := by
      rw [hp]
      rcases Nat.eq_zero_or_pos k with h | h
      · rw [h]
      · exact (hcinc 0 k h (by omega)).le
    have h4 : p ≤ cs.getD (cs.length - 1) 0 := by
      rw [hp]; exact (hcinc k (cs.length - 1) (by omega) (by omega)).le
    obtain ⟨j, j1, j2, j3, j4⟩ := interp1d_spec cs ys p hn2 hcinc h3 h4
    have hjk : j = k ∨ j + 1 = k := by
      rcases Nat.lt_trichotomy j k with h | h | h
      · rcases Nat.lt_or_eq_of_le (Nat.succ_le_of_lt h) with h5 | h5
        · have := hcinc (j + 1) k h5 (by omega)
          rw [hp] at j3; linarith
        · exact Or.inr h5
      · exact Or.inl h
      · have := hcinc k j h (by omega)
        rw [hp] at j2; linarith
    have hgap := sub_pos.2 (hcinc j (j + 1) (by omega) j1)
    simp only [hF, j4, Option.getD_some]
    rcases hjk with h | h
    · rw [hp, ← h]; simp
    · rw [hp, ← h, div_self hgap.ne']; ring
  have hF0 : F rMin = if rMin < (sorted.head hne).1 then 0 else (sorted.head hne).2 := by
    split_ifs with h
    · exact hFlow rMin (by rw [h0']; exact h)
    · rw [hnode rMin 0 hlen (by rw [h0']; exact le_antisymm hlo (not_lt.1 h)), hy0]
  have hF1 : F rMax = 1 := by
    have hlastv : ys.getD (sorted.length - 1) 0 = 1 := by
      rw [hyget _ (by omega), Nat.sub_add_cancel hlen, ← hwl, List.take_length]
      exact hw1
    have hlc : cs.getD (sorted.length - 1) 0 = (sorted.getLast hne).1 := by
      rw [hcget _ (by omega), List.getLast_eq_getElem]
    have hle : 1 ≤ F rMax := by
      have := hFmono (sorted.getLast hne).1 rMax hhi le_rfl
      rw [hnode _ (sorted.length - 1) (by omega) hlc.symm, hlastv] at this
      exact this
    obtain ⟨j, j1, j2, j3, j4⟩ := interp1d_spec cs ys rMax hn2 hcinc
      (by rw [h0']
          have : (sorted.head hne).1 ≤ (sorted.getLast hne).1 := by
            rw [← h0', ← hlc]
            rcases Nat.eq_zero_or_pos (sorted.length - 1) with h | h
            · rw [h]
            · exact (hcinc 0 _ h (by omega)).le
          linarith)
      (by rw [hcl, Nat.add_sub_cancel, hclast]; linarith)
    have hup : F rMax ≤ ys.getD (j + 1) 0 := by
      simp only [hF, j4, Option.getD_some]
      have hgap := sub_pos.2 (hcinc j (j + 1) (by omega) j1)
      have hyg := sub_nonneg.2 (hymono j (j + 1) (by omega) j1)
      have h2 : (rMax - cs.getD j 0) / (cs.getD (j + 1) 0 - cs.getD j 0) ≤ 1 := by
        rw [div_le_one hgap]; linarith
      have := mul_le_mul_of_nonneg_right h2 hyg
      linarith
    have hle1 : ys.getD (j + 1) 0 ≤ 1 := by
      rw [← hylast]; exact hymono (j + 1) sorted.length (by omega) (by omega)
    linarith
  refine ⟨linspace rMin rMax res, npGradient (fun i => F (linspace rMin rMax res i))
    (linspace rMin rMax res 1 - linspace rMin rMax res 0) res, ?_, hps0, hpsl, hstep, ?_, ?_⟩
  · unfold posteriorMarginal
    dsimp only
    rw [hmin', hmax', if_neg (by omega)]
    rfl
  · intro i hi
    have hle : ∀ a b : Nat, a ≤ b → b ≤ res - 1 → F (linspace rMin rMax res a) ≤ F (linspace rMin rMax res b) := by
      intro a b hab hb
      have hm : ∀ a b : Nat, a ≤ b → linspace rMin rMax res a ≤ linspace rMin rMax res b := by
        intro a b hab
        have : (a : ℝ) ≤ b := by exact_mod_cast hab
        have := mul_le_mul_of_nonneg_right this hh.le
        simp only [linspace]; linarith
      exact hFmono _ _ (hm a b hab) ((hm _ _ hb).trans hpsl.le)
    have h2 : 0 < linspace rMin rMax res 1 - linspace rMin rMax res 0 := by
      have := hstep 0
      rw [zero_add] at this
      rw [this]; exact hh
    unfold npGradient
    split_ifs with h3 h4
    · exact div_nonneg (sub_nonneg.2 (hle 0 1 (by omega) (by omega))) h2.le
    · exact div_nonneg (sub_nonneg.2 (hle (res - 2) (res - 1) (by omega) (by omega))) h2.le
    · exact div_nonneg (sub_nonneg.2 (hle (i - 1) (i + 1) (by omega) (by omega))) (by linarith)
  · have h2 : linspace rMin rMax res 1 - linspace rMin rMax res 0 = (rMax - rMin) / ((res : ℝ) - 1) := hstep 0
    rw [h2]
    simp only [hstep]
    rw [gradient_mass _ _ hh.ne' res hres]
    rw [hpsl, hps0, hF0, hF1]

/-- C77: a resolution of one is an `IndexError`. -/
theorem C77_resolution (sorted : List (ℝ × ℝ)) (a b : Option ℝ) (res : Nat) (h : res < 2) :
    posteriorMarginal sorted a b res = .error .indexError := by
  unfold posteriorMarginal
  dsimp only
  rw [if_pos h]

/-- Case for C77: three particles. -/
example : let l : List (ℝ × ℝ) := [(0, 1/2), (1, 1/4), (3, 1/4)]
    l ≠ [] ∧ l.Pairwise (fun a b => a.1 < b.1) ∧ (l.map Prod.snd).sum = 1 := by
  refine ⟨by simp, by simp, ?_⟩
  norm_num

/-! ## C78 -/

section
variable {n : Nat} (pdf : ℝ → ℝ → ℝ) (w x y : Fin n → ℝ) (xs ys : Nat → ℝ)

/-- C78: the returned mesh has the grid of the first parameter along rows and that of the second along
columns. -/
theorem C78_mesh (res1 res2 i j : Nat) :
    (posteriorMesh pdf w x y xs ys res1 res2 i j).1 = xs j ∧
    (posteriorMesh pdf w x y xs ys res1 res2 i j).2.1 = ys i := ⟨rfl, rfl⟩

/-- C78: the values are those of the density at the points of the grid, listed with the second parameter
varying fastest: value number `a res2 + b` in reading order belongs to the point `(xs a, ys b)`.  Together
they cover the grid, but the value next to a mesh point is that of another mesh point, see
`C78_transposed` and `C78_misplaced`. -/
theorem C78_values_partial (res1 res2 : Nat) (a b : Nat) (hb : b < res2) :
    (posteriorMesh pdf w x y xs ys res1 res2 ((a * res2 + b) / res1) ((a * res2 + b) % res1)).2.2 =
      ∑ i, pdf (xs a) (x i) * pdf (ys b) (y i) * w i := by
  have e : (a * res2 + b) / res1 * res1 + (a * res2 + b) % res1 = a * res2 + b := by
    rw [mul_comm]; exact Nat.div_add_mod _ _
  have e1 : (a * res2 + b) / res2 = a := by
    rw [mul_comm, Nat.mul_add_div (by omega), Nat.div_eq_of_lt hb, add_zero]
  have e2 : (a * res2 + b) % res2 = b := by
    rw [mul_comm, Nat.mul_add_mod, Nat.mod_eq_of_lt hb]
  simp only [posteriorMesh, e, e1, e2, meshDensity]

/-- C78, finding: on a square mesh the value at row `i` and column `j` is the density at `(xs i, ys j)`,
while the mesh point there is `(xs j, ys i)`: the values are transposed. -/
theorem C78_transposed (res i j : Nat) (hj : j < res) :
    (posteriorMesh pdf w x y xs ys res res i j).2.2 = ∑ k, pdf (xs i) (x k) * pdf (ys j) (y k) * w k := by
  have := C78_values_partial pdf w x y xs ys res res i j hj
  have e1 : (i * res + j) / res = i := by
    rw [mul_comm, Nat.mul_add_div (by omega), Nat.div_eq_of_lt hj, add_zero]
  have e2 : (i * res + j) % res = j := by
    rw [mul_comm, Nat.mul_add_mod, Nat.mod_eq_of_lt hj]
  rwa [e1, e2] at this

end

/-- C78, finding: a cloud for which the value beside a mesh point is not the density there: all weight at
`(0, 0)`, the grids `0, 1` and `0, 2`, any normal kernel. -/
theorem C78_misplaced (v : NNReal) (hv : v ≠ 0) :
    let pdf : ℝ → ℝ → ℝ := fun p loc => gaussianPDFReal loc v p
    let m := posteriorMesh pdf (![1, 0] : Fin 2 → ℝ) ![0, 1] ![0, 2] (linspace 0 1 2) (linspace 0 2 2) 2 2 0 1
    m.1 = 1 ∧ m.2.1 = 0 ∧
      m.2.2 ≠ meshDensity pdf (![1, 0] : Fin 2 → ℝ) ![0, 1] ![0, 2] (m.1, m.2.1) := by
  intro pdf m
  have hm1 : m.1 = 1 := by norm_num [m, posteriorMesh, linspace]
  have hm2 : m.2.1 = 0 := by norm_num [m, posteriorMesh, linspace]
  refine ⟨hm1, hm2, ?_⟩
  rw [hm1, hm2]
  have e : m.2.2 = pdf 0 0 * pdf 2 0 := by
    have := C78_transposed pdf (![1, 0] : Fin 2 → ℝ) ![0, 1] ![0, 2] (linspace 0 1 2) (linspace 0 2 2) 2 0 1
      (by omega)
    change m.2.2 = _ at this
    rw [this]
    norm_num [linspace, Fin.sum_univ_two]
  have e2 : meshDensity pdf (![1, 0] : Fin 2 → ℝ) ![0, 1] ![0, 2] (1, 0) = pdf 1 0 * pdf 0 0 := by
    simp [meshDensity, Fin.sum_univ_two]
  rw [e, e2, mul_comm (pdf 1 0)]
  intro h
  have hp : 0 < pdf 0 0 := gaussianPDFReal_pos _ _ _ hv
  have h2 : pdf 2 0 = pdf 1 0 := mul_left_cancel₀ hp.ne' h
  have h3 : (Real.sqrt (2 * Real.pi * v))⁻¹ * Real.exp (-(2 - 0 : ℝ) ^ 2 / (2 * v)) =
      (Real.sqrt (2 * Real.pi * v))⁻¹ * Real.exp (-(1 - 0 : ℝ) ^ 2 / (2 * v)) := h2
  have hv' : (0 : ℝ) < v := lt_of_le_of_ne v.2 (by intro h; apply hv; ext; exact h.symm)
  have hsq : (Real.sqrt (2 * Real.pi * v))⁻¹ ≠ 0 := by
    have : 0 < Real.sqrt (2 * Real.pi * v) := Real.sqrt_pos.2 (by positivity)
    exact (inv_pos.2 this).ne'
  have h4 := Real.exp_injective (mul_left_cancel₀ hsq h3)
  field_simp at h4
  norm_num at h4

end QInfer
