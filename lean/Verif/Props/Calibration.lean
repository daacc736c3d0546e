import Verif.Props.Consistency
import Verif.Props.Particle

/-!
# C92: reported uncertainties are honest

The truth is drawn from the cloud by its weights, the outcomes from the truth, the experiments are
chosen by any heuristic.
-/

namespace QInfer

variable {K O E ω : Type}
variable [Field K] [LinearOrder K] [IsStrictOrderedRing K]

open Classical in
/-- Mean of a quantity `g i os u` of the position `i` of the truth in the cloud, the outcomes `os` and
the updater `u` at the end, over truths and outcomes.  Runs that raise or resample count as zero. -/
noncomputable def Spec.meanOverTruths [Fintype O] (cfg : SmcConfig K) (env : Env K O E ω)
    (heur : Smc K O ω → E) (s : Smc K O ω) (n : Nat) (g : Nat → List O → Smc K O ω → K) : K :=
  ∑ i ∈ Finset.range s.weights.length, s.weights.getD i 0 *
    ∑ v : Fin n → O, if Undisturbed cfg env heur (List.ofFn v) s then
      dataLike env.likelihood (adapt cfg env heur (List.ofFn v) s).1 (s.locs.getD i []) *
        g i (List.ofFn v) (adapt cfg env heur (List.ofFn v) s).2.1
    else 0

/-- Bias and variance. -/
theorem sq_decomp (n : Nat) (w x : Nat → K) (c : K) (h1 : ∑ i ∈ Finset.range n, w i = 1) :
    ∑ i ∈ Finset.range n, w i * (c - x i) ^ 2 =
      (c - ∑ i ∈ Finset.range n, w i * x i) ^ 2 +
        ((∑ i ∈ Finset.range n, w i * (x i * x i)) -
          (∑ i ∈ Finset.range n, w i * x i) * ∑ i ∈ Finset.range n, w i * x i) := by
  have : ∀ i, w i * (c - x i) ^ 2 = c ^ 2 * w i - 2 * c * (w i * x i) + w i * (x i * x i) := by
    intro i; ring
  simp_rw [this]
  rw [Finset.sum_add_distrib, Finset.sum_sub_distrib, ← Finset.mul_sum, ← Finset.mul_sum, h1]
  ring

open Classical in
/-- Weight of the particles in the credible region. -/
theorem credRegion_weight (u : Smc K O ω) (hw : WInv u) (sort : List K → List Nat)
    (hperm : ∀ w, (sort w).Perm (List.range w.length))
    (hsort : ∀ w, ((sort w).filterMap fun i => w[i]?).Pairwise (· ≥ ·))
    (level : K) (hl0 : 0 ≤ level) (hl1 : level < 1) :
    ∑ i ∈ Finset.range u.weights.length, u.weights.getD i 0 * level ≤
      ∑ i ∈ Finset.range u.weights.length, u.weights.getD i 0 *
        (if ∃ inside outside, credRegion u.weights u.locs (sort u.weights) level =
          .ok (inside, outside) ∧ u.locs.getD i [] ∈ inside then 1 else 0) := by
  have h1 : ∑ i ∈ Finset.range u.weights.length, u.weights.getD i 0 = 1 := by
    rw [← zip_map_sum (fun a (_ : List K) => a) _ _ 0 [] hw.2]
    have : (u.weights.zip u.locs).map (fun p => p.1) = u.weights := List.map_fst_zip (by rw [hw.2])
    rw [this, hw.1.2]
  obtain ⟨I, J, inside, outside, hcr, hIJ, hin, -, hlev, -⟩ := C16_credible_region u.weights u.locs
    hw.2 hw.1.1 (sort u.weights) (hperm _) (hsort _) level hl0 (by rw [hw.1.2]; exact hl1)
  rw [← Finset.sum_mul, h1, one_mul]
  have hwn : ∀ i, 0 ≤ u.weights.getD i 0 := by
    intro i
    rcases lt_or_ge i u.weights.length with h | h
    · rw [List.getD_eq_getElem _ _ h]; exact hw.1.1 _ (List.getElem_mem h)
    · rw [List.getD_eq_default _ _ h]
  have hnd : I.Nodup := (List.nodup_append.1 (hIJ.nodup_iff.2 List.nodup_range)).1
  have hmemI : ∀ i ∈ I, i < u.weights.length ∧ u.locs.getD i [] ∈ inside := by
    intro i hi
    have h2 : i < u.weights.length := by
      have := hIJ.mem_iff.1 (List.mem_append_left J hi)
      simpa using this
    refine ⟨h2, ?_⟩
    have h3 : u.locs[i]? ∈ I.map fun i => u.locs[i]? := List.mem_map_of_mem hi
    rw [← hin] at h3
    obtain ⟨y, hy, hy'⟩ := List.mem_map.1 h3
    rw [List.getD_eq_getElem?_getD, ← hy']
    exact hy
  refine le_trans hlev.le ?_
  rw [← List.sum_toFinset _ hnd]
  have hsub : I.toFinset ⊆ Finset.range u.weights.length := fun i hi =>
    Finset.mem_range.2 (hmemI i (List.mem_toFinset.1 hi)).1
  refine le_trans (le_of_eq ?_) (Finset.sum_le_sum_of_subset_of_nonneg hsub fun i _ _ =>
    mul_nonneg (hwn i) (by split_ifs <;> norm_num))
  refine Finset.sum_congr rfl fun i hi => ?_
  rw [if_pos ⟨inside, outside, hcr, (hmemI i (List.mem_toFinset.1 hi)).2⟩, mul_one]

section
variable [Fintype O] (cfg : SmcConfig K) (env : Env K O E ω) (hg : GoodEnv env) (hst : Static env)
  (hp : cfg.policy = "error") (ht : eps ≤ cfg.zeroThresh) (ht1 : cfg.zeroThresh < 1)
  (heur : Smc K O ω → E) (s : Smc K O ω) (hs : WInv s)
include hg hst hp ht ht1 hs

open Classical in
/-- Given the outcomes, the truth is distributed as the weights of the updater. -/
theorem meanOverTruths_posterior (n : Nat) (g : Nat → List O → Smc K O ω → K) :
    Spec.meanOverTruths cfg env heur s n g =
      ∑ v : Fin n → O, if Undisturbed cfg env heur (List.ofFn v) s then
        dataEvidence env.likelihood s.weights s.locs (adapt cfg env heur (List.ofFn v) s).1 *
          ∑ i ∈ Finset.range s.weights.length,
            (adapt cfg env heur (List.ofFn v) s).2.1.weights.getD i 0 *
              g i (List.ofFn v) (adapt cfg env heur (List.ofFn v) s).2.1
      else 0 := by
  unfold Spec.meanOverTruths
  simp_rw [Finset.mul_sum]
  rw [Finset.sum_comm]
  refine Finset.sum_congr rfl fun v _ => ?_
  by_cases hu : Undisturbed cfg env heur (List.ofFn v) s
  · simp only [if_pos hu]
    obtain ⟨-, -, hw⟩ := undisturbed_state cfg env hg hst hp ht ht1 heur _ s hs hu
    have hev := (undisturbed_evidence cfg env hg hst hp ht ht1 heur _ s hs hu).ne'
    rw [hw]
    refine Finset.sum_congr rfl fun i _ => ?_
    rw [dataPosterior_getD _ _ _ hs.2]
    field_simp
  · simp [hu]

/-- Comparison of two quantities run by run. -/
theorem meanOverTruths_le (n : Nat) (g g' : Nat → List O → Smc K O ω → K)
    (h : ∀ os, Undisturbed cfg env heur os s →
      let u := (adapt cfg env heur os s).2.1
      ∑ i ∈ Finset.range s.weights.length, u.weights.getD i 0 * g i os u ≤
        ∑ i ∈ Finset.range s.weights.length, u.weights.getD i 0 * g' i os u) :
    Spec.meanOverTruths cfg env heur s n g ≤ Spec.meanOverTruths cfg env heur s n g' := by
  classical
  rw [meanOverTruths_posterior cfg env hg hst hp ht ht1 heur s hs,
    meanOverTruths_posterior cfg env hg hst hp ht ht1 heur s hs]
  refine Finset.sum_le_sum fun v _ => ?_
  split_ifs with hu
  · exact mul_le_mul_of_nonneg_left (h _ hu)
      (undisturbed_evidence cfg env hg hst hp ht ht1 heur _ s hs hu).le
  · exact le_rfl

/-- What an undisturbed run leaves. -/
theorem undisturbed_facts (os : List O) (hu : Undisturbed cfg env heur os s) :
    let u := (adapt cfg env heur os s).2.1
    u.locs = s.locs ∧ u.weights.length = s.weights.length ∧ WInv u ∧
      ∑ i ∈ Finset.range s.weights.length, u.weights.getD i 0 = 1 := by
  obtain ⟨hw, hlocs, -⟩ := undisturbed_state cfg env hg hst hp ht ht1 heur os s hs hu
  have hlen : (adapt cfg env heur os s).2.1.weights.length = s.weights.length := by
    rw [← hw.2, hlocs, hs.2]
  refine ⟨hlocs, hlen, hw, ?_⟩
  rw [← hlen, ← zip_map_sum (fun a (_ : List K) => a) _ _ 0 [] hw.2]
  have : ((adapt cfg env heur os s).2.1.weights.zip (adapt cfg env heur os s).2.1.locs).map
      (fun p => p.1) = (adapt cfg env heur os s).2.1.weights := List.map_fst_zip (by rw [hw.2])
  rw [this, hw.1.2]

/-- The reported mean and variance as sums over positions. -/
theorem undisturbed_moments (d k : Nat) (hk : k < d) (os : List O)
    (hu : Undisturbed cfg env heur os s) :
    let u := (adapt cfg env heur os s).2.1
    let x := fun i => (s.locs.getD i []).getD k 0
    (smcMean d u.weights u.locs).getD k 0 =
        ∑ i ∈ Finset.range s.weights.length, u.weights.getD i 0 * x i ∧
    ((smcCov d u.weights u.locs).getD k []).getD k 0 =
      (∑ i ∈ Finset.range s.weights.length, u.weights.getD i 0 * (x i * x i)) -
        (∑ i ∈ Finset.range s.weights.length, u.weights.getD i 0 * x i) *
        ∑ i ∈ Finset.range s.weights.length, u.weights.getD i 0 * x i := by
  obtain ⟨hlocs, hlen, hw, -⟩ := undisturbed_facts cfg env hg hst hp ht ht1 heur s hs os hu
  dsimp only
  constructor
  · rw [smcMean_getD d _ _ k hk,
      zip_map_sum (fun a (x : List K) => a * x.getD k 0) _ _ 0 [] hw.2, hlen, hlocs]
  · rw [smcCov_getD d _ _ k k hk hk,
      zip_map_sum (fun a (x : List K) => a * x.getD k 0) _ _ 0 [] hw.2,
      zip_map_sum (fun a (x : List K) => a * (x.getD k 0 * x.getD k 0)) _ _ 0 [] hw.2, hlen, hlocs]

/-- **C92, error bars.**  The mean squared error of `est_mean`, over truths and outcomes, equals the
mean of the variance that `est_covariance_mtx` reports, for every parameter, number of experiments
and heuristic. -/
theorem C92_error_bars (d k : Nat) (hk : k < d) (n : Nat) :
    Spec.meanOverTruths cfg env heur s n
        (fun i _ u => ((smcMean d u.weights u.locs).getD k 0 - (s.locs.getD i []).getD k 0) ^ 2) =
      Spec.meanOverTruths cfg env heur s n
        (fun _ _ u => ((smcCov d u.weights u.locs).getD k []).getD k 0) := by
  refine le_antisymm ?_ ?_ <;>
    refine meanOverTruths_le cfg env hg hst hp ht ht1 heur s hs n _ _ fun os hu => le_of_eq ?_ <;>
    (obtain ⟨-, -, -, h1⟩ := undisturbed_facts cfg env hg hst hp ht ht1 heur s hs os hu
     obtain ⟨hm, hv⟩ := undisturbed_moments cfg env hg hst hp ht ht1 heur s hs d k hk os hu
     dsimp only at h1 hm hv ⊢
     rw [sq_decomp _ _ _ _ h1, ← Finset.sum_mul, h1, hv, hm]
     ring)

/-- **C92, optimality.**  No estimator, whatever it makes of the outcomes, has a smaller mean squared
error than `est_mean`. -/
theorem C92_optimal (d k : Nat) (hk : k < d) (n : Nat) (f : List O → K) :
    Spec.meanOverTruths cfg env heur s n
        (fun i _ u => ((smcMean d u.weights u.locs).getD k 0 - (s.locs.getD i []).getD k 0) ^ 2) ≤
      Spec.meanOverTruths cfg env heur s n
        (fun i os _ => (f os - (s.locs.getD i []).getD k 0) ^ 2) := by
  refine meanOverTruths_le cfg env hg hst hp ht ht1 heur s hs n _ _ fun os hu => ?_
  obtain ⟨-, -, -, h1⟩ := undisturbed_facts cfg env hg hst hp ht ht1 heur s hs os hu
  obtain ⟨hm, hv⟩ := undisturbed_moments cfg env hg hst hp ht ht1 heur s hs d k hk os hu
  dsimp only at h1 hm hv ⊢
  rw [sq_decomp _ _ _ _ h1,
    sq_decomp _ _ _ _ h1, ← hm, sub_self]
  have := sq_nonneg (f os - (smcMean d (adapt cfg env heur os s).2.1.weights
    (adapt cfg env heur os s).2.1.locs).getD k 0)
  linarith

/-- **C92, no bias.**  The mean of `est_mean` over truths and outcomes is the mean of the truths. -/
theorem C92_unbiased (d k : Nat) (hk : k < d) (n : Nat) :
    Spec.meanOverTruths cfg env heur s n (fun _ _ u => (smcMean d u.weights u.locs).getD k 0) =
      Spec.meanOverTruths cfg env heur s n (fun i _ _ => (s.locs.getD i []).getD k 0) := by
  refine le_antisymm ?_ ?_ <;>
    refine meanOverTruths_le cfg env hg hst hp ht ht1 heur s hs n _ _ fun os hu => le_of_eq ?_ <;>
    (obtain ⟨-, -, -, h1⟩ := undisturbed_facts cfg env hg hst hp ht ht1 heur s hs os hu
     obtain ⟨hm, -⟩ := undisturbed_moments cfg env hg hst hp ht ht1 heur s hs d k hk os hu
     dsimp only at h1 hm ⊢
     rw [← Finset.sum_mul, h1, hm, one_mul])

open Classical in
/-- **C92, coverage.**  The credible region at a level contains the truth with at least that
probability over truths and outcomes.  `sort` is the order in which `est_credible_region` goes through
the particles: any order from heavy to light. -/
theorem C92_coverage (sort : List K → List Nat)
    (hperm : ∀ w, (sort w).Perm (List.range w.length))
    (hsort : ∀ w, ((sort w).filterMap fun i => w[i]?).Pairwise (· ≥ ·))
    (level : K) (hl0 : 0 ≤ level) (hl1 : level < 1) (n : Nat) :
    level * Spec.meanOverTruths cfg env heur s n (fun _ _ _ => 1) ≤
      Spec.meanOverTruths cfg env heur s n (fun i _ u =>
        if ∃ inside outside, credRegion u.weights u.locs (sort u.weights) level =
          .ok (inside, outside) ∧ s.locs.getD i [] ∈ inside then 1 else 0) := by
  have e : level * Spec.meanOverTruths cfg env heur s n (fun _ _ _ => 1) =
      Spec.meanOverTruths cfg env heur s n (fun _ _ _ => level) := by
    unfold Spec.meanOverTruths
    rw [Finset.mul_sum]
    refine Finset.sum_congr rfl fun i _ => ?_
    rw [mul_left_comm, Finset.mul_sum]
    congr 1
    refine Finset.sum_congr rfl fun v _ => ?_
    split_ifs <;> ring
  rw [e]
  refine meanOverTruths_le cfg env hg hst hp ht ht1 heur s hs n _ _ fun os hu => ?_
  obtain ⟨hlocs, hlen, hw, h1⟩ := undisturbed_facts cfg env hg hst hp ht ht1 heur s hs os hu
  dsimp only at hlocs hlen hw h1 ⊢
  rw [← hlen, ← hlocs]
  exact credRegion_weight _ hw sort hperm hsort level hl0 hl1

/-- **C92, total.**  With resampling switched off and likelihoods that add up to one and never fall
below machine precision, the means are over all truths and outcomes: the mean of one is one. -/
theorem C92_total (hr : cfg.resampleThresh = 0)
    (hL : ∀ o, ∀ x ∈ s.locs, ∀ e, eps ≤ env.likelihood o x e)
    (hL1 : ∀ x ∈ s.locs, ∀ e, ∑ o, env.likelihood o x e = 1) (n : Nat) :
    Spec.meanOverTruths cfg env heur s n (fun _ _ _ => 1) = 1 := by
  have hund := C91_always_undisturbed cfg env hg hst hp ht ht1 heur s hs hr hL
  unfold Spec.meanOverTruths
  have hw1 : ∑ i ∈ Finset.range s.weights.length, s.weights.getD i 0 = 1 := by
    have := (undisturbed_facts cfg env hg hst hp ht ht1 heur s hs [] ⟨rfl, rfl⟩).2.2.2
    exact this
  refine Eq.trans (Finset.sum_congr rfl fun i hi => ?_) hw1
  have hx : s.locs.getD i [] ∈ s.locs := by
    rw [List.getD_eq_getElem _ _ (by rw [hs.2]; exact Finset.mem_range.1 hi)]
    exact List.getElem_mem _
  have := total_run cfg env heur (s.locs.getD i []) (hL1 _ hx) n s fun os => (hund os).1
  simp only [if_pos (hund _), mul_one]
  rw [this, mul_one]

end

/-- Case for C92: the two coins of C91, any number of tosses. -/
example (n : Nat) : Spec.meanOverTruths ⟨0, "error", eps, false⟩ twoCoins (fun _ => ())
    twoCoinsStart n (fun _ _ _ => 1) = 1 :=
  C92_total _ twoCoins twoCoins_good (fun _ _ _ => rfl) rfl le_rfl
    (lt_of_le_of_lt eps_real_le (by norm_num)) _ twoCoinsStart twoCoinsStart_winv rfl
    (fun o x _ e => twoCoins_eps o x e) (fun x _ e => twoCoins_sum x e) n

end QInfer
