import Verif.Lemmas.Adapt
import Mathlib.Analysis.SpecialFunctions.Pow.Real
import Mathlib.Analysis.SpecificLimits.Basic

/-!
# C91: adaptive inference converges to the truth

If the true parameters are among the particles, the expected posterior weight of every other particle
falls exponentially with the number of experiments, however the experiments are chosen.
-/

namespace QInfer

open Filter Topology

variable {O E ω : Type}

/-- Overlap of two particles under an experiment: the sum over the outcomes of the geometric mean of
their likelihoods. -/
noncomputable def Spec.affinity [Fintype O] (like : O → List ℝ → E → ℝ) (x y : List ℝ) (e : E) : ℝ :=
  ∑ o, Real.sqrt (like o x e * like o y e)

open Classical in
/-- Mean, over the outcomes that parameters `x` produce in `n` experiments chosen by `heur`, of a
quantity `g` of the updater at the end; runs that raise or resample count as zero. -/
noncomputable def Spec.meanUnder [Fintype O] (cfg : SmcConfig ℝ) (env : Env ℝ O E ω)
    (heur : Smc ℝ O ω → E) (s : Smc ℝ O ω) (n : Nat) (x : List ℝ) (g : Smc ℝ O ω → ℝ) : ℝ :=
  ∑ v : Fin n → O, if Undisturbed cfg env heur (List.ofFn v) s then
    dataLike env.likelihood (adapt cfg env heur (List.ofFn v) s).1 x *
      g (adapt cfg env heur (List.ofFn v) s).2.1
  else 0

/-- **C91, overlaps.**  The overlap of two particles is at most one, and it is less than one if some
outcome has different likelihoods. -/
theorem C91_affinity [Fintype O] (like : O → List ℝ → E → ℝ) (x y : List ℝ) (e : E)
    (h0 : ∀ o z, 0 ≤ like o z e) (hx : ∑ o, like o x e = 1) (hy : ∑ o, like o y e = 1) :
    Spec.affinity like x y e ≤ 1 ∧
      ((∃ o, like o x e ≠ like o y e) → Spec.affinity like x y e < 1) := by
  have key : 2 * Spec.affinity like x y e =
      2 - ∑ o, (Real.sqrt (like o x e) - Real.sqrt (like o y e)) ^ 2 := by
    have : ∀ o, (Real.sqrt (like o x e) - Real.sqrt (like o y e)) ^ 2 =
        like o x e + like o y e - 2 * Real.sqrt (like o x e * like o y e) := by
      intro o
      rw [Real.sqrt_mul (h0 o x), sub_sq, Real.sq_sqrt (h0 o x), Real.sq_sqrt (h0 o y)]
      ring
    simp_rw [this]
    rw [Finset.sum_sub_distrib, Finset.sum_add_distrib, hx, hy, ← Finset.mul_sum]
    unfold Spec.affinity
    ring
  have hnn : 0 ≤ ∑ o, (Real.sqrt (like o x e) - Real.sqrt (like o y e)) ^ 2 :=
    Finset.sum_nonneg fun o _ => sq_nonneg _
  refine ⟨by linarith, fun ⟨o, ho⟩ => ?_⟩
  have : 0 < ∑ o, (Real.sqrt (like o x e) - Real.sqrt (like o y e)) ^ 2 := by
    refine Finset.sum_pos' (fun o _ => sq_nonneg _) ⟨o, Finset.mem_univ o, ?_⟩
    have : Real.sqrt (like o x e) ≠ Real.sqrt (like o y e) := fun h =>
      ho ((Real.sqrt_inj (h0 o x) (h0 o y)).1 h)
    have := sub_ne_zero.2 this
    positivity
  linarith

theorem dataLike_good_nonneg {K : Type} [Field K] [LinearOrder K] [IsStrictOrderedRing K]
    (env : Env K O E ω) (hg : GoodEnv env) (ds : List (O × E)) (x : List K) :
    0 ≤ dataLike env.likelihood ds x := by
  refine List.prod_nonneg fun y hy => ?_
  obtain ⟨d, -, rfl⟩ := List.mem_map.1 hy
  exact hg.like_nonneg _ _ _

open Classical in
/-- Along an adaptive run the overlaps multiply. -/
theorem affinity_run [Fintype O] (cfg : SmcConfig ℝ) (env : Env ℝ O E ω) (hg : GoodEnv env)
    (heur : Smc ℝ O ω → E) (x y : List ℝ) (ρ : ℝ)
    (hρ : ∀ s, Spec.affinity env.likelihood x y (heur s) ≤ ρ) (n : Nat) (s : Smc ℝ O ω) :
    ∑ v : Fin n → O, (if (adapt cfg env heur (List.ofFn v) s).2.2 = .ok () then
      Real.sqrt (dataLike env.likelihood (adapt cfg env heur (List.ofFn v) s).1 x *
        dataLike env.likelihood (adapt cfg env heur (List.ofFn v) s).1 y) else 0) ≤ ρ ^ n := by
  have hρ0 : 0 ≤ ρ := le_trans (Finset.sum_nonneg fun o _ => Real.sqrt_nonneg _) (hρ s)
  induction n generalizing s with
  | zero => simp [adapt, dataLike]
  | succ n ih =>
    rw [sum_fin_succ n fun os => if (adapt cfg env heur os s).2.2 = .ok () then
      Real.sqrt (dataLike env.likelihood (adapt cfg env heur os s).1 x *
        dataLike env.likelihood (adapt cfg env heur os s).1 y) else 0]
    have step : ∀ o : O, ∑ v : Fin n → O,
        (if (adapt cfg env heur (o :: List.ofFn v) s).2.2 = .ok () then
          Real.sqrt (dataLike env.likelihood (adapt cfg env heur (o :: List.ofFn v) s).1 x *
            dataLike env.likelihood (adapt cfg env heur (o :: List.ofFn v) s).1 y) else 0) ≤
        Real.sqrt (env.likelihood o x (heur s) * env.likelihood o y (heur s)) * ρ ^ n := by
      intro o
      rcases h : update cfg env s o (heur s) true with ⟨s', err | ⟨⟨⟩⟩⟩
      · simp only [adapt, h]
        simp only [reduceCtorEq, if_false, Finset.sum_const_zero]
        positivity
      · refine le_trans (le_of_eq ?_) (mul_le_mul_of_nonneg_left (ih s')
          (Real.sqrt_nonneg (env.likelihood o x (heur s) * env.likelihood o y (heur s))))
        rw [Finset.mul_sum]
        refine Finset.sum_congr rfl fun v _ => ?_
        simp only [adapt, h]
        split_ifs
        · rw [← Real.sqrt_mul (mul_nonneg (hg.like_nonneg _ _ _) (hg.like_nonneg _ _ _))]
          congr 1
          simp only [dataLike, List.map_cons, List.prod_cons]
          ring
        · ring
    calc _ ≤ ∑ o, Real.sqrt (env.likelihood o x (heur s) * env.likelihood o y (heur s)) * ρ ^ n :=
          Finset.sum_le_sum fun o _ => step o
      _ = Spec.affinity env.likelihood x y (heur s) * ρ ^ n := by
          rw [← Finset.sum_mul]; rfl
      _ ≤ ρ * ρ ^ n := mul_le_mul_of_nonneg_right (hρ s) (by positivity)
      _ = ρ ^ (n + 1) := by ring

/-- `a b / (a + b) ≤ √(a b) / 2`. -/
theorem harmonic_le_geometric (a b c : ℝ) (ha : 0 ≤ a) (hb : 0 ≤ b) (hc : 0 < c) (h : a + b ≤ c) :
    a * b / c ≤ Real.sqrt (a * b) / 2 := by
  rw [div_le_div_iff₀ hc two_pos]
  have h1 : 2 * Real.sqrt (a * b) ≤ a + b := by
    rw [Real.sqrt_mul ha]
    nlinarith [sq_nonneg (Real.sqrt a - Real.sqrt b), Real.sq_sqrt ha, Real.sq_sqrt hb]
  have h2 : a * b = Real.sqrt (a * b) * Real.sqrt (a * b) :=
    (Real.mul_self_sqrt (mul_nonneg ha hb)).symm
  have h3 := Real.sqrt_nonneg (a * b)
  nlinarith

section
variable {K : Type} [Field K] [LinearOrder K] [IsStrictOrderedRing K]

open Classical in
/-- The probabilities of all runs add up to one if none fails. -/
theorem total_run [Fintype O] (cfg : SmcConfig K) (env : Env K O E ω) (heur : Smc K O ω → E)
    (x : List K) (h1 : ∀ e, ∑ o, env.likelihood o x e = 1) (n : Nat) (s : Smc K O ω)
    (hok : ∀ os, (adapt cfg env heur os s).2.2 = .ok ()) :
    ∑ v : Fin n → O, dataLike env.likelihood (adapt cfg env heur (List.ofFn v) s).1 x = 1 := by
  induction n generalizing s with
  | zero => simp [adapt, dataLike]
  | succ n ih =>
    rw [sum_fin_succ n fun os => dataLike env.likelihood (adapt cfg env heur os s).1 x, ← h1 (heur s)]
    refine Finset.sum_congr rfl fun o _ => ?_
    rcases h : update cfg env s o (heur s) true with ⟨s', err | ⟨⟨⟩⟩⟩
    · have := hok [o]
      simp [adapt, h] at this
    · have hok' : ∀ os, (adapt cfg env heur os s').2.2 = .ok () := by
        intro os
        have := hok (o :: os)
        simpa only [adapt, h] using this
      have := ih s' hok'
      calc _ = ∑ v : Fin n → O, env.likelihood o x (heur s) *
            dataLike env.likelihood (adapt cfg env heur (List.ofFn v) s').1 x := by
            refine Finset.sum_congr rfl fun v _ => ?_
            simp only [adapt, h, dataLike, List.map_cons, List.prod_cons]
        _ = _ := by rw [← Finset.mul_sum, this, mul_one]

variable (cfg : SmcConfig K) (env : Env K O E ω) (hg : GoodEnv env) (hst : Static env)
  (hp : cfg.policy = "error") (ht : eps ≤ cfg.zeroThresh) (ht1 : cfg.zeroThresh < 1)
  (heur : Smc K O ω → E) (s : Smc K O ω) (hs : WInv s)
include hg hst hp ht ht1 hs

/-- **C91, undisturbed runs.**  If resampling is switched off and no particle gives an outcome a
likelihood below machine precision, every run is undisturbed. -/
theorem C91_always_undisturbed (hr : cfg.resampleThresh = 0)
    (hL : ∀ o, ∀ x ∈ s.locs, ∀ e, eps ≤ env.likelihood o x e) (os : List O) :
    Undisturbed cfg env heur os s := by
  induction os generalizing s with
  | nil => exact ⟨rfl, rfl⟩
  | cons o os ih =>
    have hev : eps ≤ evidence env.likelihood s.weights s.locs o (heur s) := by
      have h1 : evidence env.likelihood s.weights s.locs o (heur s) ≥
          ((s.weights.zip s.locs).map fun p => p.1 * eps).sum := by
        refine List.sum_le_sum fun p hp => ?_
        exact mul_le_mul_of_nonneg_left (hL o _ (List.of_mem_zip hp).2 _)
          (hs.1.1 _ (List.of_mem_zip hp).1)
      refine le_trans (le_of_eq ?_) h1
      rw [zip_map_sum (fun a (_ : List K) => a * eps) _ _ 0 [] hs.2, ← Finset.sum_mul,
        ← zip_map_sum (fun a (_ : List K) => a) _ _ 0 [] hs.2]
      have : (s.weights.zip s.locs).map (fun p => p.1) = s.weights :=
        List.map_fst_zip (by rw [hs.2])
      rw [this, hs.1.2, one_mul]
    obtain ⟨h1, h2, h3, -, -, -, h7, -⟩ := datum_normal cfg env s o (heur s) hs.2 hs.1.1
      (fun x => hg.like_nonneg o x _) ht1 hev
    rw [hst] at h3
    have hw := update_winv cfg env hg (Or.inl hp) ht s hs o (heur s) true
    have hup : update cfg env s o (heur s) true =
        maybeResample cfg env (update cfg env s o (heur s) false).1 := by
      rcases update_split cfg env s o (heur s) with ⟨h, -⟩ | ⟨-, h | h⟩
      · exact h
      · rw [hp] at h; exact absurd h (by decide)
      · exact absurd h1 h
    have hc := maybeResample_count cfg env (update cfg env s o (heur s) false).1
    dsimp only at hc
    rw [← hup] at hc
    rcases hc with ⟨hc, -⟩ | ⟨-, hc1, -, -, hc4, -, hc6⟩
    · exfalso
      have hw1 : (update cfg env s o (heur s) false).1.weights.sum = 1 :=
        (update_winv cfg env hg (Or.inl hp) ht s hs o (heur s) false).1.2
      rw [hr, mul_zero, nEss_coe _ hw1, WithTop.coe_lt_coe] at hc
      have := sq_sum_pos _ hw1
      exact absurd hc (not_lt.2 (by positivity))
    · rcases hupd : update cfg env s o (heur s) true with ⟨s', res⟩
      rw [hupd] at hc1 hc4 hc6 hw
      obtain rfl : res = .ok () := hc6
      have hlocs : s'.locs = s.locs := by rw [hc4, h3]
      have := ih s' hw (by rw [hlocs]; exact hL)
      unfold Undisturbed at this ⊢
      simp only [adapt, hupd]
      exact ⟨this.1, by rw [this.2, hc1, h7]⟩

end

section
variable [Fintype O] (cfg : SmcConfig ℝ) (env : Env ℝ O E ω) (hg : GoodEnv env) (hst : Static env)
  (hp : cfg.policy = "error") (ht : eps ≤ cfg.zeroThresh) (ht1 : cfg.zeroThresh < 1)
  (heur : Smc ℝ O ω → E) (s : Smc ℝ O ω) (hs : WInv s)
include hg hst hp ht ht1 hs

/-- **C91, exponential convergence.**  Let particle `t` be the truth, with positive weight, and `ρ` a
bound on its overlap with particle `j` under every experiment that the heuristic may choose.  Then the
expected weight of particle `j` after `n` experiments is at most `½ √(w_j / w_t) ρⁿ`. -/
theorem C91_wrong_weight_decays (t j : Nat) (htj : t ≠ j) (htn : t < s.weights.length)
    (hwt : 0 < s.weights.getD t 0) (ρ : ℝ)
    (hρ : ∀ s', Spec.affinity env.likelihood (s.locs.getD t []) (s.locs.getD j []) (heur s') ≤ ρ)
    (n : Nat) :
    Spec.meanUnder cfg env heur s n (s.locs.getD t []) (fun u => u.weights.getD j 0) ≤
      Real.sqrt (s.weights.getD j 0 / s.weights.getD t 0) / 2 * ρ ^ n := by
  classical
  set xt := s.locs.getD t []
  set xj := s.locs.getD j []
  set wt := s.weights.getD t 0
  set wj := s.weights.getD j 0 with hwjd
  have hwn : ∀ i, 0 ≤ s.weights.getD i 0 := by
    intro i
    rcases lt_or_ge i s.weights.length with h | h
    · rw [List.getD_eq_getElem _ _ h]; exact hs.1.1 _ (List.getElem_mem h)
    · rw [List.getD_eq_default _ _ h]
  refine le_trans ?_ (mul_le_mul_of_nonneg_left
    (affinity_run cfg env hg heur xt xj ρ hρ n s) (by positivity : 0 ≤ Real.sqrt (wj / wt) / 2))
  rw [Finset.mul_sum]
  unfold Spec.meanUnder
  refine Finset.sum_le_sum fun v _ => ?_
  by_cases hu : Undisturbed cfg env heur (List.ofFn v) s
  · rw [if_pos hu, if_pos hu.1]
    obtain ⟨-, -, hw⟩ := undisturbed_state cfg env hg hst hp ht ht1 heur _ s hs hu
    have hev := undisturbed_evidence cfg env hg hst hp ht ht1 heur _ s hs hu
    set ds := (adapt cfg env heur (List.ofFn v) s).1
    dsimp only
    rw [hw, dataPosterior_getD _ _ _ hs.2]
    set ev := dataEvidence env.likelihood s.weights s.locs ds with hevd
    set Lt := dataLike env.likelihood ds xt
    have hLt : 0 ≤ Lt := dataLike_good_nonneg env hg ds xt
    have hLj : 0 ≤ dataLike env.likelihood ds xj := dataLike_good_nonneg env hg ds xj
    set Lj := dataLike env.likelihood ds xj with hLjd
    have hsum : wt * Lt + wj * Lj ≤ ev := by
      rw [hevd, dataEvidence_range _ _ _ hs.2]
      have hnn : ∀ i ∈ Finset.range s.weights.length,
          0 ≤ s.weights.getD i 0 * dataLike env.likelihood ds (s.locs.getD i []) :=
        fun i _ => mul_nonneg (hwn i) (dataLike_good_nonneg env hg ds _)
      rcases lt_or_ge j s.weights.length with hj | hj
      · rw [← Finset.sum_pair (f := fun i => s.weights.getD i 0 *
          dataLike env.likelihood ds (s.locs.getD i [])) htj]
        refine Finset.sum_le_sum_of_subset_of_nonneg ?_ fun i hi _ => hnn i hi
        intro i hi
        rcases Finset.mem_insert.1 hi with rfl | hi
        · exact Finset.mem_range.2 htn
        · rw [Finset.mem_singleton.1 hi]; exact Finset.mem_range.2 hj
      · have : wj = 0 := List.getD_eq_default _ _ hj
        rw [this, zero_mul, add_zero]
        exact Finset.single_le_sum (f := fun i => s.weights.getD i 0 *
          dataLike env.likelihood ds (s.locs.getD i [])) hnn (Finset.mem_range.2 htn)
    have h := harmonic_le_geometric (wt * Lt) (wj * Lj) ev (mul_nonneg hwt.le hLt)
      (mul_nonneg (hwn j) hLj) hev hsum
    have e1 : Lt * (wj * Lj / ev) = (wt * Lt * (wj * Lj) / ev) / wt := by
      field_simp
    have e2 : Real.sqrt (wj / wt) / 2 * Real.sqrt (Lt * Lj) =
        Real.sqrt (wt * Lt * (wj * Lj)) / 2 / wt := by
      have : wt * Lt * (wj * Lj) = wt ^ 2 * (wj / wt * (Lt * Lj)) := by field_simp
      rw [this, Real.sqrt_mul (sq_nonneg wt), Real.sqrt_sq hwt.le,
        Real.sqrt_mul (div_nonneg (hwn j) hwt.le)]
      have hne := hwt.ne'
      generalize Real.sqrt (wj / wt) = A
      generalize Real.sqrt (Lt * Lj) = B
      field_simp
    rw [e1, e2]
    exact div_le_div_of_nonneg_right h hwt.le
  · rw [if_neg hu]
    split_ifs <;> positivity

end

section
variable [Fintype O] (cfg : SmcConfig ℝ) (env : Env ℝ O E ω) (hg : GoodEnv env) (hst : Static env)
  (hp : cfg.policy = "error") (ht : eps ≤ cfg.zeroThresh) (ht1 : cfg.zeroThresh < 1)
  (heur : Smc ℝ O ω → E) (s : Smc ℝ O ω) (hs : WInv s)

/-- Means are linear and monotone. -/
theorem meanUnder_sum {ι : Type} (I : Finset ι) (x : List ℝ) (g : ι → Smc ℝ O ω → ℝ) (n : Nat) :
    Spec.meanUnder cfg env heur s n x (fun u => ∑ i ∈ I, g i u) =
      ∑ i ∈ I, Spec.meanUnder cfg env heur s n x (g i) := by
  classical
  unfold Spec.meanUnder
  rw [Finset.sum_comm]
  refine Finset.sum_congr rfl fun v _ => ?_
  split_ifs
  · rw [Finset.mul_sum]
  · simp

theorem meanUnder_mul (x : List ℝ) (g : Smc ℝ O ω → ℝ) (c : ℝ) (n : Nat) :
    Spec.meanUnder cfg env heur s n x (fun u => c * g u) =
      c * Spec.meanUnder cfg env heur s n x g := by
  classical
  unfold Spec.meanUnder
  rw [Finset.mul_sum]
  refine Finset.sum_congr rfl fun v _ => ?_
  split_ifs <;> ring

theorem meanUnder_le (hg : GoodEnv env) (x : List ℝ) (g g' : Smc ℝ O ω → ℝ) (n : Nat)
    (h : ∀ os, Undisturbed cfg env heur os s →
      g (adapt cfg env heur os s).2.1 ≤ g' (adapt cfg env heur os s).2.1) :
    Spec.meanUnder cfg env heur s n x g ≤ Spec.meanUnder cfg env heur s n x g' := by
  classical
  unfold Spec.meanUnder
  refine Finset.sum_le_sum fun v _ => ?_
  split_ifs with hu
  · exact mul_le_mul_of_nonneg_left (h _ hu) (dataLike_good_nonneg env hg _ _)
  · exact le_rfl

include hg hst hp ht ht1 hs

/-- Bound on the expected weight of all wrong particles together. -/
theorem wrong_weights (t : Nat) (htn : t < s.weights.length) (hwt : 0 < s.weights.getD t 0) (ρ : ℝ)
    (hρ : ∀ j ≠ t, ∀ s',
      Spec.affinity env.likelihood (s.locs.getD t []) (s.locs.getD j []) (heur s') ≤ ρ) (n : Nat) :
    ∑ j ∈ (Finset.range s.weights.length).erase t,
        Spec.meanUnder cfg env heur s n (s.locs.getD t []) (fun u => u.weights.getD j 0) ≤
      (∑ j ∈ (Finset.range s.weights.length).erase t,
        Real.sqrt (s.weights.getD j 0 / s.weights.getD t 0) / 2) * ρ ^ n := by
  rw [Finset.sum_mul]
  refine Finset.sum_le_sum fun j hj => ?_
  have hjt := (Finset.mem_erase.1 hj).1
  exact C91_wrong_weight_decays cfg env hg hst hp ht ht1 heur s hs t j (Ne.symm hjt) htn hwt ρ
    (hρ j hjt) n

/-- **C91, the estimate.**  The expected distance of the estimated mean from the true parameters, in
every component, falls as `ρⁿ`, with a constant that depends only on the cloud before the first
experiment. -/
theorem C91_estimate_converges (t : Nat) (htn : t < s.weights.length)
    (hwt : 0 < s.weights.getD t 0) (ρ : ℝ)
    (hρ : ∀ j ≠ t, ∀ s',
      Spec.affinity env.likelihood (s.locs.getD t []) (s.locs.getD j []) (heur s') ≤ ρ)
    (d k : Nat) (hk : k < d) (D : ℝ)
    (hD : ∀ j < s.weights.length, |(s.locs.getD j []).getD k 0 - (s.locs.getD t []).getD k 0| ≤ D)
    (n : Nat) :
    Spec.meanUnder cfg env heur s n (s.locs.getD t [])
        (fun u => |(smcMean d u.weights u.locs).getD k 0 - (s.locs.getD t []).getD k 0|) ≤
      D * ((∑ j ∈ (Finset.range s.weights.length).erase t,
        Real.sqrt (s.weights.getD j 0 / s.weights.getD t 0) / 2) * ρ ^ n) := by
  have hD0 : 0 ≤ D := le_trans (abs_nonneg _) (hD t htn)
  refine le_trans ?_ (mul_le_mul_of_nonneg_left
    (wrong_weights cfg env hg hst hp ht ht1 heur s hs t htn hwt ρ hρ n) hD0)
  rw [← meanUnder_sum, ← meanUnder_mul]
  refine meanUnder_le cfg env heur s hg _ _ _ n fun os hu => ?_
  obtain ⟨hw, hlocs, hpost⟩ := undisturbed_state cfg env hg hst hp ht ht1 heur os s hs hu
  set u := (adapt cfg env heur os s).2.1
  have hlen : u.weights.length = s.weights.length := by rw [← hw.2, hlocs, hs.2]
  have hwn : ∀ i, 0 ≤ u.weights.getD i 0 := by
    intro i
    rcases lt_or_ge i u.weights.length with h | h
    · rw [List.getD_eq_getElem _ _ h]; exact hw.1.1 _ (List.getElem_mem h)
    · rw [List.getD_eq_default _ _ h]
  have hone : ∑ i ∈ Finset.range s.weights.length, u.weights.getD i 0 = 1 := by
    rw [← hlen, ← zip_map_sum (fun a (_ : List ℝ) => a) _ _ 0 [] hw.2]
    have : (u.weights.zip u.locs).map (fun p => p.1) = u.weights :=
      List.map_fst_zip (by rw [hw.2])
    rw [this, hw.1.2]
  rw [smcMean_getD d _ _ k hk,
    zip_map_sum (fun a (x : List ℝ) => a * x.getD k 0) _ _ 0 [] hw.2, hlen, hlocs]
  have e1 : ∑ i ∈ Finset.range s.weights.length, u.weights.getD i 0 * (s.locs.getD i []).getD k 0 -
      (s.locs.getD t []).getD k 0 = ∑ i ∈ Finset.range s.weights.length,
        u.weights.getD i 0 * ((s.locs.getD i []).getD k 0 - (s.locs.getD t []).getD k 0) := by
    simp_rw [mul_sub]
    rw [Finset.sum_sub_distrib, ← Finset.sum_mul, hone, one_mul]
  rw [e1, ← Finset.add_sum_erase _ _ (Finset.mem_range.2 htn), sub_self, mul_zero, zero_add,
    Finset.mul_sum]
  refine le_trans (Finset.abs_sum_le_sum_abs _ _) (Finset.sum_le_sum fun i hi => ?_)
  rw [abs_mul, abs_of_nonneg (hwn i), mul_comm]
  exact mul_le_mul_of_nonneg_right
    (hD i (Finset.mem_range.1 (Finset.mem_of_mem_erase hi))) (hwn i)

/-- **C91, convergence.**  Let the true parameters be those of particle `t`, of positive weight, and
let the heuristic choose among finitely many experiments each of which tells particle `t` from every
other particle.  If resampling is switched off and no likelihood is below machine precision, the
expected posterior weight of the truth tends to one, however the experiments are chosen. -/
theorem C91_converges (t : Nat) (htn : t < s.weights.length) (hwt : 0 < s.weights.getD t 0)
    (hL1 : ∀ x ∈ s.locs, ∀ e, ∑ o, env.likelihood o x e = 1) (hr : cfg.resampleThresh = 0)
    (hL : ∀ o, ∀ x ∈ s.locs, ∀ e, eps ≤ env.likelihood o x e)
    (Es : Finset E) (hheur : ∀ s', heur s' ∈ Es)
    (hdist : ∀ e ∈ Es, ∀ j < s.weights.length, j ≠ t → ∃ o,
      env.likelihood o (s.locs.getD t []) e ≠ env.likelihood o (s.locs.getD j []) e) :
    Tendsto (fun n => Spec.meanUnder cfg env heur s n (s.locs.getD t [])
      (fun u => u.weights.getD t 0)) atTop (𝓝 1) := by
  classical
  have hund := C91_always_undisturbed cfg env hg hst hp ht ht1 heur s hs hr hL
  set xt := s.locs.getD t []
  have hmem : ∀ i < s.weights.length, s.locs.getD i [] ∈ s.locs := by
    intro i hi
    rw [List.getD_eq_getElem _ _ (by rw [hs.2]; exact hi)]
    exact List.getElem_mem _
  have hxt : xt ∈ s.locs := hmem t htn
  -- the largest overlap
  let f : ℕ × E → ℝ := fun p => Spec.affinity env.likelihood xt (s.locs.getD p.1 []) p.2
  obtain ⟨ρ, hρ0, hρ1, hρ⟩ : ∃ ρ : ℝ, 0 ≤ ρ ∧ ρ < 1 ∧
      ∀ p ∈ ((Finset.range s.weights.length).erase t) ×ˢ Es, f p ≤ ρ := by
    rcases (((Finset.range s.weights.length).erase t) ×ˢ Es).eq_empty_or_nonempty with h | h
    · exact ⟨0, le_rfl, one_pos, by rw [h]; simp⟩
    · obtain ⟨p, hp, hmax⟩ := Finset.exists_max_image _ f h
      refine ⟨f p, Finset.sum_nonneg fun o _ => Real.sqrt_nonneg _, ?_, hmax⟩
      obtain ⟨hp1, hp2⟩ := Finset.mem_product.1 hp
      obtain ⟨hp3, hp4⟩ := Finset.mem_erase.1 hp1
      exact (C91_affinity env.likelihood xt _ p.2 (fun o z => hg.like_nonneg o z _)
        (hL1 _ hxt _) (hL1 _ (hmem _ (Finset.mem_range.1 hp4)) _)).2 (hdist p.2 hp2 p.1 (Finset.mem_range.1 hp4) hp3)
  have hone : ∀ n, Spec.meanUnder cfg env heur s n xt (fun u => u.weights.getD t 0) =
      1 - ∑ j ∈ (Finset.range s.weights.length).erase t,
        Spec.meanUnder cfg env heur s n xt (fun u => u.weights.getD j 0) := by
    intro n
    rw [eq_sub_iff_add_eq, Finset.add_sum_erase (f := fun j =>
      Spec.meanUnder cfg env heur s n xt (fun u => u.weights.getD j 0)) _ (Finset.mem_range.2 htn),
      ← meanUnder_sum, ← total_run cfg env heur xt (hL1 xt hxt) n s fun os => (hund os).1]
    unfold Spec.meanUnder
    refine Finset.sum_congr rfl fun v _ => ?_
    rw [if_pos (hund _)]
    obtain ⟨hw, hlocs, -⟩ := undisturbed_state cfg env hg hst hp ht ht1 heur _ s hs (hund (List.ofFn v))
    set u := (adapt cfg env heur (List.ofFn v) s).2.1
    have hlen : u.weights.length = s.weights.length := by rw [← hw.2, hlocs, hs.2]
    dsimp only
    rw [← hlen, ← zip_map_sum (fun a (_ : List ℝ) => a) _ _ 0 [] hw.2]
    have : (u.weights.zip u.locs).map (fun p => p.1) = u.weights :=
      List.map_fst_zip (by rw [hw.2])
    rw [this, hw.1.2, mul_one]
  set C := ∑ j ∈ (Finset.range s.weights.length).erase t,
    Real.sqrt (s.weights.getD j 0 / s.weights.getD t 0) / 2
  have hlow : ∀ n, 1 - C * ρ ^ n ≤
      Spec.meanUnder cfg env heur s n xt (fun u => u.weights.getD t 0) := by
    intro n
    rw [hone n, Finset.sum_mul]
    refine sub_le_sub_left (Finset.sum_le_sum fun j hj => ?_) 1
    have hjt := (Finset.mem_erase.1 hj).1
    exact C91_wrong_weight_decays cfg env hg hst hp ht ht1 heur s hs t j (Ne.symm hjt) htn hwt ρ
      (fun s' => hρ (j, heur s') (Finset.mem_product.2 ⟨hj, hheur s'⟩)) n
  have hhigh : ∀ n, Spec.meanUnder cfg env heur s n xt (fun u => u.weights.getD t 0) ≤ 1 := by
    intro n
    rw [hone n]
    refine sub_le_self _ (Finset.sum_nonneg fun j _ => ?_)
    unfold Spec.meanUnder
    refine Finset.sum_nonneg fun v _ => ?_
    rw [if_pos (hund _)]
    obtain ⟨hw, -⟩ := undisturbed_state cfg env hg hst hp ht ht1 heur _ s hs (hund (List.ofFn v))
    refine mul_nonneg (dataLike_good_nonneg env hg _ _) ?_
    dsimp only
    rcases lt_or_ge j (adapt cfg env heur (List.ofFn v) s).2.1.weights.length with h | h
    · rw [List.getD_eq_getElem _ _ h]; exact hw.1.1 _ (List.getElem_mem h)
    · rw [List.getD_eq_default _ _ h]
  have hlim : Tendsto (fun n => 1 - C * ρ ^ n) atTop (𝓝 1) := by
    have := ((tendsto_pow_atTop_nhds_zero_of_lt_one hρ0 hρ1).const_mul C).const_sub 1
    simpa using this
  exact tendsto_of_tendsto_of_tendsto_of_le_of_le hlim tendsto_const_nhds hlow hhigh

end

/-! ### A case for C91

Two coins, one fair and one with probability 1/4 of heads, told apart by tosses. -/

/-- Two coins. -/
noncomputable def twoCoins : Env ℝ Bool Unit Unit where
  likelihood o x _ := if x = [1/4] then (if o then 1/4 else 3/4) else 1/2
  timestep r l _ := (l, r)
  canon l := l
  clearCacheRaises := false
  prior r n := (List.replicate n [1/4], r)
  resampler r w l := (.ok (w, l), r)
  kl _ _ _ _ := 0

noncomputable def twoCoinsStart : Smc ℝ Bool Unit where
  weights := [1/2, 1/2]
  locs := [[1/4], [1/2]]
  resampleCount := 0
  minNEss := 2
  justResampled := false
  dataRecord := []
  normRecord := []
  divergences := none
  seed := ()
  warnings := []

theorem eps_real_le : (eps : ℝ) ≤ 1 / 4 := by
  unfold eps
  norm_num

theorem twoCoins_good : GoodEnv twoCoins := by
  refine ⟨fun o x e => ?_, fun r n => by simp [twoCoins], fun l => rfl, fun r l e => rfl, ?_⟩
  · simp only [twoCoins]; split_ifs <;> norm_num
  · intro r w l w' l' h1 h2 h3
    simp only [twoCoins, Except.ok.injEq, Prod.mk.injEq] at h3
    rw [← h3.1, ← h3.2]
    exact ⟨h1, h2⟩

theorem twoCoinsStart_winv : WInv twoCoinsStart := by
  refine ⟨⟨?_, ?_⟩, rfl⟩
  · simp [twoCoinsStart]
  · simp [twoCoinsStart]; norm_num

theorem twoCoins_eps (o : Bool) (x : List ℝ) (e : Unit) : eps ≤ twoCoins.likelihood o x e := by
  refine le_trans eps_real_le ?_
  simp only [twoCoins]
  split_ifs <;> norm_num

theorem twoCoins_sum (x : List ℝ) (e : Unit) : ∑ o, twoCoins.likelihood o x e = 1 := by
  simp only [twoCoins, Fintype.sum_bool]
  by_cases h : x = [1/4]
  · simp only [if_pos h, if_true, Bool.false_eq_true, if_false]; norm_num
  · simp only [if_neg h]; norm_num

/-- Case for C91: the weight of the biased coin tends to one. -/
example : Tendsto (fun n => Spec.meanUnder ⟨0, "error", eps, false⟩ twoCoins (fun _ => ())
    twoCoinsStart n [1/4] (fun u => u.weights.getD 0 0)) atTop (𝓝 1) := by
  have hne : ([1/2] : List ℝ) ≠ [1/4] := by norm_num
  refine C91_converges _ twoCoins twoCoins_good (fun r l e => rfl) rfl le_rfl ?_ _ twoCoinsStart
    twoCoinsStart_winv 0 ?_ ?_ (fun x _ e => twoCoins_sum x e) rfl (fun o x _ e => twoCoins_eps o x e)
    {()} (fun _ => by simp) ?_
  · exact lt_of_le_of_lt eps_real_le (by norm_num)
  · simp [twoCoinsStart]
  · simp [twoCoinsStart]
  · intro e _ j hj h0
    simp only [twoCoinsStart, List.length_cons, List.length_nil] at hj
    obtain rfl : j = 1 := by omega
    refine ⟨true, ?_⟩
    simp [twoCoins, twoCoinsStart]

end QInfer
