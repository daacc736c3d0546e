import Verif.Props.Risk
import Verif.Props.Calibration

/-!
# C93: experiment design delivers what it promises

`bayes_risk` and `expected_information_gain` speak about an experiment before it is performed.  Here
they are compared with what the updater reports after the experiment has been performed and `update`
called with the outcome, averaged over the outcomes.
-/

set_option linter.unusedSectionVars false

namespace QInfer

open Finset

variable {K : Type} [Field K] [LinearOrder K] [IsStrictOrderedRing K]
variable {E ω : Type} {k : Nat}

/-- The weights of an updater as the array that the formulas use. -/
def Smc.w (s : Smc K (Option (Fin k)) ω) (i : Fin s.weights.length) : K := s.weights.getD i 0

/-- The locations of an updater as the array that the formulas use. -/
def Smc.x (s : Smc K (Option (Fin k)) ω) (d : Nat) (i : Fin s.weights.length) (j : Fin d) : K :=
  (s.locs.getD i []).getD j 0

/-- The likelihoods of all outcomes but the last, as `hypothetical_update` returns them for one
experiment. -/
def Smc.L (s : Smc K (Option (Fin k)) ω) (env : Env K (Option (Fin k)) E ω) (e : E) (o : Fin k)
    (i : Fin s.weights.length) (_ : Fin 1) : K := env.likelihood (some o) (s.locs.getD i []) e

/-- The `Q`-weighted variance that an updater reports: `est_covariance_mtx` on the diagonal. -/
def Spec.reportedVariance {d : Nat} (Q : Fin d → K) (s : Smc K (Option (Fin k)) ω) : K :=
  ∑ j : Fin d, Q j * ((smcCov d s.weights s.locs).getD j []).getD j 0

/-- The mean of a quantity of the updater after performing experiment `e` and updating with the
outcome, resampling postponed (`check_for_resample=False`). -/
def Spec.meanAfter (cfg : SmcConfig K) (env : Env K (Option (Fin k)) E ω)
    (s : Smc K (Option (Fin k)) ω) (e : E) (g : Smc K (Option (Fin k)) ω → K) : K :=
  ∑ o, evidence env.likelihood s.weights s.locs o e * g (update cfg env s o e false).1

theorem list_sum_getD (l : List K) : ∑ i : Fin l.length, l.getD i 0 = l.sum := by
  rw [← List.sum_ofFn]
  congr 1
  apply List.ext_getElem <;> simp

section
variable (cfg : SmcConfig K) (env : Env K (Option (Fin k)) E ω) (hg : GoodEnv env)
  (hst : Static env) (ht1 : cfg.zeroThresh < 1) (s : Smc K (Option (Fin k)) ω) (hs : WInv s) (e : E)
include hg hst ht1 hs

theorem evidence_fin (o : Option (Fin k)) : evidence env.likelihood s.weights s.locs o e =
    ∑ i, s.w i * env.likelihood o (s.locs.getD i []) e := by
  unfold evidence
  rw [zip_map_sum (fun a (b : List K) => a * env.likelihood o b e) _ _ 0 [] hs.2, Finset.sum_range]
  rfl

theorem after_weights (o : Option (Fin k)) (hev : eps ≤ evidence env.likelihood s.weights s.locs o e) :
    (update cfg env s o e false).1.locs = s.locs ∧
    (update cfg env s o e false).1.weights = List.ofFn fun i => s.w i *
      env.likelihood o (s.locs.getD i []) e / evidence env.likelihood s.weights s.locs o e := by
  obtain ⟨-, h1, h2, -⟩ := datum_normal cfg env s o e hs.2 hs.1.1 (fun x => hg.like_nonneg _ _ _)
    ht1 hev
  refine ⟨by rw [h2, hst], ?_⟩
  rw [h1]
  unfold posterior
  apply List.ext_getElem
  · simp [hs.2]
  · intro i h3 h4
    have h5 : i < s.weights.length := by simpa using h4
    simp [Smc.w, h5, hs.2]

/-- The reported variance after an outcome. -/
theorem after_variance {d : Nat} (Q : Fin d → K) (o : Option (Fin k))
    (hev : eps ≤ evidence env.likelihood s.weights s.locs o e) :
    evidence env.likelihood s.weights s.locs o e *
      Spec.reportedVariance Q (update cfg env s o e false).1 =
    evidence env.likelihood s.weights s.locs o e * qvar Q (fun i => s.w i *
      env.likelihood o (s.locs.getD i []) e / evidence env.likelihood s.weights s.locs o e)
        (s.x d) := by
  obtain ⟨h1, h2⟩ := after_weights cfg env hg hst ht1 s hs e o hev
  set ev := evidence env.likelihood s.weights s.locs o e with hevd
  have hev0 : ev ≠ 0 := (eps_pos.trans_le hev).ne'
  have hsum : ∑ i, s.w i * env.likelihood o (s.locs.getD i []) e = ev :=
    (evidence_fin cfg env hg hst ht1 s hs e o).symm
  rw [qvar_scaled Q _ _ ev hsum hev0]
  unfold Spec.reportedVariance
  rw [mul_sum]
  refine sum_congr rfl fun j _ => ?_
  rw [smcCov_getD d _ _ j j j.2 j.2, h1, h2,
    zip_map_sum (fun a (x : List K) => a * x.getD j 0) _ _ 0 [] (by simp [hs.2]),
    zip_map_sum (fun a (x : List K) => a * (x.getD j 0 * x.getD j 0)) _ _ 0 [] (by simp [hs.2]),
    List.length_ofFn, Finset.sum_range, Finset.sum_range]
  have e1 : ∀ i : Fin s.weights.length, (List.ofFn fun i => s.w i *
      env.likelihood o (s.locs.getD i []) e / ev).getD i 0 =
        s.w i * env.likelihood o (s.locs.getD i []) e / ev := by
    intro i
    rw [List.getD_eq_getElem _ _ (by simp)]
    simp
  simp only [e1]
  unfold pmean
  have e2 : ∑ i, s.w i * env.likelihood o (s.locs.getD i []) e * s.x d i j ^ 2 =
      ev * ∑ i, s.w i * env.likelihood o (s.locs.getD i []) e / ev *
        ((s.locs.getD i []).getD j 0 * (s.locs.getD i []).getD j 0) := by
    rw [mul_sum]
    refine sum_congr rfl fun i _ => ?_
    unfold Smc.x
    field_simp
  rw [e2]
  have e3 : ∑ i, s.w i * env.likelihood o (s.locs.getD i []) e / ev * s.x d i j =
      ∑ i, s.w i * env.likelihood o (s.locs.getD i []) e / ev * (s.locs.getD i []).getD j 0 := rfl
  rw [e3]
  ring

theorem last_like (hL1 : ∀ x ∈ s.locs, ∑ o, env.likelihood o x e = 1) (i : Fin s.weights.length) :
    1 - ∑ o, s.L env e o i 0 = env.likelihood none (s.locs.getD i []) e := by
  have hx : s.locs.getD i [] ∈ s.locs := by
    rw [List.getD_eq_getElem _ _ (by rw [hs.2]; exact i.2)]
    exact List.getElem_mem _
  have := hL1 _ hx
  rw [Fintype.sum_option] at this
  unfold Smc.L
  linear_combination -this

/-- **C93, risk.**  The Bayes risk of an experiment is the mean of the (`Q`-weighted) variance that the
updater reports after the experiment has been performed and its outcome processed. -/
theorem C93_risk {d : Nat} (Q : Fin d → K) (hL1 : ∀ x ∈ s.locs, ∑ o, env.likelihood o x e = 1)
    (hev : ∀ o, evidence env.likelihood s.weights s.locs (some o) e = 0 ∨
      eps ≤ evidence env.likelihood s.weights s.locs (some o) e)
    (hlast : eps ≤ evidence env.likelihood s.weights s.locs none e) :
    bayesRisk Q s.w (s.x d) (s.L env e) 0 =
      some (Spec.meanAfter cfg env s e (Spec.reportedVariance Q)) := by
  have hraw : ∀ i, lastRaw s.w (s.L env e) 0 i =
      s.w i * env.likelihood none (s.locs.getD i []) e := by
    intro i
    unfold lastRaw
    rw [last_like cfg env hg hst ht1 s hs e hL1 i, mul_comm]
  have hN : lastN s.w (s.L env e) 0 = evidence env.likelihood s.weights s.locs none e := by
    rw [evidence_fin cfg env hg hst ht1 s hs e]
    exact sum_congr rfl fun i _ => hraw i
  have hNo : ∀ o, hypN s.w (s.L env e) o 0 = evidence env.likelihood s.weights s.locs (some o) e :=
    fun o => (evidence_fin cfg env hg hst ht1 s hs e (some o)).symm
  unfold bayesRisk
  rw [if_neg (by rw [hN]; exact (eps_pos.trans_le hlast).ne')]
  congr 1
  unfold Spec.meanAfter
  rw [Fintype.sum_option, after_variance cfg env hg hst ht1 s hs e Q none hlast, add_comm, hN]
  congr 1
  · congr 2
    funext i
    rw [hraw]
  · refine sum_congr rfl fun o _ => ?_
    rw [hNo]
    rcases hev o with h | h
    · rw [h, zero_mul, zero_mul]
    · rw [after_variance cfg env hg hst ht1 s hs e Q (some o) h,
        hypW_eq _ _ _ _ (by rw [hNo]; exact h)]
      simp only [hNo]
      rfl

/-- The mean of `est_mean` after an outcome, by position. -/
theorem after_mean (d : Nat) (o : Option (Fin k)) (j : Fin d)
    (hev : eps ≤ evidence env.likelihood s.weights s.locs o e) :
    (smcMean d (update cfg env s o e false).1.weights (update cfg env s o e false).1.locs).getD j 0 =
      pmean (fun i => s.w i * env.likelihood o (s.locs.getD i []) e /
        evidence env.likelihood s.weights s.locs o e) (s.x d) j := by
  obtain ⟨h1, h2⟩ := after_weights cfg env hg hst ht1 s hs e o hev
  rw [smcMean_getD d _ _ j j.2, h1, h2,
    zip_map_sum (fun a (x : List K) => a * x.getD j 0) _ _ 0 [] (by simp [hs.2]),
    List.length_ofFn, Finset.sum_range]
  unfold pmean
  refine sum_congr rfl fun i _ => ?_
  rw [List.getD_eq_getElem _ _ (by simp)]
  simp [Smc.x]

/-- **C93, error.**  The Bayes risk of an experiment is the mean (`Q`-weighted) squared error of
`est_mean` after the experiment, over truths drawn from the cloud and outcomes drawn from the truth. -/
theorem C93_error {d : Nat} (Q : Fin d → K) (hL1 : ∀ x ∈ s.locs, ∑ o, env.likelihood o x e = 1)
    (hev : ∀ o, evidence env.likelihood s.weights s.locs (some o) e = 0 ∨
      eps ≤ evidence env.likelihood s.weights s.locs (some o) e)
    (hlast : eps ≤ evidence env.likelihood s.weights s.locs none e) :
    bayesRisk Q s.w (s.x d) (s.L env e) 0 =
      some (∑ i, s.w i * ∑ o, env.likelihood o (s.locs.getD i []) e * ∑ j : Fin d, Q j *
        (s.x d i j - (smcMean d (update cfg env s o e false).1.weights
          (update cfg env s o e false).1.locs).getD j 0) ^ 2) := by
  rw [C93_risk cfg env hg hst ht1 s hs e Q hL1 hev hlast]
  congr 1
  simp_rw [mul_sum]
  rw [sum_comm]
  unfold Spec.meanAfter
  refine sum_congr rfl fun o _ => ?_
  have hcase : evidence env.likelihood s.weights s.locs o e = 0 ∨
      eps ≤ evidence env.likelihood s.weights s.locs o e := by
    cases o with
    | none => exact Or.inr hlast
    | some o => exact hev o
  rcases hcase with h | h
  · rw [h, zero_mul]
    symm
    have h0 : ∀ i, s.w i * env.likelihood o (s.locs.getD i []) e = 0 := by
      rw [evidence_fin cfg env hg hst ht1 s hs e] at h
      have := (sum_eq_zero_iff_of_nonneg fun i _ => mul_nonneg (by
        unfold Smc.w
        rw [List.getD_eq_getElem _ _ i.2]
        exact hs.1.1 _ (List.getElem_mem _)) (hg.like_nonneg _ _ _)).1 h
      exact fun i => this i (mem_univ _)
    refine sum_eq_zero fun i _ => sum_eq_zero fun j _ => ?_
    rw [← mul_assoc, h0, zero_mul]
  · rw [after_variance cfg env hg hst ht1 s hs e Q o h]
    have h0 := (eps_pos.trans_le h).ne'
    unfold qvar
    rw [mul_sum]
    refine sum_congr rfl fun i _ => ?_
    simp only [after_mean cfg env hg hst ht1 s hs e d o _ h]
    rw [mul_sum, mul_sum]
    refine sum_congr rfl fun j _ => ?_
    field_simp

end

/-- The entropy of positive weights. -/
theorem entropy_pos_ofFn {n : Nat} (v : Fin n → ℝ) (h : ∀ i, 0 < v i) :
    entropy (List.ofFn v) = -∑ i, Real.log (v i) * v i := by
  unfold entropy
  rw [List.filter_eq_self.2 (by
    intro x hx
    obtain ⟨i, rfl⟩ := (List.mem_ofFn' _ _).1 hx
    simpa using h i), List.map_ofFn, List.sum_ofFn]
  rfl

/-- **C93, information.**  The expected information gain of an experiment is the mean drop of the
entropy that the updater reports (`est_entropy`), from before the experiment to after its outcome has
been processed. -/
theorem C93_information (cfg : SmcConfig ℝ) (env : Env ℝ (Option (Fin k)) E ω) (hg : GoodEnv env)
    (hst : Static env) (ht1 : cfg.zeroThresh < 1) (s : Smc ℝ (Option (Fin k)) ω) (hs : WInv s) (e : E)
    (hw : ∀ x ∈ s.weights, 0 < x) (hL : ∀ o, ∀ x ∈ s.locs, 0 < env.likelihood o x e)
    (hL1 : ∀ x ∈ s.locs, ∑ o, env.likelihood o x e = 1)
    (hev : ∀ o, eps ≤ evidence env.likelihood s.weights s.locs o e) :
    infoGain s.w (s.L env e) 0 =
      some (entropy s.weights - Spec.meanAfter cfg env s e fun u => entropy u.weights) := by
  have hx : ∀ i : Fin s.weights.length, s.locs.getD i [] ∈ s.locs := fun i => by
    rw [List.getD_eq_getElem _ _ (by rw [hs.2]; exact i.2)]
    exact List.getElem_mem _
  have hwi : ∀ i : Fin s.weights.length, 0 < s.w i := fun i => by
    unfold Smc.w
    rw [List.getD_eq_getElem _ _ i.2]
    exact hw _ (List.getElem_mem _)
  have hll := last_like cfg env hg hst ht1 s hs e hL1
  have hw1 : ∑ i, s.w i = 1 := (list_sum_getD s.weights).trans hs.1.2
  have hn : 0 < s.weights.length := by
    rcases Nat.eq_zero_or_pos s.weights.length with h | h
    · exfalso
      have := hs.1.2
      rw [List.length_eq_zero_iff.1 h] at this
      simp at this
    · exact h
  have hp1 : ∀ o, hypProb s.w (s.L env e) 0 (some o) =
      evidence env.likelihood s.weights s.locs (some o) e :=
    fun o => (evidence_fin cfg env hg hst ht1 s hs e (some o)).symm
  have hp2 : hypProb s.w (s.L env e) 0 none = evidence env.likelihood s.weights s.locs none e := by
    rw [evidence_fin cfg env hg hst ht1 s hs e]
    refine sum_congr rfl fun i _ => ?_
    rw [hll i]
  obtain ⟨v, hv, -, hv'⟩ := C15_info_gain_nonneg s.w (s.L env e) 0 hn hwi hw1
    (fun o i => hL _ _ (hx i))
    (fun i => by
      have := hll i
      have := hL none _ (hx i)
      linarith) (fun o => by rw [hp1]; exact hev _)
  rw [hv, hv']
  congr 1
  -- the mutual information, symmetrically in the outcomes
  have hmi : (∑ o, ∑ i, s.w i * s.L env e o i 0 *
        Real.log (s.L env e o i 0 / hypProb s.w (s.L env e) 0 (some o))) +
      ∑ i, s.w i * (1 - ∑ o, s.L env e o i 0) *
        Real.log ((1 - ∑ o, s.L env e o i 0) / hypProb s.w (s.L env e) 0 none) =
      ∑ o, ∑ i, s.w i * env.likelihood o (s.locs.getD i []) e *
        Real.log (env.likelihood o (s.locs.getD i []) e /
          evidence env.likelihood s.weights s.locs o e) := by
    rw [Fintype.sum_option, add_comm, hp2]
    simp only [hll, hp1]
    rfl
  rw [hmi]
  -- the entropies
  have he0 : entropy s.weights = -∑ i, Real.log (s.w i) * s.w i := by
    rw [← entropy_pos_ofFn _ hwi]
    congr 1
    apply List.ext_getElem
    · simp
    · intro i h1 h2
      simp [Smc.w, h1]
  have hea : ∀ o, evidence env.likelihood s.weights s.locs o e *
      entropy (update cfg env s o e false).1.weights =
      -∑ i, s.w i * env.likelihood o (s.locs.getD i []) e * (Real.log (s.w i) +
        Real.log (env.likelihood o (s.locs.getD i []) e /
          evidence env.likelihood s.weights s.locs o e)) := by
    intro o
    have h0 := eps_pos.trans_le (hev o)
    have hLi := fun i : Fin s.weights.length => hL o _ (hx i)
    rw [(after_weights cfg env hg hst ht1 s hs e o (hev o)).2, entropy_pos_ofFn _ fun i =>
      div_pos (mul_pos (hwi i) (hLi i)) h0, mul_neg, mul_sum]
    congr 1
    refine sum_congr rfl fun i _ => ?_
    rw [mul_div_assoc, Real.log_mul (hwi i).ne' (div_pos (hLi i) h0).ne']
    field_simp
  unfold Spec.meanAfter
  simp only [hea]
  rw [he0, sum_neg_distrib, sub_neg_eq_add]
  simp only [mul_add, sum_add_distrib]
  have : ∑ o, ∑ i, s.w i * env.likelihood o (s.locs.getD i []) e * Real.log (s.w i) =
      ∑ i, Real.log (s.w i) * s.w i := by
    rw [sum_comm]
    refine sum_congr rfl fun i _ => ?_
    rw [← sum_mul, ← mul_sum, hL1 _ (hx i)]
    ring
  rw [this]
  ring

/-! ### A case for C93

A fair coin and one that shows the last outcome with probability 3/4. -/

/-- The two coins; `none` is the last outcome. -/
noncomputable def promiseCoins : Env ℝ (Option (Fin 1)) Unit Unit where
  likelihood o x _ := if x = [1/4] then (if o = none then 3/4 else 1/4) else 1/2
  timestep r l _ := (l, r)
  canon l := l
  clearCacheRaises := false
  prior r n := (List.replicate n [1/4], r)
  resampler r w l := (.ok (w, l), r)
  kl _ _ _ _ := 0

noncomputable def promiseStart : Smc ℝ (Option (Fin 1)) Unit where
  weights := [1/2, 1/2]
  locs := [[1/4], [1/2]]
  resampleCount := 0
  minNEss := 2
  justResampled := false
  dataRecord := []
  normRecord := []
  divergences := none
  seed := ()
  warnings := []

theorem promiseCoins_good : GoodEnv promiseCoins := by
  refine ⟨fun o x e => ?_, fun r n => by simp [promiseCoins], fun l => rfl, fun r l e => rfl, ?_⟩
  · simp only [promiseCoins]; split_ifs <;> norm_num
  · intro r w l w' l' h1 h2 h3
    simp only [promiseCoins, Except.ok.injEq, Prod.mk.injEq] at h3
    rw [← h3.1, ← h3.2]
    exact ⟨h1, h2⟩

theorem promiseStart_winv : WInv promiseStart := by
  refine ⟨⟨?_, ?_⟩, rfl⟩
  · simp [promiseStart]
  · simp [promiseStart]; norm_num

theorem promiseCoins_sum (x : List ℝ) (e : Unit) : ∑ o, promiseCoins.likelihood o x e = 1 := by
  simp only [promiseCoins, Fintype.sum_option]
  by_cases h : x = [1/4]
  · simp only [if_pos h]
    rw [Fintype.sum_unique, if_pos trivial, if_neg (by simp)]; norm_num
  · simp only [if_neg h]; norm_num

theorem promiseCoins_evidence (o : Option (Fin 1)) : (eps : ℝ) ≤
    evidence promiseCoins.likelihood promiseStart.weights promiseStart.locs o () := by
  refine le_trans eps_real_le ?_
  have hne : ([1/2] : List ℝ) ≠ [1/4] := by norm_num
  simp only [evidence, promiseStart, promiseCoins, List.zip_cons_cons, List.zip_nil_right,
    List.map_cons, List.map_nil, List.sum_cons, List.sum_nil, if_true, if_neg hne]
  split_ifs <;> norm_num

/-- Case for C93: risk and information of one toss. -/
example :
    bayesRisk ![1] promiseStart.w (promiseStart.x 1) (promiseStart.L promiseCoins ()) 0 =
      some (Spec.meanAfter ⟨0, "error", eps, false⟩ promiseCoins promiseStart ()
        (Spec.reportedVariance ![1])) ∧
    infoGain promiseStart.w (promiseStart.L promiseCoins ()) 0 =
      some (entropy promiseStart.weights -
        Spec.meanAfter ⟨0, "error", eps, false⟩ promiseCoins promiseStart () fun u =>
          entropy u.weights) := by
  have ht : (eps : ℝ) < 1 := lt_of_le_of_lt eps_real_le (by norm_num)
  refine ⟨C93_risk _ _ promiseCoins_good (fun _ _ _ => rfl) ht _ promiseStart_winv () _
    (fun x _ => promiseCoins_sum x ()) (fun o => Or.inr (promiseCoins_evidence _))
    (promiseCoins_evidence _),
    C93_information _ _ promiseCoins_good (fun _ _ _ => rfl) ht _ promiseStart_winv () ?_ ?_
    (fun x _ => promiseCoins_sum x ()) promiseCoins_evidence⟩
  · simp [promiseStart]
  · intro o x _
    simp only [promiseCoins]
    split_ifs <;> norm_num

end QInfer
