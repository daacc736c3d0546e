import Verif.Props.Stopping

/-!
# C129: the total likelihood never overstates a model, whatever the resampler

Unlike in C120 the particles may drift and may be resampled in any way; the data follow any law at all.
-/

namespace QInfer

variable {K O E ω : Type} [Field K] [LinearOrder K] [IsStrictOrderedRing K]

/-- Probability of data under a law `q`, which gives the probability of the next outcome after the data
so far (newest first) when an experiment is performed. -/
def Spec.dataProb (q : List (O × E) → E → O → K) : List (O × E) → K
  | [] => 1
  | d :: h => q h d.2 d.1 * Spec.dataProb q h

/-- One experiment on an updater, kept together with the data seen; `none` if the update raises.
`plan` chooses the experiment, and whether resampling may take place. -/
def Spec.watch (cfg : SmcConfig K) (env : Env K O E ω) (plan : List (O × E) → Smc K O ω → E × Bool)
    (s : List (O × E) × Smc K O ω) (o : O) : Option (List (O × E) × Smc K O ω) :=
  match update cfg env s.2 o (plan s.1 s.2).1 (plan s.1 s.2).2 with
  | (t, .ok ()) => some ((o, (plan s.1 s.2).1) :: s.1, t)
  | (_, .error _) => none

/-- What an accepted experiment does, resampled or not. -/
theorem watch_facts (cfg : SmcConfig K) (env : Env K O E ω) (hg : GoodEnv env)
    (hp : cfg.policy = "error") (ht : eps ≤ cfg.zeroThresh) (ht1 : cfg.zeroThresh < 1)
    (plan : List (O × E) → Smc K O ω → E × Bool) (s t : List (O × E) × Smc K O ω) (o : O)
    (hs : WInv s.2) (h : Spec.watch cfg env plan s o = some t) :
    WInv t.2 ∧ t.1 = (o, (plan s.1 s.2).1) :: s.1 ∧
      eps ≤ evidence env.likelihood s.2.weights s.2.locs o (plan s.1 s.2).1 ∧
      t.2.normRecord = s.2.normRecord ++
        [evidence env.likelihood s.2.weights s.2.locs o (plan s.1 s.2).1] := by
  obtain ⟨h0, u⟩ := s
  unfold Spec.watch at h
  dsimp only at h hs ⊢
  rcases heq : update cfg env u o (plan h0 u).1 (plan h0 u).2 with ⟨t', err | ⟨⟨⟩⟩⟩
  · simp [heq] at h
  simp only [heq, Option.some.injEq] at h
  subst h
  have hev : eps ≤ evidence env.likelihood u.weights u.locs o (plan h0 u).1 := by
    by_contra hlt
    have := (C07_policy_table cfg env hg ht u hs.2 hs.1.1 o _ (not_le.1 hlt)).2.1 hp (plan h0 u).2
    rw [heq] at this
    simp at this
  have hn := C06_normalization_record cfg env hg ht ht1 u hs.2 hs.1.1 o (plan h0 u).1 (plan h0 u).2
  rw [heq, if_neg (fun h => not_lt.2 hev h.1)] at hn
  have hw := update_winv cfg env hg (Or.inl hp) ht u hs o (plan h0 u).1 (plan h0 u).2
  rw [heq] at hw
  exact ⟨hw, rfl, hev, hn⟩

section
variable [Fintype O] (cfg : SmcConfig K) (env : Env K O E ω) (hg : GoodEnv env)
  (hp : cfg.policy = "error") (ht : eps ≤ cfg.zeroThresh) (ht1 : cfg.zeroThresh < 1)
  (hL1 : ∀ x e, ∑ o, env.likelihood o x e = 1)
  (plan : List (O × E) → Smc K O ω → E × Bool) (s : Smc K O ω) (hs : WInv s) (hn : s.normRecord = [])
include hg hp ht ht1 hL1 hs hn

/-- **C129, means.**  Whatever law the data follow, whatever resampler and motion of the particles, and
whenever one stops: the product of `normalization_record` over the true probability of the data is at most
one on average. -/
theorem C129_mean (q : List (O × E) → E → O → K) (hq : ∀ h e o, 0 ≤ q h e o)
    (stop : List (O × E) × Smc K O ω → Prop) (n : Nat) :
    Spec.atStop (Spec.watch cfg env plan) (fun u o => q u.1 (plan u.1 u.2).1 o) stop
      (fun u => u.2.normRecord.prod / Spec.dataProb q u.1) n ([], s) ≤ 1 := by
  have hmain := atStop_le (Spec.watch cfg env plan) (fun u o => q u.1 (plan u.1 u.2).1 o) stop
    (fun u => u.2.normRecord.prod / Spec.dataProb q u.1)
    (fun u => u.2.normRecord.prod / Spec.dataProb q u.1)
    (fun u => WInv u.2 ∧ 0 < Spec.dataProb q u.1 ∧ 0 < u.2.normRecord.prod)
    (fun u o _ => hq _ _ _) ?_ (fun _ _ => le_rfl) ?_ n ([], s) ⟨hs, by simp [Spec.dataProb], by simp [hn]⟩
  · simpa [hn, Spec.dataProb] using hmain
  · intro u o t hu h0 h
    obtain ⟨h1, h2, h3, h4⟩ := watch_facts cfg env hg hp ht ht1 plan u t o hu.1 h
    refine ⟨h1, ?_, ?_⟩
    · rw [h2]
      exact mul_pos (lt_of_le_of_ne (hq _ _ _) (Ne.symm h0)) hu.2.1
    · rw [h4, List.prod_append, List.prod_singleton]
      exact mul_pos hu.2.2 (lt_of_lt_of_le eps_pos h3)
  · intro u hu
    have htot := evidence_total env u.2 hu.1 (plan u.1 u.2).1 (fun x _ => hL1 x _)
    have hr : 0 ≤ u.2.normRecord.prod / Spec.dataProb q u.1 := div_nonneg hu.2.2.le hu.2.1.le
    calc ∑ o, q u.1 (plan u.1 u.2).1 o * (Spec.watch cfg env plan u o).elim 0
          (fun t => t.2.normRecord.prod / Spec.dataProb q t.1)
        ≤ ∑ o, u.2.normRecord.prod / Spec.dataProb q u.1 *
            evidence env.likelihood u.2.weights u.2.locs o (plan u.1 u.2).1 := by
          refine Finset.sum_le_sum fun o _ => ?_
          have hev := evidence_nonneg' env hg u.2 hu.1 o (plan u.1 u.2).1
          rcases h : Spec.watch cfg env plan u o with _ | t
          · simpa using mul_nonneg hr hev
          · obtain ⟨-, h2, -, h4⟩ := watch_facts cfg env hg hp ht ht1 plan u t o hu.1 h
            simp only [Option.elim_some]
            by_cases h0 : q u.1 (plan u.1 u.2).1 o = 0
            · rw [h0, zero_mul]; exact mul_nonneg hr hev
            · rw [h2, h4, List.prod_append, List.prod_singleton]
              simp only [Spec.dataProb]
              have := hu.2.1.ne'
              refine le_of_eq ?_
              field_simp
      _ = u.2.normRecord.prod / Spec.dataProb q u.1 := by rw [← Finset.mul_sum, htot, mul_one]

/-- **C129, no overstatement.**  Whatever law the data follow, the probability that the product of
`normalization_record` *ever* reaches `c` times the true probability of the data is at most `1 / c`. -/
theorem C129_never_overstates (q : List (O × E) → E → O → K) (hq : ∀ h e o, 0 ≤ q h e o)
    (c : K) (hc : 0 < c) (n : Nat) :
    Spec.chanceEver (Spec.watch cfg env plan) (fun u o => q u.1 (plan u.1 u.2).1 o)
      (fun u => c * Spec.dataProb q u.1 ≤ u.2.normRecord.prod ∧ 0 < Spec.dataProb q u.1) n ([], s) ≤
      1 / c := by
  classical
  have h := C129_mean cfg env hg hp ht ht1 hL1 plan s hs hn q hq
    (fun u => c * Spec.dataProb q u.1 ≤ u.2.normRecord.prod ∧ 0 < Spec.dataProb q u.1) n
  rw [le_div_iff₀ hc, mul_comm, Spec.chanceEver, ← atStop_smul]
  refine le_trans (atStop_mono _ _ _ _ _
    (fun u => WInv u.2 ∧ 0 ≤ Spec.dataProb q u.1 ∧ 0 < u.2.normRecord.prod)
    (fun u o _ => hq _ _ _) ?_ ?_ n ([], s) ⟨hs, by simp [Spec.dataProb], by simp [hn]⟩) h
  · intro u o t hu h
    obtain ⟨h1, h2, h3, h4⟩ := watch_facts cfg env hg hp ht ht1 plan u t o hu.1 h
    refine ⟨h1, ?_, ?_⟩
    · rw [h2]
      exact mul_nonneg (hq _ _ _) hu.2.1
    · rw [h4, List.prod_append, List.prod_singleton]
      exact mul_pos hu.2.2 (lt_of_lt_of_le eps_pos h3)
  · intro u hu
    by_cases hP : c * Spec.dataProb q u.1 ≤ u.2.normRecord.prod ∧ 0 < Spec.dataProb q u.1
    · rw [indic_pos hP, mul_one, le_div_iff₀ hP.2]; exact hP.1
    · rw [indic_neg hP, mul_zero]; exact div_nonneg hu.2.2.le hu.2.1

/-- **C129, a probability of data.**  The totals of all sequences of `n` outcomes add up to at most one. -/
theorem C129_total (n : Nat) :
    Spec.atStop (Spec.watch cfg env plan) (fun _ _ => 1) (fun _ => False)
      (fun u => u.2.normRecord.prod) n ([], s) ≤ 1 := by
  have h := C129_mean cfg env hg hp ht ht1 hL1 plan s hs hn (fun _ _ _ => 1) (fun _ _ _ => zero_le_one)
    (fun _ => False) n
  have h1 : ∀ l : List (O × E), Spec.dataProb (fun _ _ _ => (1 : K)) l = 1 := by
    intro l
    induction l with
    | nil => rfl
    | cons a l ih => rw [Spec.dataProb, ih, mul_one]
  simpa only [h1, div_one] using h

omit hs hn in
/-- No experiment fails if no likelihood is below machine precision and the resampler does not raise. -/
theorem watch_some (hL : ∀ o x e, eps ≤ env.likelihood o x e)
    (hres : ∀ r w l, ∃ p, (env.resampler r w l).1 = .ok p) (u : List (O × E) × Smc K O ω) (hu : WInv u.2)
    (o : O) : ∃ t, Spec.watch cfg env plan u o = some t := by
  obtain ⟨h0, u⟩ := u
  have hev : eps ≤ evidence env.likelihood u.weights u.locs o (plan h0 u).1 := by
    rw [evidence_range _ u hu]
    have h1 : ∑ j ∈ Finset.range u.weights.length, u.weights.getD j 0 = 1 := by
      rw [← zip_map_sum (fun a (_ : List K) => a) _ _ 0 [] hu.2]
      have : (u.weights.zip u.locs).map (fun p => p.1) = u.weights := List.map_fst_zip (by rw [hu.2])
      rw [this, hu.1.2]
    calc (eps : K) = ∑ j ∈ Finset.range u.weights.length, u.weights.getD j 0 * eps := by
          rw [← Finset.sum_mul, h1, one_mul]
      _ ≤ _ := by
          refine Finset.sum_le_sum fun j hj => mul_le_mul_of_nonneg_left (hL _ _ _) ?_
          rw [List.getD_eq_getElem _ _ (Finset.mem_range.1 hj)]
          exact hu.1.1 _ (List.getElem_mem _)
  have hres' : ∀ v : Smc K O ω, (resample cfg env v).2 = .ok () := by
    intro v
    unfold resample runResampler
    obtain ⟨⟨w, l⟩, h⟩ := hres (markResampled v).seed (markResampled v).weights (markResampled v).locs
    rcases hx : env.resampler (markResampled v).seed (markResampled v).weights (markResampled v).locs
      with ⟨a, b⟩
    rw [hx] at h
    obtain rfl : a = .ok (w, l) := h
    rfl
  have hok : (update cfg env u o (plan h0 u).1 (plan h0 u).2).2 = .ok () := by
    have h1 := datum_normal cfg env u o (plan h0 u).1 hu.2 hu.1.1 (fun x => hg.like_nonneg o x _) ht1 hev
    rcases hb : (plan h0 u).2 with _ | _
    · exact h1.1
    · rw [update_normal cfg env u o _ true hu.2 hu.1.1 (fun x => hg.like_nonneg o x _) ht1 hev,
        finishUpdate_true _ _ (recordDatum u o) _ _ _
          (posterior_length env.likelihood u.weights u.locs o _ hu.2)]
      unfold maybeResample
      dsimp only
      split_ifs
      · exact hres' _
      · rfl
      · exact hres' _
      · rfl
  unfold Spec.watch
  rcases heq : update cfg env u o (plan h0 u).1 (plan h0 u).2 with ⟨t, r⟩
  rw [heq] at hok
  obtain rfl : r = .ok () := hok
  exact ⟨_, rfl⟩

/-- **C129, exactly a probability of data.**  If no likelihood is below machine precision and the resampler
does not raise, the totals of all sequences of `n` outcomes add up to one. -/
theorem C129_total_exact (hL : ∀ o x e, eps ≤ env.likelihood o x e)
    (hres : ∀ r w l, ∃ p, (env.resampler r w l).1 = .ok p) (n : Nat) :
    Spec.atStop (Spec.watch cfg env plan) (fun _ _ => 1) (fun _ => False)
      (fun u => u.2.normRecord.prod) n ([], s) = 1 := by
  have key : ∀ n (u : List (O × E) × Smc K O ω), WInv u.2 →
      Spec.atStop (Spec.watch cfg env plan) (fun _ _ => 1) (fun _ => False)
        (fun u => u.2.normRecord.prod) n u = u.2.normRecord.prod := by
    intro n
    induction n with
    | zero => intro u _; rfl
    | succ n ih =>
      intro u hu
      unfold Spec.atStop
      rw [if_neg not_false]
      have htot := evidence_total env u.2 hu (plan u.1 u.2).1 (fun x _ => hL1 x _)
      refine Eq.trans (Finset.sum_congr rfl fun o _ => ?_)
        ((Finset.mul_sum Finset.univ _ u.2.normRecord.prod).symm.trans (by rw [htot, mul_one]))
      obtain ⟨t, h⟩ := watch_some cfg env hg hp ht ht1 hL1 plan hL hres u hu o
      obtain ⟨h1, -, -, h4⟩ := watch_facts cfg env hg hp ht ht1 plan u t o hu h
      rw [h, Option.elim_some, one_mul, ih t h1, h4, List.prod_append, List.prod_singleton]
  rw [key n _ hs, hn, List.prod_nil]

end

/-- **C129, `log_total_likelihood`.**  The probability that `log_total_likelihood` ever exceeds the logarithm
of the true probability of the data by `c` is at most `exp (-c)`. -/
theorem C129_log_total_likelihood [Fintype O] (cfg : SmcConfig ℝ) (env : Env ℝ O E ω) (hg : GoodEnv env)
    (hp : cfg.policy = "error") (ht : eps ≤ cfg.zeroThresh) (ht1 : cfg.zeroThresh < 1)
    (hL1 : ∀ x e, ∑ o, env.likelihood o x e = 1)
    (plan : List (O × E) → Smc ℝ O ω → E × Bool) (s : Smc ℝ O ω) (hs : WInv s)
    (hn : s.normRecord = []) (q : List (O × E) → E → O → ℝ) (hq : ∀ h e o, 0 < q h e o) (c : ℝ) (n : Nat) :
    Spec.chanceEver (Spec.watch cfg env plan) (fun u o => q u.1 (plan u.1 u.2).1 o)
      (fun u => Real.log (Spec.dataProb q u.1) + c ≤ logTotalLikelihood u.2) n ([], s) ≤
      Real.exp (-c) := by
  have h := C129_never_overstates cfg env hg hp ht ht1 hL1 plan s hs hn q (fun h e o => (hq h e o).le)
    (Real.exp c) (Real.exp_pos c) n
  rw [one_div, ← Real.exp_neg] at h
  refine le_trans (le_of_eq ?_) h
  have hd : ∀ l : List (O × E), 0 < Spec.dataProb q l := by
    intro l
    induction l with
    | nil => exact one_pos
    | cons a l ih => exact mul_pos (hq _ _ _) ih
  refine chanceEver_congr _ _ _ _ (fun u => WInv u.2 ∧ ∀ x ∈ u.2.normRecord, 0 < x) ?_ ?_ n ([], s)
    ⟨hs, by simp [hn]⟩
  · intro u hu
    unfold logTotalLikelihood
    rw [log_prod_of_pos _ hu.2, and_iff_left (hd _), ← Real.log_le_log_iff
      (mul_pos (Real.exp_pos _) (hd _)) (List.prod_pos hu.2),
      Real.log_mul (Real.exp_pos c).ne' (hd _).ne', Real.log_exp, add_comm]
  · intro u o t hu h
    obtain ⟨h1, -, h3, h4⟩ := watch_facts cfg env hg hp ht ht1 plan u t o hu.1 h
    refine ⟨h1, fun x hx => ?_⟩
    rw [h4, List.mem_append, List.mem_singleton] at hx
    rcases hx with hx | rfl
    · exact hu.2 x hx
    · exact lt_of_lt_of_le eps_pos h3

/-! ### A case for C129 -/

/-- The coins of C91 with a resampler that forgets the cloud and particles that move. -/
noncomputable def wildCoins : Env ℝ Bool Unit Unit :=
  { twoCoins with
    timestep := fun r l _ => (l.reverse, r)
    resampler := fun r _ _ => (.ok ([1], [[1/4]]), r) }

theorem wildCoins_good : GoodEnv wildCoins := by
  refine ⟨twoCoins_good.like_nonneg, twoCoins_good.prior_len, twoCoins_good.canon_len,
    fun r l e => by simp [wildCoins], ?_⟩
  intro r w l w' l' _ _ h3
  simp only [wildCoins, Except.ok.injEq, Prod.mk.injEq] at h3
  rw [← h3.1, ← h3.2]
  refine ⟨⟨?_, ?_⟩, ?_⟩ <;> simp

/-- Case for C129: always resampling, with data from a coin whose next outcome repeats the last. -/
example (c : ℝ) (n : Nat) : Spec.chanceEver
    (Spec.watch ⟨2, "error", eps, false⟩ wildCoins fun _ _ => ((), true))
    (fun u o => if u.1.head?.map Prod.fst = some o then 9/10 else 1/10)
    (fun u => Real.log (Spec.dataProb (fun h _ o =>
      if h.head?.map Prod.fst = some o then (9/10 : ℝ) else 1/10) u.1) + c ≤ logTotalLikelihood u.2) n
    ([], twoCoinsStart) ≤ Real.exp (-c) :=
  C129_log_total_likelihood ⟨2, "error", eps, false⟩ wildCoins wildCoins_good rfl le_rfl
    (lt_of_le_of_lt eps_real_le (by norm_num)) (fun x e => twoCoins_sum x e) (fun _ _ => ((), true))
    twoCoinsStart twoCoinsStart_winv rfl
    (fun h _ o => if h.head?.map Prod.fst = some o then 9/10 else 1/10)
    (fun h _ o => by split_ifs <;> norm_num) c n

/-- Case for `C129_total_exact`. -/
example (n : Nat) : Spec.atStop (Spec.watch ⟨2, "error", eps, false⟩ wildCoins fun _ _ => ((), true))
    (fun _ _ => (1 : ℝ)) (fun _ => False) (fun u => u.2.normRecord.prod) n ([], twoCoinsStart) = 1 :=
  C129_total_exact ⟨2, "error", eps, false⟩ wildCoins wildCoins_good rfl le_rfl
    (lt_of_le_of_lt eps_real_le (by norm_num)) (fun x e => twoCoins_sum x e) (fun _ _ => ((), true))
    twoCoinsStart twoCoinsStart_winv rfl (fun o x e => twoCoins_eps o x e)
    (fun _ _ _ => ⟨_, rfl⟩) n

end QInfer
