import Verif.Props.Mixed
import Verif.Props.SmcHistory
import Verif.Lemmas.Adapt

/-!
# C130: approximate likelihoods give approximately right posteriors

An updater that works with likelihoods that are slightly wrong, because they are simulated, poisoned or
taken from a cheaper model as in `MixedApproximateSMCUpdater`, ends with nearly the right posterior.
-/

set_option linter.unusedSectionVars false

namespace QInfer

open Finset Demo

variable {K : Type} {O E ω : Type} [Field K] [LinearOrder K] [IsStrictOrderedRing K]

/-- Calling `update(o, e, check_for_resample=False)` of a `MixedApproximateSMCUpdater` for each datum in
turn, stopping at the first exception; each datum comes with the shuffle drawn for it. -/
def mixedFeed (cfg : SmcConfig K) (env : Env K O E ω) (mix : MixCfg K) (argsort : List K → List Nat)
    (argsortN : List Nat → List Nat) (apx : O → List K → E → K) :
    List ((O × E) × List Nat) → Smc K O ω → Res K O ω
  | [], s => (s, .ok ())
  | d :: ds, s =>
    match mixedUpdate cfg env mix argsort argsortN apx s d.2 d.1.1 d.1.2 false with
    | (s, .error err) => (s, .error err)
    | (s, .ok ()) => mixedFeed cfg env mix argsort argsortN apx ds s

/-- Distance between two lists of weights: the sum of the absolute differences. -/
def Spec.weightDist (a b : List K) : K :=
  ∑ i ∈ range (max a.length b.length), |a.getD i 0 - b.getD i 0|

/-- The recorded probabilities of the data up to each datum (exclusive), added up: `T` at most if no
probability exceeds one. -/
def Spec.partialProds (ns : List K) : K := ∑ t ∈ range ns.length, (ns.take t).prod

/-! ## Helper lemmas -/

/-- A run of updates with likelihoods `L'` whose mean distance from `like` is at most `κ`. -/
inductive ApproxRun (n : ℕ) (x : ℕ → List K) (like : O → List K → E → K) (κ : K) :
    List (O × E) → (ℕ → K) → List K → (ℕ → K) → Prop
  | nil (w w' : ℕ → K) (h : ∀ i < n, w' i = w i) : ApproxRun n x like κ [] w [] w'
  | cons (d : O × E) (ds : List (O × E)) (w L' : ℕ → K) (N : K) (ns : List K) (w' : ℕ → K) (hN : 0 < N)
      (hw : ∀ i < n, 0 ≤ w i)
      (hL : ∑ i ∈ range n, w i * |like d.1 (x i) d.2 - L' i| ≤ κ)
      (h : ApproxRun n x like κ ds (fun i => w i * L' i / N) ns w') :
      ApproxRun n x like κ (d :: ds) w (N :: ns) w'

theorem partialProds_cons (N : K) (ns : List K) :
    Spec.partialProds (N :: ns) = 1 + N * Spec.partialProds ns := by
  unfold Spec.partialProds
  rw [List.length_cons, sum_range_succ', mul_sum, add_comm]
  simp

theorem approxRun_prod {n : ℕ} {x : ℕ → List K} {like : O → List K → E → K} {κ : K}
    {ds : List (O × E)} {w : ℕ → K} {ns : List K} {w' : ℕ → K} (h : ApproxRun n x like κ ds w ns w') :
    0 < ns.prod ∧ ns.length = ds.length := by
  induction h with
  | nil => simp
  | cons d ds w L' N ns w' hN _ _ _ ih => simpa [hN] using ih

theorem approxRun_congr {n : ℕ} {x : ℕ → List K} {like : O → List K → E → K} {κ : K}
    {ds : List (O × E)} {w v : ℕ → K} {ns : List K} {w' : ℕ → K} (h : ApproxRun n x like κ ds w ns w')
    (hv : ∀ i < n, w i = v i) : ApproxRun n x like κ ds v ns w' := by
  induction h generalizing v with
  | nil w w' h => exact .nil _ _ fun i hi => (h i hi).trans (hv i hi)
  | cons d ds w L' N ns w' hN hw hL h ih =>
    refine .cons d ds v L' N ns w' hN (fun i hi => hv i hi ▸ hw i hi) ?_
      (ih fun i hi => by dsimp only; rw [hv i hi])
    refine le_trans (le_of_eq (sum_congr rfl fun i hi => ?_)) hL
    rw [hv i (mem_range.1 hi)]

theorem approxRun_bound {n : ℕ} {x : ℕ → List K} {like : O → List K → E → K} {κ : K}
    {ds : List (O × E)} (hl : ∀ d ∈ ds, ∀ i < n, 0 ≤ like d.1 (x i) d.2 ∧ like d.1 (x i) d.2 ≤ 1)
    {w : ℕ → K} {ns : List K} {w' : ℕ → K} (h : ApproxRun n x like κ ds w ns w') (a : ℕ → K) :
    ∑ i ∈ range n, |a i * dataLike like ds (x i) - w' i * ns.prod| ≤
      ∑ i ∈ range n, |a i - w i| + κ * Spec.partialProds ns := by
  induction h generalizing a with
  | nil w w' h =>
    simp only [dataLike, List.map_nil, List.prod_nil, mul_one, Spec.partialProds, List.length_nil,
      range_zero, sum_empty, mul_zero, add_zero]
    exact (sum_congr rfl fun i hi => by rw [h i (mem_range.1 hi)]).le
  | cons d ds w L' N ns w' hN hw hL h ih =>
    have ih := ih (fun e he => hl e (by simp [he])) fun i => a i * like d.1 (x i) d.2 / N
    have hN' : N ≠ 0 := hN.ne'
    have e1 : ∑ i ∈ range n, |a i * dataLike like (d :: ds) (x i) - w' i * (N :: ns).prod| =
        N * ∑ i ∈ range n, |a i * like d.1 (x i) d.2 / N * dataLike like ds (x i) - w' i * ns.prod| := by
      rw [mul_sum]
      refine sum_congr rfl fun i _ => ?_
      rw [← abs_of_pos hN, ← abs_mul, abs_of_pos hN]
      congr 1
      simp only [dataLike, List.map_cons, List.prod_cons]
      field_simp
    have e2 : N * ∑ i ∈ range n, |a i * like d.1 (x i) d.2 / N - w i * L' i / N| =
        ∑ i ∈ range n, |a i * like d.1 (x i) d.2 - w i * L' i| := by
      rw [mul_sum]
      refine sum_congr rfl fun i _ => ?_
      rw [← sub_div, abs_div, abs_of_pos hN]
      field_simp
    have e3 : ∑ i ∈ range n, |a i * like d.1 (x i) d.2 - w i * L' i| ≤
        ∑ i ∈ range n, |a i - w i| + κ := by
      refine le_trans ?_ (add_le_add_right hL _)
      rw [← sum_add_distrib]
      refine sum_le_sum fun i hi => ?_
      obtain ⟨h0, h1⟩ := hl d (by simp) i (mem_range.1 hi)
      calc |a i * like d.1 (x i) d.2 - w i * L' i|
          = |(a i - w i) * like d.1 (x i) d.2 + w i * (like d.1 (x i) d.2 - L' i)| := by
            congr 1; ring
        _ ≤ |a i - w i| * like d.1 (x i) d.2 + w i * |like d.1 (x i) d.2 - L' i| := by
            refine (abs_add_le _ _).trans ?_
            rw [abs_mul, abs_mul, abs_of_nonneg h0, abs_of_nonneg (hw i (mem_range.1 hi))]
        _ ≤ |a i - w i| + w i * |like d.1 (x i) d.2 - L' i| := by
            gcongr
            exact mul_le_of_le_one_right (abs_nonneg _) h1
    rw [e1, partialProds_cons]
    have := mul_le_mul_of_nonneg_left ih hN.le
    rw [mul_add, e2] at this
    linarith

/-- Normalising two lists that are close. -/
theorem normalise_close {n : ℕ} (a b : ℕ → K) (ha : ∀ i < n, 0 ≤ a i) (B : K) (hB : 0 < B)
    (hb1 : ∑ i ∈ range n, b i = B) :
    ∑ i ∈ range n, |b i / B - a i / ∑ j ∈ range n, a j| ≤
      2 * (∑ i ∈ range n, |a i - b i|) / B := by
  obtain ⟨A, hA⟩ : ∃ A, A = ∑ j ∈ range n, a j := ⟨_, rfl⟩
  rw [← hA]
  have hA0 : 0 ≤ A := by rw [hA]; exact sum_nonneg fun i hi => ha i (mem_range.1 hi)
  have hAB : |A - B| ≤ ∑ i ∈ range n, |a i - b i| := by
    rw [hA, ← hb1, ← sum_sub_distrib]
    exact abs_sum_le_sum_abs _ _
  have hterm : ∀ i ∈ range n, |b i / B - a i / A| ≤ (|a i - b i| + a i / A * |A - B|) / B := by
    intro i hi
    have hi := mem_range.1 hi
    rcases hA0.eq_or_lt with h0 | h0
    · have hai : a i = 0 := by
        have := (sum_eq_zero_iff_of_nonneg fun i hi => ha i (mem_range.1 hi)).1 (hA.symm.trans h0.symm) i
          (mem_range.2 hi)
        exact this
      rw [hai]
      simp [abs_div, abs_of_pos hB]
    · have e : b i / B - a i / A = ((b i - a i) + a i / A * (A - B)) / B := by
        field_simp
        ring
      rw [e, abs_div, abs_of_pos hB]
      gcongr
      refine (abs_add_le _ _).trans ?_
      rw [abs_mul, abs_of_nonneg (div_nonneg (ha i hi) hA0), abs_sub_comm]
  refine (sum_le_sum hterm).trans ?_
  rw [← sum_div, sum_add_distrib, ← sum_mul, ← sum_div, ← hA]
  gcongr
  have : A / A ≤ 1 := div_self_le_one A
  have := mul_le_mul this hAB (abs_nonneg _) zero_le_one
  linarith

theorem weightDist_eq (a b : List K) (h : a.length = b.length) :
    Spec.weightDist a b = ∑ i ∈ range a.length, |a.getD i 0 - b.getD i 0| := by
  rw [Spec.weightDist, ← h, max_self]

theorem dataPosterior_length (like : O → List K → E → K) (w : List K) (locs : List (List K))
    (h : locs.length = w.length) (ds : List (O × E)) :
    (dataPosterior like w locs ds).length = w.length := by
  simp [dataPosterior, h]

theorem sum_range_getD (w : List K) : ∑ i ∈ range w.length, w.getD i 0 = w.sum := by
  induction w with
  | nil => rfl
  | cons a w ih => rw [List.length_cons, sum_range_succ']; simp [← ih, add_comm]

theorem getD_nonneg {w : List K} (hw : ∀ x ∈ w, 0 ≤ x) (i : ℕ) : 0 ≤ w.getD i 0 := by
  rcases lt_or_ge i w.length with h | h
  · rw [List.getD_eq_getElem _ _ h]; exact hw _ (List.getElem_mem h)
  · rw [List.getD_eq_default _ _ h]

/-- The conclusions common to all kinds of approximate runs. -/
theorem approxRun_close {like : O → List K → E → K} {κ : K} {ds : List (O × E)} {w u : List K}
    {locs : List (List K)} (hlen : locs.length = w.length) (hw : ∀ x ∈ w, 0 ≤ x)
    (hl : ∀ d ∈ ds, ∀ x ∈ locs, 0 ≤ like d.1 x d.2 ∧ like d.1 x d.2 ≤ 1) {ns : List K}
    (h : ApproxRun w.length (fun i => locs.getD i []) like κ ds (fun i => w.getD i 0) ns fun i => u.getD i 0)
    (hu : u.length = w.length) (hu1 : u.sum = 1) :
    |dataEvidence like w locs ds - ns.prod| ≤ κ * Spec.partialProds ns ∧
    Spec.weightDist u (dataPosterior like w locs ds) ≤ 2 * (κ * Spec.partialProds ns) / ns.prod := by
  have hl' : ∀ d ∈ ds, ∀ i < w.length, 0 ≤ like d.1 (locs.getD i []) d.2 ∧ like d.1 (locs.getD i []) d.2 ≤ 1 := by
    intro d hd i hi
    rw [List.getD_eq_getElem _ _ (hlen ▸ hi)]
    exact hl d hd _ (List.getElem_mem _)
  have hb := approxRun_bound hl' h fun i => w.getD i 0
  simp only [sub_self, abs_zero, sum_const_zero, zero_add] at hb
  have hP := (approxRun_prod h).1
  have hsum : ∑ i ∈ range w.length, u.getD i 0 * ns.prod = ns.prod := by
    rw [← sum_mul, ← hu, sum_range_getD, hu1, one_mul]
  constructor
  · have he : dataEvidence like w locs ds - ns.prod = ∑ i ∈ range w.length,
        (w.getD i 0 * dataLike like ds (locs.getD i []) - u.getD i 0 * ns.prod) := by
      rw [sum_sub_distrib, hsum, dataEvidence_range _ _ _ hlen]
    rw [he]
    exact (abs_sum_le_sum_abs _ _).trans hb
  · rw [weightDist_eq _ _ (by rw [dataPosterior_length _ _ _ hlen, hu]), hu]
    have hn := normalise_close (n := w.length) (fun i => w.getD i 0 * dataLike like ds (locs.getD i []))
      (fun i => u.getD i 0 * ns.prod) (by
        intro i hi
        refine mul_nonneg (getD_nonneg hw i) (List.prod_nonneg ?_)
        intro y hy
        obtain ⟨d, hd, rfl⟩ := List.mem_map.1 hy
        exact (hl' d hd i hi).1) _ hP hsum
    rw [← dataEvidence_range _ _ _ hlen] at hn
    refine le_trans (le_of_eq ?_) (hn.trans (by gcongr))
    refine sum_congr rfl fun i _ => ?_
    rw [dataPosterior_getD _ _ _ hlen, mul_div_cancel_right₀ _ hP.ne']

/-- A run of the ordinary updater with another likelihood. -/
theorem feed_approx (cfg : SmcConfig K) (env : Env K O E ω) (hg : GoodEnv env) (hst : Static env)
    (hp : cfg.policy = "error") (ht : eps ≤ cfg.zeroThresh) (ht1 : cfg.zeroThresh < 1)
    (like : O → List K → E → K) (δ : K) (ds : List (O × E)) (s : Smc K O ω)
    (hlen : s.locs.length = s.weights.length) (hprob : IsProb s.weights)
    (hδ : ∀ d ∈ ds, ∀ x ∈ s.locs, |like d.1 x d.2 - env.likelihood d.1 x d.2| ≤ δ)
    (hok : (feed cfg env false ds s).2 = .ok ()) :
    ∃ ns, (feed cfg env false ds s).1.normRecord = s.normRecord ++ ns ∧
      ApproxRun s.weights.length (fun i => s.locs.getD i []) like δ ds (fun i => s.weights.getD i 0) ns
        (fun i => (feed cfg env false ds s).1.weights.getD i 0) ∧
      ((∀ o x e, env.likelihood o x e ≤ 1) → ∀ n ∈ ns, n ≤ 1) := by
  induction ds generalizing s with
  | nil => exact ⟨[], by simp [feed], .nil _ _ fun i _ => rfl, by simp⟩
  | cons d ds ih =>
    obtain ⟨o, e⟩ := d
    have hupd : (update cfg env s o e false).2 = .ok () := by
      unfold feed at hok
      dsimp only at hok
      rcases hr : update cfg env s o e false with ⟨t, _ | ⟨⟩⟩
      · rw [hr] at hok; exact absurd hok (by simp)
      · rfl
    have hfeed : feed cfg env false ((o, e) :: ds) s = feed cfg env false ds (update cfg env s o e false).1 := by
      rw [feed]
      dsimp only
      rcases hr : update cfg env s o e false with ⟨t, _ | ⟨⟩⟩
      · rw [hr] at hupd; exact absurd hupd (by simp)
      · rfl
    have hev := datum_error_ok cfg env hg hp ht s hlen hprob.1 o e hupd
    obtain ⟨-, h1, h2, -, h3, -⟩ :=
      datum_normal cfg env s o e hlen hprob.1 (fun x => hg.like_nonneg o x e) ht1 hev
    have hevp := lt_of_lt_of_le eps_pos hev
    rw [hst] at h2
    rw [hfeed] at hok ⊢
    obtain ⟨t, ht'⟩ : ∃ t, t = (update cfg env s o e false).1 := ⟨_, rfl⟩
    rw [← ht'] at h1 h2 h3 hok ⊢
    have hl1 : t.weights.length = s.weights.length := by rw [h1, posterior_length _ _ _ _ _ hlen]
    obtain ⟨ns, hns, hrun, hle⟩ := ih t (by rw [h2, hl1, hlen])
      ⟨by rw [h1]; exact posterior_nonneg _ _ _ _ _ hprob.1 fun x => hg.like_nonneg o x e,
        by rw [h1]; exact posterior_sum _ _ _ _ _ hevp.ne'⟩
      (by rw [h2]; exact fun d hd => hδ d (by simp [hd])) hok
    refine ⟨evidence env.likelihood s.weights s.locs o e :: ns, by rw [hns, h3]; simp, ?_, ?_⟩
    swap
    · intro h1' n hn
      rcases List.mem_cons.1 hn with rfl | hn
      · have hz : s.weights.sum = ((s.weights.zip s.locs).map Prod.fst).sum := by
          rw [List.map_fst_zip (by rw [hlen])]
        rw [← hprob.2, hz]
        refine List.sum_le_sum fun p hp => ?_
        exact mul_le_of_le_one_right (hprob.1 _ (List.of_mem_zip hp).1) (h1' _ _ _)
      · exact hle h1' n hn
    refine .cons _ _ _ (fun i => env.likelihood o (s.locs.getD i []) e) _ _ _ hevp
      (fun i _ => getD_nonneg hprob.1 i) ?_ ?_
    · calc _ ≤ ∑ i ∈ range s.weights.length, s.weights.getD i 0 * δ := by
            refine sum_le_sum fun i hi => mul_le_mul_of_nonneg_left ?_ (getD_nonneg hprob.1 i)
            refine hδ (o, e) (by simp) _ ?_
            rw [List.getD_eq_getElem _ _ (by rw [hlen]; exact mem_range.1 hi)]
            exact List.getElem_mem _
        _ = δ := by rw [← sum_mul, sum_range_getD, hprob.2, one_mul]
    · rw [hl1, h2] at hrun
      convert hrun using 2 with i
      rw [h1]
      have := dataPosterior_getD env.likelihood s.weights s.locs hlen [(o, e)] i
      simpa [dataPosterior, posterior, dataLike, dataEvidence, evidence] using this.symm

/-! ## C130 -/

/-- **C130, approximate likelihoods.**  Let an updater without resampling use likelihoods that differ by
at most `δ` from the right ones, at its particles and for the data given.  If it accepts `T` data with
recorded probabilities `n₁, …, n_T`, then the right probability of all data differs from their product
by at most `δ (1 + n₁ + n₁n₂ + …)`, and its weights from the right posterior (in the sum of absolute
differences) by at most twice that, divided by the product. -/
theorem C130_posterior (cfg : SmcConfig K) (env : Env K O E ω) (hg : GoodEnv env) (hst : Static env)
    (hp : cfg.policy = "error") (ht : eps ≤ cfg.zeroThresh) (ht1 : cfg.zeroThresh < 1)
    (like : O → List K → E → K) (δ : K) (ds : List (O × E)) (s : Smc K O ω)
    (hlen : s.locs.length = s.weights.length) (hprob : IsProb s.weights)
    (hl : ∀ d ∈ ds, ∀ x ∈ s.locs, 0 ≤ like d.1 x d.2 ∧ like d.1 x d.2 ≤ 1)
    (hδ : ∀ d ∈ ds, ∀ x ∈ s.locs, |like d.1 x d.2 - env.likelihood d.1 x d.2| ≤ δ)
    (hok : (feed cfg env false ds s).2 = .ok ()) :
    ∃ ns, (feed cfg env false ds s).1.normRecord = s.normRecord ++ ns ∧ ns.length = ds.length ∧
      0 < ns.prod ∧
      |dataEvidence like s.weights s.locs ds - ns.prod| ≤ δ * Spec.partialProds ns ∧
      Spec.weightDist (feed cfg env false ds s).1.weights (dataPosterior like s.weights s.locs ds) ≤
        2 * (δ * Spec.partialProds ns) / ns.prod := by
  obtain ⟨ns, hns, hrun, -⟩ := feed_approx cfg env hg hst hp ht ht1 like δ ds s hlen hprob hδ hok
  obtain ⟨hP, hL⟩ := approxRun_prod hrun
  obtain ⟨hw, -, -, ns', -, -, hge, hpr⟩ := feed_closed cfg env hg hst hp ht ht1 ds s hlen hprob hok
  have hu : (feed cfg env false ds s).1.weights.length = s.weights.length := by
    rw [hw, dataPosterior_length _ _ _ hlen]
  have hu1 : (feed cfg env false ds s).1.weights.sum = 1 := by
    have hne : dataEvidence env.likelihood s.weights s.locs ds ≠ 0 := by
      rw [← hpr]
      exact (List.prod_pos fun x hx => lt_of_lt_of_le eps_pos (hge x hx)).ne'
    rw [hw, show dataPosterior env.likelihood s.weights s.locs ds =
      ((s.weights.zip s.locs).map fun p => p.1 * dataLike env.likelihood ds p.2).map
        (· / dataEvidence env.likelihood s.weights s.locs ds) by simp [dataPosterior], sum_map_div]
    exact div_self hne
  obtain ⟨h1, h2⟩ := approxRun_close hlen hprob.1 hl hrun hu hu1
  exact ⟨ns, hns, hL, hP, h1, h2⟩

/-! ## The mixed updater -/

section

variable (cfg : SmcConfig K) (env : Env K O E ω) (mix : MixCfg K) (argsort : List K → List Nat)
  (argsortN : List Nat → List Nat) (apx : O → List K → E → K)

/-- One accepted update of the mixed updater. -/
theorem mixed_step (hg : GoodEnv env) (hst : Static env) (hapx : ∀ o x e, 0 ≤ apx o x e)
    (has : SortsIdx 0 argsort) (hasN : SortsIdx 0 argsortN) (hp : cfg.policy = "error")
    (ht : eps ≤ cfg.zeroThresh) (ht1 : cfg.zeroThresh < 1) (δ : K) (hδ0 : 0 ≤ δ) (o : O) (e : E)
    (s : Smc K O ω) (sh : List ℕ) (hsh : sh.Perm (List.range s.weights.length))
    (hlen : s.locs.length = s.weights.length) (hprob : IsProb s.weights)
    (hδ : ∀ x ∈ s.locs, |env.likelihood o x e - apx o x e| ≤ δ)
    (hok : (mixedUpdate cfg env mix argsort argsortN apx s sh o e false).2 = .ok ()) :
    ∃ (N : K) (L' : ℕ → K), 0 < N ∧
      ∑ i ∈ range s.weights.length, s.weights.getD i 0 * |env.likelihood o (s.locs.getD i []) e - L' i| ≤
        δ * (1 - mix.ratio) ∧
      (mixedUpdate cfg env mix argsort argsortN apx s sh o e false).1.locs = s.locs ∧
      (mixedUpdate cfg env mix argsort argsortN apx s sh o e false).1.normRecord = s.normRecord ++ [N] ∧
      (mixedUpdate cfg env mix argsort argsortN apx s sh o e false).1.weights.length = s.weights.length ∧
      IsProb (mixedUpdate cfg env mix argsort argsortN apx s sh o e false).1.weights ∧
      ∀ i < s.weights.length, (mixedUpdate cfg env mix argsort argsortN apx s sh o e false).1.weights.getD i 0 =
        s.weights.getD i 0 * L' i / N := by
  obtain ⟨w, hw⟩ : ∃ w, w = s.weights := ⟨_, rfl⟩
  obtain ⟨m, hm⟩ : ∃ m, m = mixMask mix (mixOrder argsort sh w) (argsortN (mixOrder argsort sh w)) w :=
    ⟨_, rfl⟩
  have hwn : ∀ x ∈ w, 0 ≤ x := hw ▸ hprob.1
  rw [← hw] at hsh hlen ⊢
  have hA := C38_assignment mix argsort argsortN has hasN w hwn sh hsh
  have hB := C38_assertion mix argsort argsortN has hasN w hwn s.locs hlen sh hsh env.likelihood apx o e
  dsimp only at hA hB
  rw [← hm] at hA hB
  obtain ⟨hall, hml, -, -, -, hwt, -⟩ := hA
  rcases hc : mixedCell mix argsort argsortN sh env.likelihood apx w s.locs o e with err | ⟨w', L, N⟩
  · exfalso
    unfold mixedUpdate at hok
    dsimp only [recordDatum] at hok
    rw [← hw, hc] at hok
    cases hok
  have hLL := C38_likelihoods mix argsort argsortN has hasN w hwn s.locs hlen sh hsh env.likelihood apx o e
    w' L N hc
  dsimp only at hLL
  rw [← hm] at hLL
  obtain ⟨hL, hN, hbig, hsmall⟩ := hLL
  -- the likelihoods used, particle by particle
  have hLi : ∀ i < w.length, L[i]? = some (L.getD i 0) ∧ 0 ≤ L.getD i 0 ∧
      |env.likelihood o (s.locs.getD i []) e - L.getD i 0| ≤
        if m.getD i false = false then δ else 0 := by
    intro i hi
    have hxi : s.locs[i]? = some (s.locs.getD i []) := by
      rw [List.getD_eq_getElem _ _ (hlen ▸ hi)]; exact List.getElem?_eq_getElem _
    have hmi := marked_iff m i (hml ▸ hi)
    rcases hall i hi with h | h
    · have h1 := (hL i _ hxi).1 h
      have h2 : L.getD i 0 = env.likelihood o (s.locs.getD i []) e := by
        rw [List.getD_eq_getElem?_getD, h1]; rfl
      rw [h2, hmi.1.1 h]
      exact ⟨h1, hg.like_nonneg _ _ _, by simp⟩
    · have h1 := (hL i _ hxi).2 h
      have h2 : L.getD i 0 = apx o (s.locs.getD i []) e := by
        rw [List.getD_eq_getElem?_getD, h1]; rfl
      rw [h2, hmi.2.1 h]
      refine ⟨h1, hapx _ _ _, ?_⟩
      rw [if_pos rfl]
      refine hδ _ ?_
      rw [List.getD_eq_getElem _ _ (hlen ▸ hi)]
      exact List.getElem_mem _
  have hLlen : w.length ≤ L.length := by
    by_contra hlt
    rw [not_le] at hlt
    have := (hLi L.length hlt).1
    simp at this
  have hzl : (List.zipWith (· * ·) w L).length = w.length := by simp [hLlen]
  have hz0 : ∀ x ∈ List.zipWith (· * ·) w L, 0 ≤ x := by
    intro x hx
    obtain ⟨i, hi, rfl⟩ := List.mem_iff_getElem.1 hx
    rw [hzl] at hi
    rw [List.getElem_zipWith]
    refine mul_nonneg (hwn _ (List.getElem_mem _)) ?_
    have := (hLi i hi).2.1
    rwa [List.getD_eq_getElem _ _ (hi.trans_le hLlen)] at this
  have hN0 : 0 ≤ N := hN ▸ List.sum_nonneg hz0
  have hNe : eps ≤ N := by
    by_contra hlt
    rw [not_le] at hlt
    have hw' := hsmall (by rwa [abs_of_nonneg hN0])
    unfold mixedUpdate at hok
    dsimp only [recordDatum] at hok
    rw [← hw, hc] at hok
    dsimp only at hok
    rw [hw', if_pos (by simpa only [List.all_eq_true, decide_eq_true_eq] using hz0)] at hok
    unfold applyUpdate at hok
    rw [← hN, if_pos (hlt.le.trans ht)] at hok
    simp [hp] at hok
  have hNp : 0 < N := lt_of_lt_of_le eps_pos hNe
  have hw' := hbig (by rwa [abs_of_nonneg hN0])
  have hw'2 : w' = (List.zipWith (· * ·) w L).map (· / N) := by
    rw [hw', List.map_zipWith]
  have hw'l : w'.length = w.length := by rw [hw'2, List.length_map, hzl]
  have hw'0 : ∀ x ∈ w', 0 ≤ x := by
    rw [hw'2]
    intro x hx
    obtain ⟨y, hy, rfl⟩ := List.mem_map.1 hx
    exact div_nonneg (hz0 y hy) hN0
  have hw's : w'.sum = 1 := by
    rw [hw'2, sum_map_div, ← hN, div_self hNp.ne']
  have hr : mixedUpdate cfg env mix argsort argsortN apx s sh o e false =
      finishUpdate cfg env (recordDatum s o) w' N e false := by
    unfold mixedUpdate
    dsimp only [recordDatum]
    rw [← hw, hc]
    dsimp only
    rw [if_pos (by simpa only [List.all_eq_true, decide_eq_true_eq] using hw'0)]
    unfold applyUpdate
    rw [hw's, if_neg (not_le.2 ht1)]
  obtain ⟨-, f1, f2, -, f3, -⟩ := finishUpdate_false cfg env (recordDatum s o) w' N e
    (by rw [hw'l, hw]; rfl)
  rw [hst] at f2
  rw [hr, f1]
  refine ⟨N, fun i => L.getD i 0, hNp, ?_, f2, f3, hw'l, ⟨hw'0, hw's⟩, ?_⟩
  · have hun : ∃ p, Unmarked m p := by
      by_contra hn
      push Not at hn
      rw [hB.2 (Or.inr hn)] at hc
      cases hc
    have hlt : weightWhere w m false < 1 - mix.ratio := hwt.resolve_right (by push Not; exact hun)
    rw [weightWhere_range _ _ hml] at hlt
    calc _ ≤ ∑ i ∈ range w.length, δ * (if m.getD i false = false then w.getD i 0 else 0) := by
          refine sum_le_sum fun i hi => ?_
          refine (mul_le_mul_of_nonneg_left (hLi i (mem_range.1 hi)).2.2 (getD_nonneg hwn i)).trans ?_
          split <;> simp [mul_comm]
      _ = δ * ((List.range w.length).map fun p => if m.getD p false = false then w.getD p 0 else 0).sum := by
          rw [← mul_sum]; rfl
      _ ≤ _ := mul_le_mul_of_nonneg_left hlt.le hδ0
  · intro i hi
    dsimp only
    rw [hw', List.getD_eq_getElem _ _ (by simpa using ⟨hi, hi.trans_le hLlen⟩), List.getElem_zipWith,
      List.getD_eq_getElem _ _ hi, List.getD_eq_getElem _ _ (hi.trans_le hLlen)]

theorem mixedFeed_approx (hg : GoodEnv env) (hst : Static env) (hapx : ∀ o x e, 0 ≤ apx o x e)
    (has : SortsIdx 0 argsort) (hasN : SortsIdx 0 argsortN) (hp : cfg.policy = "error")
    (ht : eps ≤ cfg.zeroThresh) (ht1 : cfg.zeroThresh < 1) (δ : K) (hδ0 : 0 ≤ δ)
    (ds : List ((O × E) × List ℕ)) (s : Smc K O ω)
    (hlen : s.locs.length = s.weights.length) (hprob : IsProb s.weights)
    (hsh : ∀ d ∈ ds, d.2.Perm (List.range s.weights.length))
    (hδ : ∀ d ∈ ds, ∀ x ∈ s.locs, |env.likelihood d.1.1 x d.1.2 - apx d.1.1 x d.1.2| ≤ δ)
    (hok : (mixedFeed cfg env mix argsort argsortN apx ds s).2 = .ok ()) :
    ∃ ns, (mixedFeed cfg env mix argsort argsortN apx ds s).1.normRecord = s.normRecord ++ ns ∧
      (mixedFeed cfg env mix argsort argsortN apx ds s).1.locs = s.locs ∧
      (mixedFeed cfg env mix argsort argsortN apx ds s).1.weights.length = s.weights.length ∧
      IsProb (mixedFeed cfg env mix argsort argsortN apx ds s).1.weights ∧
      ApproxRun s.weights.length (fun i => s.locs.getD i []) env.likelihood (δ * (1 - mix.ratio))
        (ds.map Prod.fst) (fun i => s.weights.getD i 0) ns
        fun i => (mixedFeed cfg env mix argsort argsortN apx ds s).1.weights.getD i 0 := by
  induction ds generalizing s with
  | nil => exact ⟨[], by simp [mixedFeed], rfl, rfl, hprob, .nil _ _ fun i _ => rfl⟩
  | cons d ds ih =>
    obtain ⟨⟨o, e⟩, sh⟩ := d
    obtain ⟨r, hr⟩ : ∃ r, r = mixedUpdate cfg env mix argsort argsortN apx s sh o e false := ⟨_, rfl⟩
    have hupd : r.2 = .ok () := by
      unfold mixedFeed at hok
      dsimp only at hok
      rw [← hr] at hok
      rcases r with ⟨t, _ | ⟨⟩⟩
      · exact absurd hok (by simp)
      · rfl
    have hfeed : mixedFeed cfg env mix argsort argsortN apx (((o, e), sh) :: ds) s =
        mixedFeed cfg env mix argsort argsortN apx ds r.1 := by
      rw [mixedFeed]
      dsimp only
      rw [← hr]
      rcases r with ⟨t, _ | ⟨⟩⟩
      · exact absurd hupd (by simp)
      · rfl
    obtain ⟨N, L', hN, hL, h1, h2, h3, h4, h5⟩ := mixed_step cfg env mix argsort argsortN apx hg hst hapx has hasN
      hp ht ht1 δ hδ0 o e s sh (hsh ((o, e), sh) (by simp)) hlen hprob (hδ ((o, e), sh) (by simp)) (hr ▸ hupd)
    rw [← hr] at h1 h2 h3 h4 h5
    rw [hfeed] at hok ⊢
    obtain ⟨ns, g1, g2, g3, g4, g5⟩ := ih r.1 (by rw [h1, h3]; exact hlen) h4
      (by rw [h3]; exact fun d hd => hsh d (by simp [hd]))
      (by rw [h1]; exact fun d hd => hδ d (by simp [hd])) hok
    refine ⟨N :: ns, by rw [g1, h2, List.append_assoc]; rfl, g2.trans h1, g3.trans h3, g4, ?_⟩
    rw [List.map_cons]
    refine .cons _ _ _ L' _ _ _ hN (fun i _ => getD_nonneg hprob.1 i) hL ?_
    rw [h3, h1] at g5
    exact approxRun_congr g5 fun i hi => h5 i hi

/-- **C130, two models.**  `MixedApproximateSMCUpdater` with a mixture ratio `r` and an approximate model
whose likelihoods are off by at most `δ` errs at most as much as if *every* likelihood were off by
`(1 - r) δ`: bounds as in `C130_posterior`, whatever the thresholds and the shuffles. -/
theorem C130_mixed (hg : GoodEnv env) (hst : Static env) (hapx : ∀ o x e, 0 ≤ apx o x e)
    (has : SortsIdx 0 argsort) (hasN : SortsIdx 0 argsortN) (hp : cfg.policy = "error")
    (ht : eps ≤ cfg.zeroThresh) (ht1 : cfg.zeroThresh < 1) (δ : K) (hδ0 : 0 ≤ δ)
    (ds : List ((O × E) × List ℕ)) (s : Smc K O ω)
    (hlen : s.locs.length = s.weights.length) (hprob : IsProb s.weights)
    (hsh : ∀ d ∈ ds, d.2.Perm (List.range s.weights.length))
    (hl : ∀ d ∈ ds, ∀ x ∈ s.locs, env.likelihood d.1.1 x d.1.2 ≤ 1)
    (hδ : ∀ d ∈ ds, ∀ x ∈ s.locs, |env.likelihood d.1.1 x d.1.2 - apx d.1.1 x d.1.2| ≤ δ)
    (hok : (mixedFeed cfg env mix argsort argsortN apx ds s).2 = .ok ()) :
    let r := (mixedFeed cfg env mix argsort argsortN apx ds s).1
    ∃ ns, r.normRecord = s.normRecord ++ ns ∧ ns.length = ds.length ∧ 0 < ns.prod ∧ r.locs = s.locs ∧
      IsProb r.weights ∧
      |dataEvidence env.likelihood s.weights s.locs (ds.map Prod.fst) - ns.prod| ≤
        δ * (1 - mix.ratio) * Spec.partialProds ns ∧
      Spec.weightDist r.weights (dataPosterior env.likelihood s.weights s.locs (ds.map Prod.fst)) ≤
        2 * (δ * (1 - mix.ratio) * Spec.partialProds ns) / ns.prod := by
  obtain ⟨ns, h1, h2, h3, h4, h5⟩ := mixedFeed_approx cfg env mix argsort argsortN apx hg hst hapx has hasN hp
    ht ht1 δ hδ0 ds s hlen hprob hsh hδ hok
  obtain ⟨hP, hL⟩ := approxRun_prod h5
  obtain ⟨g1, g2⟩ := approxRun_close hlen hprob.1 (by
    intro d hd x hx
    obtain ⟨d', hd', rfl⟩ := List.mem_map.1 hd
    exact ⟨hg.like_nonneg _ _ _, hl d' hd' x hx⟩) h5 h3 h4.2
  exact ⟨ns, h1, by simpa using hL, hP, h2, h4, g1, g2⟩

end

/-! ## Consequences -/

theorem partialProds_le (ns : List K) (h0 : ∀ n ∈ ns, 0 ≤ n) (h1 : ∀ n ∈ ns, n ≤ 1) :
    Spec.partialProds ns ≤ ns.length := by
  unfold Spec.partialProds
  calc _ ≤ ∑ _t ∈ range ns.length, (1 : K) := by
        refine sum_le_sum fun t _ => ?_
        have : ∀ l : List K, (∀ n ∈ l, 0 ≤ n) → (∀ n ∈ l, n ≤ 1) → l.prod ≤ 1 := by
          intro l
          induction l with
          | nil => simp
          | cons a l ih =>
            intro h h'
            rw [List.prod_cons]
            exact mul_le_one₀ (h' a (by simp)) (List.prod_nonneg fun x hx => h x (by simp [hx]))
              (ih (fun x hx => h x (by simp [hx])) fun x hx => h' x (by simp [hx]))
        exact this _ (fun n hn => h0 n (List.mem_of_mem_take hn)) fun n hn => h1 n (List.mem_of_mem_take hn)
    _ = _ := by simp

/-- **C130, in terms of the number of data.**  With likelihoods between zero and one the distance from the
right posterior is at most `2 T δ` divided by the probability recorded for the `T` data. -/
theorem C130_rate (cfg : SmcConfig K) (env : Env K O E ω) (hg : GoodEnv env) (hst : Static env)
    (hp : cfg.policy = "error") (ht : eps ≤ cfg.zeroThresh) (ht1 : cfg.zeroThresh < 1)
    (like : O → List K → E → K) (δ : K) (hδ0 : 0 ≤ δ) (ds : List (O × E)) (s : Smc K O ω)
    (hlen : s.locs.length = s.weights.length) (hprob : IsProb s.weights)
    (hl : ∀ d ∈ ds, ∀ x ∈ s.locs, 0 ≤ like d.1 x d.2 ∧ like d.1 x d.2 ≤ 1)
    (hl' : ∀ o x e, env.likelihood o x e ≤ 1)
    (hδ : ∀ d ∈ ds, ∀ x ∈ s.locs, |like d.1 x d.2 - env.likelihood d.1 x d.2| ≤ δ)
    (hok : (feed cfg env false ds s).2 = .ok ()) :
    Spec.weightDist (feed cfg env false ds s).1.weights (dataPosterior like s.weights s.locs ds) ≤
      2 * (δ * ds.length) / dataEvidence env.likelihood s.weights s.locs ds := by
  obtain ⟨ns, hns, hL, hP, -, h⟩ := C130_posterior cfg env hg hst hp ht ht1 like δ ds s hlen hprob hl hδ hok
  obtain ⟨-, -, -, ns', hns', -, hge, hpr⟩ := feed_closed cfg env hg hst hp ht ht1 ds s hlen hprob hok
  have : ns' = ns := List.append_cancel_left (hns'.symm.trans hns)
  subst this
  rw [← hpr]
  refine h.trans ?_
  have hle : Spec.partialProds ns' ≤ ds.length := by
    obtain ⟨ns, hns, -, hle⟩ := feed_approx cfg env hg hst hp ht ht1 like δ ds s hlen hprob hδ hok
    have : ns' = ns := List.append_cancel_left (hns'.symm.trans hns)
    subst this
    rw [← hL]
    exact partialProds_le _ (fun n hn => eps_pos.le.trans (hge n hn)) (hle hl')
  gcongr

/-- **C130, estimates.**  Two clouds on the same particles whose weights are `d` apart give means of a
quantity bounded by `C` that differ by at most `C d`. -/
theorem C130_estimates (f : List K → K) (C : K) (u v : List K) (locs : List (List K))
    (hu : u.length = locs.length) (hv : v.length = locs.length) (hf : ∀ x ∈ locs, |f x| ≤ C) :
    |((u.zip locs).map fun p => p.1 * f p.2).sum - ((v.zip locs).map fun p => p.1 * f p.2).sum| ≤
      C * Spec.weightDist u v := by
  have hz : ∀ a : List K, a.length = locs.length → ((a.zip locs).map fun p => p.1 * f p.2).sum =
      ∑ i ∈ range locs.length, a.getD i 0 * f (locs.getD i []) := by
    intro a ha
    rw [← sum_range_getD]
    simp only [List.length_map, List.length_zip, ha, min_self]
    refine sum_congr rfl fun i hi => ?_
    have hi' := mem_range.1 hi
    rw [List.getD_eq_getElem _ _ (by simpa [ha] using hi'), List.getD_eq_getElem _ _ (ha ▸ hi'),
      List.getD_eq_getElem _ _ hi']
    simp
  rw [hz u hu, hz v hv, weightDist_eq _ _ (hu.trans hv.symm), hu, ← sum_sub_distrib, mul_sum]
  refine (abs_sum_le_sum_abs _ _).trans (sum_le_sum fun i hi => ?_)
  rw [← sub_mul, abs_mul, mul_comm]
  refine mul_le_mul_of_nonneg_right (hf _ ?_) (abs_nonneg _)
  rw [List.getD_eq_getElem _ _ (mem_range.1 hi)]
  exact List.getElem_mem _

/-- **C130, the probability of the data matters.**  However small the error `δ` of the likelihoods, if the
data are as unlikely as `δ` then the posterior can be entirely wrong: here all weight ends at the particle
that the right posterior excludes, the largest distance there is. -/
theorem C130_unlikely_data (cfg : SmcConfig K) (env : Env K O E ω) (hg : GoodEnv env)
    (ht1 : cfg.zeroThresh < 1) (δ : K) (hδ : 2 * eps ≤ δ) (o : O) (e : E)
    (h0 : env.likelihood o [0] e = 0) (h1 : env.likelihood o [1] e = δ) (s : Smc K O ω)
    (hw : s.weights = [1 / 2, 1 / 2]) (hx : s.locs = [[0], [1]]) (like : O → List K → E → K)
    (hl0 : like o [0] e = δ) (hl1 : like o [1] e = 0) :
    (∀ x ∈ s.locs, |like o x e - env.likelihood o x e| ≤ δ) ∧
    (feed cfg env false [(o, e)] s).2 = .ok () ∧
    Spec.weightDist (feed cfg env false [(o, e)] s).1.weights
      (dataPosterior like s.weights s.locs [(o, e)]) = 2 := by
  have hδ0 : 0 < δ := lt_of_lt_of_le (by have := eps_pos (K := K); linarith) hδ
  have hev : evidence env.likelihood s.weights s.locs o e = δ / 2 := by
    rw [hw, hx]; simp [evidence, h0, h1]; ring
  obtain ⟨r1, r2, -⟩ := datum_normal cfg env s o e (by rw [hw, hx]; rfl) (by rw [hw]; simp)
    (fun x => hg.like_nonneg o x e) ht1 (by rw [hev]; linarith)
  have hf : feed cfg env false [(o, e)] s = update cfg env s o e false := by
    unfold feed feed
    dsimp only
    rcases hr : update cfg env s o e false with ⟨t, _ | ⟨⟩⟩
    · rw [hr] at r1
    · rfl
  have hp : posterior env.likelihood s.weights s.locs o e = [0, 1] := by
    have : evidence env.likelihood [1 / 2, 1 / 2] [[0], [1]] o e = δ / 2 := by rw [← hev, hw, hx]
    rw [hw, hx]
    simp only [posterior, this, List.zip_cons_cons, List.zip_nil_right, List.map_cons, List.map_nil, h0, h1]
    congr 1
    · simp
    · congr 1; field_simp
  have hq : dataPosterior like s.weights s.locs [(o, e)] = [1, 0] := by
    have : dataEvidence like [1 / 2, 1 / 2] [[0], [1]] [(o, e)] = δ / 2 := by
      simp [dataEvidence, dataLike, hl0, hl1]; ring
    rw [hw, hx]
    simp only [dataPosterior, this, List.zip_cons_cons, List.zip_nil_right, List.map_cons, List.map_nil,
      dataLike, List.prod_cons, List.prod_nil, mul_one, hl0, hl1]
    congr 1
    · field_simp
    · simp
  rw [hf, r2, hp, hq]
  refine ⟨?_, r1, ?_⟩
  · rw [hx]
    intro x hx'
    simp only [List.mem_cons, List.not_mem_nil, or_false] at hx'
    rcases hx' with rfl | rfl
    · rw [hl0, h0, sub_zero, abs_of_pos hδ0]
    · rw [hl1, h1, zero_sub, abs_neg, abs_of_pos hδ0]
  · norm_num [Spec.weightDist, sum_range_succ]

/-! ## Concrete cases -/

/-- Case for `C130_posterior` and `C130_rate`: three heads, with likelihoods `1/16` too small. -/
example :
    let env : Env ℚ Nat Unit Nat := { coinEnv with likelihood := fun o x e => |coinEnv.likelihood o x e - 1 / 16| }
    let ds : List (Nat × Unit) := [(0, ()), (0, ()), (1, ())]
    Static env ∧ cfg.policy = "error" ∧ cfg.zeroThresh < 1 ∧ eps ≤ cfg.zeroThresh ∧
    (feed cfg env false ds fresh).2.isOk ∧
    (∀ d ∈ ds, ∀ x ∈ fresh.locs, |coinEnv.likelihood d.1 x d.2 - env.likelihood d.1 x d.2| ≤ 1 / 16 ∧
      0 ≤ coinEnv.likelihood d.1 x d.2 ∧ coinEnv.likelihood d.1 x d.2 ≤ 1) ∧
    (feed cfg env false ds fresh).1.weights = [99 / 805, 343 / 805, 363 / 805] ∧
    dataPosterior coinEnv.likelihood fresh.weights fresh.locs ds = [3 / 20, 8 / 20, 9 / 20] := by
  refine ⟨fun _ _ _ => rfl, rfl, ?_, ?_, ?_, ?_, ?_, ?_⟩
  all_goals decide +kernel

/-- Case for `C130_mixed`: the lighter particles get likelihoods `1/8` too large. -/
example :
    let mix : MixCfg ℚ := ⟨1 / 2, 1, 0⟩
    let apx := fun (o : Nat) (x : List ℚ) (e : Unit) => coinEnv.likelihood o x e + 1 / 8
    let ds : List ((Nat × Unit) × List ℕ) := [((0, ()), [2, 0, 1]), ((1, ()), [1, 0, 2])]
    let r := mixedFeed cfg coinEnv mix (argsortIns 0) (argsortIns 0) apx ds fresh
    r.2.isOk ∧ (∀ d ∈ ds, d.2.Perm (List.range fresh.weights.length)) ∧
    (∀ d ∈ ds, ∀ x ∈ fresh.locs, coinEnv.likelihood d.1.1 x d.1.2 ≤ 1 ∧
      |coinEnv.likelihood d.1.1 x d.1.2 - apx d.1.1 x d.1.2| ≤ 1 / 8) ∧
    dataPosterior coinEnv.likelihood fresh.weights fresh.locs (ds.map Prod.fst) = [3 / 10, 4 / 10, 3 / 10] := by
  refine ⟨?_, ?_, ?_, ?_⟩
  all_goals decide +kernel

/-- Case for `C130_unlikely_data`. -/
example : ∃ env : Env ℚ Unit Unit Unit, GoodEnv env ∧ env.likelihood () [0] () = 0 ∧
    env.likelihood () [1] () = 1 / 100 ∧ 2 * eps ≤ (1 / 100 : ℚ) :=
  ⟨{ likelihood := fun _ x _ => |x.headD 0| / 100, timestep := fun r l _ => (l, r), canon := id,
     clearCacheRaises := false, prior := fun r n => (List.replicate n [0], r),
     resampler := fun r w l => (.ok (w, l), r), kl := fun _ _ _ _ => 0 },
    ⟨fun _ _ _ => by dsimp only; positivity, by simp, by simp, by simp, by
      intro r w l w' l' h hl he
      simp only [Except.ok.injEq, Prod.mk.injEq] at he
      obtain ⟨rfl, rfl⟩ := he
      exact ⟨h, hl⟩⟩, by simp, by simp, by norm_num [eps]⟩

end QInfer
