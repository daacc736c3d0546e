import Verif.Model.Batched
import Verif.Lemmas.SmcHistory
import Verif.Props.Pdf

/-!
# C113: numbers of outcomes are as good as the outcomes themselves
-/

namespace QInfer

variable {O E ω : Type}

/-- The single shots of several experiments: each shot is a datum of its own. -/
def Spec.shots {O E : Type} (blocks : List (E × List O)) : List (O × E) :=
  blocks.flatMap fun b => b.2.map fun o => (o, b.1)

/-- The number of ones in each experiment, with the number of shots. -/
def Spec.ones (blocks : List (E × List ℤ)) : List (ℤ × (E × ℕ)) :=
  blocks.map fun b => ((b.2.count 1 : ℤ), (b.1, b.2.length))

/-- How often each value occurs in each experiment, with the number of shots. -/
def Spec.tallies [DecidableEq O] (vals : List O) (blocks : List (E × List O)) : List (List ℤ × (E × ℕ)) :=
  blocks.map fun b => (vals.map fun v => (b.2.count v : ℤ), (b.1, b.2.length))

theorem dataLike_append {K : Type*} [Field K] {O E : Type*} (like : O → List K → E → K) (ds ds' : List (O × E)) (x : List K) :
    dataLike like (ds ++ ds') x = dataLike like ds x * dataLike like ds' x := by
  simp [dataLike]

/-- A constant factor of the likelihood does not matter. -/
theorem dataPosterior_scale {O' E' : Type} (like : O → List ℝ → E → ℝ) (like' : O' → List ℝ → E' → ℝ)
    (ds : List (O × E)) (ds' : List (O' × E')) (c : ℝ) (hc : c ≠ 0) (w : List ℝ) (locs : List (List ℝ))
    (h : ∀ x ∈ locs, dataLike like' ds' x = c * dataLike like ds x) :
    dataPosterior like' w locs ds' = dataPosterior like w locs ds ∧
    dataEvidence like' w locs ds' = c * dataEvidence like w locs ds := by
  have he : dataEvidence like' w locs ds' = c * dataEvidence like w locs ds := by
    unfold dataEvidence
    rw [← List.sum_map_mul_left]
    congr 1
    refine List.map_congr_left fun p hp => ?_
    rw [h _ (List.of_mem_zip hp).2]; ring
  refine ⟨?_, he⟩
  unfold dataPosterior
  refine List.map_congr_left fun p hp => ?_
  rw [he, h _ (List.of_mem_zip hp).2, mul_left_comm, mul_div_mul_left _ _ hc]

/-- Updates go through if the likelihood is not too small. -/
theorem feed_runs (cfg : SmcConfig ℝ) (env : Env ℝ O E ω) (hg : GoodEnv env) (hst : Static env)
    (ht1 : cfg.zeroThresh < 1) (ds : List (O × E)) (s : Smc ℝ O ω) (hlen : s.locs.length = s.weights.length)
    (hprob : IsProb s.weights) (hd : ∀ d ∈ ds, ∀ x ∈ s.locs, eps ≤ env.likelihood d.1 x d.2) :
    (feed cfg env false ds s).2 = .ok () := by
  induction ds generalizing s with
  | nil => rfl
  | cons d ds ih =>
    have hfst : (s.weights.zip s.locs).map Prod.fst = s.weights := List.map_fst_zip (by omega)
    have hev : eps ≤ evidence env.likelihood s.weights s.locs d.1 d.2 := by
      have h1 : ((s.weights.zip s.locs).map fun p => p.1 * (eps : ℝ)).sum ≤
          evidence env.likelihood s.weights s.locs d.1 d.2 :=
        List.sum_le_sum fun p hp => mul_le_mul_of_nonneg_left
          (hd d List.mem_cons_self p.2 (List.of_mem_zip hp).2) (hprob.1 p.1 (List.of_mem_zip hp).1)
      rw [List.sum_map_mul_right, hfst, hprob.2, one_mul] at h1
      exact h1
    have hpos : (0 : ℝ) < eps := by unfold eps; norm_num
    obtain ⟨h1, h2, h3, -⟩ := datum_normal cfg env s d.1 d.2 hlen hprob.1 (fun x => hg.like_nonneg d.1 x d.2) ht1 hev
    rw [hst] at h3
    rcases heq : update cfg env s d.1 d.2 false with ⟨t, err | ⟨⟨⟩⟩⟩
    · rw [heq] at h1; cases h1
    · rw [heq] at h2 h3
      have hf : feed cfg env false (d :: ds) s = feed cfg env false ds t := by simp [feed, heq]
      rw [hf]
      refine ih t ?_ ?_ fun d' hd' x hx => hd d' (List.mem_cons_of_mem _ hd') x (by rw [← h3]; exact hx)
      · rw [h2, h3, posterior_length _ _ _ _ _ hlen, hlen]
      · rw [h2]
        exact ⟨posterior_nonneg _ _ _ _ _ hprob.1 fun x => hg.like_nonneg _ _ _,
          posterior_sum _ _ _ _ _ (hpos.trans_le hev).ne'⟩

/-! ### Two outcomes -/

/-- A model with the outcomes 0 and 1. -/
def Spec.TwoOutcomes (like : ℤ → List ℝ → E → ℝ) : Prop :=
  ∀ x e, 0 ≤ like 0 x e ∧ 0 ≤ like 1 x e ∧ like 0 x e + like 1 x e = 1

theorem binomialEnv_like (env : Env ℝ ℤ E ω) (h2 : Spec.TwoOutcomes env.likelihood) (x : List ℝ) (e : E)
    (k n : ℕ) (hk : k ≤ n) : (binomialEnv env).likelihood k x (e, n) =
      n.choose k * env.likelihood 1 x e ^ k * env.likelihood 0 x e ^ (n - k) := by
  obtain ⟨h0, h1, hs⟩ := h2 x e
  have hl : binomialLikelihood n [(k : ℤ)] (env.likelihood 1 x e) =
      .ok [n.choose k * env.likelihood 1 x e ^ k * (1 - env.likelihood 1 x e) ^ (n - k)] := by
    rw [binomialLikelihood_ok _ _ (by simp) _ h1 (by linarith)]
    simp [binomialPdf_some n k _ ⟨h1, by linarith⟩, hk]
  simp only [binomialEnv, hl]
  rw [show 1 - env.likelihood 1 x e = env.likelihood 0 x e by linarith]

theorem binomialEnv_nonneg (env : Env ℝ ℤ E ω) (h2 : Spec.TwoOutcomes env.likelihood) (o : ℤ) (x : List ℝ)
    (e : E × ℕ) : 0 ≤ (binomialEnv env).likelihood o x e := by
  obtain ⟨e, n⟩ := e
  by_cases ho : 0 ≤ o ∧ o ≤ n
  · obtain ⟨k, rfl⟩ := Int.eq_ofNat_of_zero_le ho.1
    rw [binomialEnv_like env h2 x e k n (by exact_mod_cast ho.2)]
    have := h2 x e
    exact mul_nonneg (mul_nonneg (Nat.cast_nonneg _) (pow_nonneg this.2.1 _)) (pow_nonneg this.1 _)
  · have := (C29_out_of_range n o (env.likelihood 1 x e)).1 ⟨⟨(h2 x e).2.1, by have := h2 x e; linarith⟩, by omega⟩
    simp [binomialEnv, this]

theorem binomialEnv_good (env : Env ℝ ℤ E ω) (hg : GoodEnv env) (h2 : Spec.TwoOutcomes env.likelihood) :
    GoodEnv (binomialEnv env) where
  like_nonneg o x e := binomialEnv_nonneg env h2 o x e
  prior_len := hg.prior_len
  canon_len := hg.canon_len
  timestep_len r l e := hg.timestep_len r l e.1
  resampler_ok := hg.resampler_ok

theorem shots_like (like : ℤ → List ℝ → E → ℝ) (l : List ℤ) (h : ∀ o ∈ l, o = 0 ∨ o = 1) (x : List ℝ) (e : E) :
    dataLike like (l.map fun o => (o, e)) x = like 1 x e ^ l.count 1 * like 0 x e ^ (l.length - l.count 1) := by
  induction l with
  | nil => simp [dataLike]
  | cons o l ih =>
    have ih' := ih fun o ho => h o (List.mem_cons_of_mem _ ho)
    have hle : l.count 1 ≤ l.length := List.count_le_length
    have hc : dataLike like ((o :: l).map fun o => (o, e)) x =
        like o x e * dataLike like (l.map fun o => (o, e)) x := by simp [dataLike]
    rw [hc, ih']
    rcases h o List.mem_cons_self with rfl | rfl
    · rw [List.count_cons_of_ne (by norm_num), List.length_cons, Nat.succ_sub hle, pow_succ]; ring
    · rw [List.count_cons_self, List.length_cons, Nat.add_sub_add_right, pow_succ]; ring

/-- The number of orders in which the shots could have come. -/
def Spec.orders (blocks : List (E × List ℤ)) : ℕ :=
  (blocks.map fun b => b.2.length.choose (b.2.count 1)).prod

theorem ones_like (env : Env ℝ ℤ E ω) (h2 : Spec.TwoOutcomes env.likelihood) (blocks : List (E × List ℤ))
    (hb : ∀ b ∈ blocks, ∀ o ∈ b.2, o = 0 ∨ o = 1) (x : List ℝ) :
    dataLike (binomialEnv env).likelihood (Spec.ones blocks) x =
      (Spec.orders blocks : ℝ) * dataLike env.likelihood (Spec.shots blocks) x := by
  induction blocks with
  | nil => simp [dataLike, Spec.ones, Spec.orders, Spec.shots]
  | cons b bs ih =>
    have ih' := ih fun b hb' => hb b (List.mem_cons_of_mem _ hb')
    have e1 : dataLike (binomialEnv env).likelihood (Spec.ones (b :: bs)) x =
        (binomialEnv env).likelihood (b.2.count 1 : ℕ) x (b.1, b.2.length) *
          dataLike (binomialEnv env).likelihood (Spec.ones bs) x := by simp [dataLike, Spec.ones]
    have e2 : Spec.shots (b :: bs) = (b.2.map fun o => (o, b.1)) ++ Spec.shots bs := by simp [Spec.shots]
    rw [e1, ih', e2, dataLike_append, shots_like _ _ (hb b List.mem_cons_self),
      binomialEnv_like env h2 _ _ _ _ List.count_le_length]
    simp only [Spec.orders, List.map_cons, List.prod_cons, Nat.cast_mul]
    ring

theorem orders_pos (blocks : List (E × List ℤ)) : 0 < Spec.orders blocks := by
  unfold Spec.orders
  apply List.prod_pos
  intro a ha
  obtain ⟨b, -, rfl⟩ := List.mem_map.1 ha
  exact Nat.choose_pos List.count_le_length

/-- **C113, two outcomes.**  Giving `BinomialModel` the number of ones of each experiment leaves the updater
with the same particles and weights as giving the wrapped model every single shot, in any order; the
probabilities recorded for the data differ by the number of orders of the shots. -/
theorem C113_binomial (cfg : SmcConfig ℝ) (env : Env ℝ ℤ E ω) (hg : GoodEnv env) (hst : Static env)
    (h2 : Spec.TwoOutcomes env.likelihood) (hp : cfg.policy = "error") (ht : eps ≤ cfg.zeroThresh)
    (ht1 : cfg.zeroThresh < 1) (s : Smc ℝ ℤ ω) (hlen : s.locs.length = s.weights.length)
    (hprob : IsProb s.weights) (blocks : List (E × List ℤ)) (hb : ∀ b ∈ blocks, ∀ o ∈ b.2, o = 0 ∨ o = 1)
    (ds : List (ℤ × E)) (hds : ds.Perm (Spec.shots blocks))
    (hok1 : (feed cfg env false ds s).2 = .ok ())
    (hok2 : (feed cfg (binomialEnv env) false (Spec.ones blocks) s).2 = .ok ()) :
    (feed cfg (binomialEnv env) false (Spec.ones blocks) s).1.weights = (feed cfg env false ds s).1.weights ∧
    (feed cfg (binomialEnv env) false (Spec.ones blocks) s).1.locs = (feed cfg env false ds s).1.locs ∧
    ∃ ns ns' : List ℝ, (feed cfg env false ds s).1.normRecord = s.normRecord ++ ns ∧
      (feed cfg (binomialEnv env) false (Spec.ones blocks) s).1.normRecord = s.normRecord ++ ns' ∧
      ns'.prod = (Spec.orders blocks : ℝ) * ns.prod := by
  obtain ⟨a1, a2, -, ns, a3, -, -, a4⟩ := feed_closed cfg env hg hst hp ht ht1 ds s hlen hprob hok1
  obtain ⟨b1, b2, -, ns', b3, -, -, b4⟩ := feed_closed cfg (binomialEnv env) (binomialEnv_good env hg h2)
    (fun r l e => hst r l e.1) hp ht ht1 _ s hlen hprob hok2
  obtain ⟨c1, c2⟩ := dataPosterior_scale env.likelihood (binomialEnv env).likelihood ds (Spec.ones blocks)
    (Spec.orders blocks) (by exact_mod_cast (orders_pos blocks).ne') s.weights s.locs (fun x _ => by
      rw [ones_like env h2 blocks hb, dataLike_perm _ _ _ hds])
  exact ⟨by rw [a1, b1, c1], by rw [a2, b2], ns, ns', a3, b3, by rw [a4, b4, c2]⟩

/-! ### Several outcomes -/

/-- A model with the outcomes `vals`. -/
def Spec.FinOutcomes (vals : List O) (like : O → List ℝ → E → ℝ) : Prop :=
  vals.Nodup ∧ ∀ x e, (∀ o ∈ vals, 0 ≤ like o x e) ∧ (vals.map fun o => like o x e).sum = 1

/-- The number of orders in which the shots could have come. -/
noncomputable def Spec.arrangements [DecidableEq O] (vals : List O) (blocks : List (E × List O)) : ℝ :=
  (blocks.map fun b => (b.2.length.factorial : ℝ) / (vals.map fun v => ((b.2.count v).factorial : ℝ)).prod).prod

theorem multinomialEnv_like (vals : List O) (env : Env ℝ O E ω) (h2 : Spec.FinOutcomes vals env.likelihood)
    (x : List ℝ) (e : E) (n : ℕ) (c : O → ℕ) :
    (multinomialEnv vals env).likelihood (vals.map fun v => (c v : ℤ)) x (e, n) =
      (((vals.map c).sum.factorial : ℝ) / (vals.map fun v => ((c v).factorial : ℝ)).prod) *
        (vals.map fun v => env.likelihood v x e ^ c v).prod := by
  obtain ⟨-, h2⟩ := h2
  obtain ⟨h0, hs⟩ := h2 x e
  have e1 : ∀ {β : Type} (f : O → β), vals.map f = List.ofFn fun j : Fin vals.length => f (vals.get j) := by
    intro β f
    apply List.ext_getElem <;> simp
  have h := (C30_formula (fun j : Fin vals.length => c (vals.get j))
    (fun j => env.likelihood (vals.get j) x e) fun j => h0 _ (List.get_mem _ _)).2
    (by rw [← List.sum_ofFn, ← e1 fun o => env.likelihood o x e]; exact hs)
  have hl : multinomialLikelihood (vals.map fun v => (c v : ℤ)) (vals.map fun o => env.likelihood o x e) =
      .ok (multinomialProb (fun j : Fin vals.length => c (vals.get j)) fun j => env.likelihood (vals.get j) x e) := by
    rw [e1 fun v => (c v : ℤ), e1 fun o => env.likelihood o x e]
    unfold multinomialLikelihood
    rw [h]
    rfl
  simp only [multinomialEnv, hl, multinomialProb]
  rw [e1 c, e1 fun v => ((c v).factorial : ℝ), e1 fun v => env.likelihood v x e ^ c v, List.sum_ofFn, List.prod_ofFn,
    List.prod_ofFn]

theorem multinomialEnv_nonneg (vals : List O) (env : Env ℝ O E ω) (c : List ℤ) (x : List ℝ) (e : E × ℕ) :
    0 ≤ (multinomialEnv vals env).likelihood c x e := by
  have h : ∀ v, multinomialLikelihood c (vals.map fun o => env.likelihood o x e.1) = .ok v → 0 ≤ v := by
    intro v hv
    unfold multinomialLikelihood multinomialPdf at hv
    simp only [bind, Except.bind] at hv
    split_ifs at hv
    all_goals simp only [Except.ok.injEq] at hv; subst hv; positivity
  simp only [multinomialEnv]
  split
  · exact h _ ‹_›
  · exact le_rfl

theorem multinomialEnv_good (vals : List O) (env : Env ℝ O E ω) (hg : GoodEnv env) :
    GoodEnv (multinomialEnv vals env) where
  like_nonneg c x e := multinomialEnv_nonneg vals env c x e
  prior_len := hg.prior_len
  canon_len := hg.canon_len
  timestep_len r l e := hg.timestep_len r l e.1
  resampler_ok := hg.resampler_ok

theorem counts_like [DecidableEq O] (vals : List O) (hn : vals.Nodup) (like : O → List ℝ → E → ℝ) (l : List O)
    (h : ∀ o ∈ l, o ∈ vals) (x : List ℝ) (e : E) :
    dataLike like (l.map fun o => (o, e)) x = (vals.map fun v => like v x e ^ l.count v).prod ∧
    (vals.map fun v => l.count v).sum = l.length := by
  have hsub : l.toFinset ⊆ vals.toFinset := fun o ho => List.mem_toFinset.2 (h o (List.mem_toFinset.1 ho))
  constructor
  · have e1 : dataLike like (l.map fun o => (o, e)) x = (l.map fun o => like o x e).prod := by
      rw [dataLike, List.map_map]; rfl
    rw [e1, Finset.prod_list_map_count, ← List.prod_toFinset _ hn]
    exact Finset.prod_subset hsub fun v _ hv => by
      rw [List.count_eq_zero_of_not_mem (fun hm => hv (List.mem_toFinset.2 hm)), pow_zero]
  · rw [← List.sum_toFinset _ hn, ← List.sum_toFinset_count_eq_length l]
    exact (Finset.sum_subset hsub fun v _ hv =>
      List.count_eq_zero_of_not_mem fun hm => hv (List.mem_toFinset.2 hm)).symm

theorem tallies_like [DecidableEq O] (vals : List O) (env : Env ℝ O E ω) (h2 : Spec.FinOutcomes vals env.likelihood)
    (blocks : List (E × List O)) (hb : ∀ b ∈ blocks, ∀ o ∈ b.2, o ∈ vals) (x : List ℝ) :
    dataLike (multinomialEnv vals env).likelihood (Spec.tallies vals blocks) x =
      Spec.arrangements vals blocks * dataLike env.likelihood (Spec.shots blocks) x := by
  induction blocks with
  | nil => simp [dataLike, Spec.tallies, Spec.arrangements, Spec.shots]
  | cons b bs ih =>
    have ih' := ih fun b hb' => hb b (List.mem_cons_of_mem _ hb')
    have e1 : dataLike (multinomialEnv vals env).likelihood (Spec.tallies vals (b :: bs)) x =
        (multinomialEnv vals env).likelihood (vals.map fun v => (b.2.count v : ℤ)) x (b.1, b.2.length) *
          dataLike (multinomialEnv vals env).likelihood (Spec.tallies vals bs) x := by simp [dataLike, Spec.tallies]
    have e2 : Spec.shots (b :: bs) = (b.2.map fun o => (o, b.1)) ++ Spec.shots bs := by simp [Spec.shots]
    obtain ⟨c1, c2⟩ := counts_like vals h2.1 env.likelihood b.2 (hb b List.mem_cons_self) x b.1
    rw [e1, ih', e2, dataLike_append, c1, multinomialEnv_like vals env h2 x b.1 b.2.length fun v => b.2.count v, c2]
    simp only [Spec.arrangements, List.map_cons, List.prod_cons]
    ring

theorem arrangements_pos [DecidableEq O] (vals : List O) (blocks : List (E × List O)) :
    0 < Spec.arrangements vals blocks := by
  unfold Spec.arrangements
  apply List.prod_pos
  intro a ha
  obtain ⟨b, -, rfl⟩ := List.mem_map.1 ha
  refine div_pos (Nat.cast_pos.2 (Nat.factorial_pos _)) (List.prod_pos ?_)
  intro a ha
  obtain ⟨v, -, rfl⟩ := List.mem_map.1 ha
  exact Nat.cast_pos.2 (Nat.factorial_pos _)

/-- **C113, several outcomes.**  The same for `MultinomialModel`, given how often each value of the underlying
domain occurred. -/
theorem C113_multinomial [DecidableEq O] (cfg : SmcConfig ℝ) (env : Env ℝ O E ω) (hg : GoodEnv env)
    (hst : Static env) (vals : List O) (h2 : Spec.FinOutcomes vals env.likelihood) (hp : cfg.policy = "error")
    (ht : eps ≤ cfg.zeroThresh) (ht1 : cfg.zeroThresh < 1) (s : Smc ℝ O ω) (t : Smc ℝ (List ℤ) ω)
    (hw : t.weights = s.weights) (hl : t.locs = s.locs) (hlen : s.locs.length = s.weights.length)
    (hprob : IsProb s.weights) (blocks : List (E × List O)) (hb : ∀ b ∈ blocks, ∀ o ∈ b.2, o ∈ vals)
    (ds : List (O × E)) (hds : ds.Perm (Spec.shots blocks))
    (hok1 : (feed cfg env false ds s).2 = .ok ())
    (hok2 : (feed cfg (multinomialEnv vals env) false (Spec.tallies vals blocks) t).2 = .ok ()) :
    (feed cfg (multinomialEnv vals env) false (Spec.tallies vals blocks) t).1.weights =
      (feed cfg env false ds s).1.weights ∧
    (feed cfg (multinomialEnv vals env) false (Spec.tallies vals blocks) t).1.locs =
      (feed cfg env false ds s).1.locs ∧
    ∃ ns ns' : List ℝ, (feed cfg env false ds s).1.normRecord = s.normRecord ++ ns ∧
      (feed cfg (multinomialEnv vals env) false (Spec.tallies vals blocks) t).1.normRecord = t.normRecord ++ ns' ∧
      ns'.prod = Spec.arrangements vals blocks * ns.prod := by
  obtain ⟨a1, a2, -, ns, a3, -, -, a4⟩ := feed_closed cfg env hg hst hp ht ht1 ds s hlen hprob hok1
  obtain ⟨b1, b2, -, ns', b3, -, -, b4⟩ := feed_closed cfg (multinomialEnv vals env)
    (multinomialEnv_good vals env hg) (fun r l e => hst r l e.1) hp ht ht1 _ t (by rw [hw, hl, hlen])
    (by rw [hw]; exact hprob) hok2
  rw [hw, hl] at b1 b4
  obtain ⟨c1, c2⟩ := dataPosterior_scale env.likelihood (multinomialEnv vals env).likelihood ds
    (Spec.tallies vals blocks) _ (arrangements_pos vals blocks).ne' s.weights s.locs (fun x _ => by
      rw [tallies_like vals env h2 blocks hb, dataLike_perm _ _ _ hds])
  exact ⟨by rw [a1, b1, c1], by rw [a2, b2, hl], ns, ns', a3, b3, by rw [a4, b4, c2]⟩

/-! ### A case -/

/-- A coin whose probability of 1 is between 1/4 and 3/4. -/
noncomputable def shotEnv : Env ℝ ℤ Unit Unit where
  likelihood o x _ := 1 / 2 + (if o = 1 then 1 else -1) * Real.sin (x.getD 0 0) / 4
  timestep r l _ := (l, r)
  canon l := l
  clearCacheRaises := false
  prior r n := (List.replicate n [0], r)
  resampler r w l := (.ok (w, l), r)
  kl _ _ _ _ := 0

theorem shotEnv_good : GoodEnv shotEnv where
  like_nonneg o x e := by
    have h1 := Real.neg_one_le_sin (x.getD 0 0)
    have h2 := Real.sin_le_one (x.getD 0 0)
    simp only [shotEnv]
    split_ifs <;> linarith
  prior_len r n := by simp [shotEnv]
  canon_len l := rfl
  timestep_len r l e := rfl
  resampler_ok r w l w' l' hw hl h := by
    simp only [shotEnv, Except.ok.injEq, Prod.mk.injEq] at h
    rw [← h.1, ← h.2]; exact ⟨hw, hl⟩

theorem shotEnv_two : Spec.TwoOutcomes shotEnv.likelihood := fun x e =>
  ⟨shotEnv_good.like_nonneg _ _ _, shotEnv_good.like_nonneg _ _ _, by
    simp only [shotEnv]; norm_num; ring⟩

/-- Case for C113: three shots and their sum, with two particles. -/
example : ∃ (cfg : SmcConfig ℝ) (s : Smc ℝ ℤ Unit), cfg.policy = "error" ∧ eps ≤ cfg.zeroThresh ∧ cfg.zeroThresh < 1 ∧
    IsProb s.weights ∧ s.locs.length = s.weights.length ∧ s.locs = [[0], [1]] ∧
    (feed cfg shotEnv false [(1, ()), (0, ()), (1, ())] s).2 = .ok () ∧
    (feed cfg (binomialEnv shotEnv) false (Spec.ones [((), [1, 0, 1])]) s).2 = .ok () := by
  have hcfg : (10 : ℝ) * eps < 1 := by unfold eps; norm_num
  have he : (0 : ℝ) < eps ∧ (eps : ℝ) ≤ 1 / 100 := by unfold eps; norm_num
  have hlike : ∀ o x e, 1 / 4 ≤ shotEnv.likelihood o x e := fun o x e => by
    have h1 := Real.neg_one_le_sin (x.getD 0 0)
    have h2 := Real.sin_le_one (x.getD 0 0)
    simp only [shotEnv]
    split_ifs <;> linarith
  refine ⟨⟨1 / 2, "error", 10 * eps, false⟩, ⟨[1 / 2, 1 / 2], [[0], [1]], 0, ⊤, false, [], [], none, (), []⟩, rfl,
    by dsimp only; linarith, hcfg, ⟨by simp, by norm_num⟩, rfl, rfl, ?_, ?_⟩
  · exact feed_runs _ _ shotEnv_good (fun _ _ _ => rfl) hcfg _ _ rfl ⟨by simp, by norm_num⟩
      fun d _ x _ => by have := hlike d.1 x d.2; linarith
  · refine feed_runs _ _ (binomialEnv_good _ shotEnv_good shotEnv_two) (fun _ _ _ => rfl) hcfg _ _ rfl
      ⟨by simp, by norm_num⟩ fun d hd x _ => ?_
    have hd' : d = (((2 : ℕ) : ℤ), ((), 3)) := by simpa [Spec.ones] using hd
    rw [hd', binomialEnv_like _ shotEnv_two _ _ 2 3 (by norm_num)]
    have h1 := hlike 1 x ()
    have h0 := hlike 0 x ()
    have : (1 / 4 : ℝ) ^ 2 * (1 / 4) ≤ shotEnv.likelihood 1 x () ^ 2 * shotEnv.likelihood 0 x () :=
      mul_le_mul (pow_le_pow_left₀ (by norm_num) h1 2) h0 (by norm_num) (by positivity)
    norm_num [Nat.choose] at this ⊢
    nlinarith

end QInfer
