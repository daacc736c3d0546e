import Verif.Model.Derived
import Verif.Lemmas.SmcHistory
import Mathlib.Analysis.SpecialFunctions.Pow.Asymptotics
import Mathlib.Analysis.SpecialFunctions.Pow.Continuity
import Mathlib.Topology.Algebra.Order.LiminfLimsup

/-! # C88: amplified updates approximate the maximum of the likelihood -/

namespace QInfer

open Filter Topology

variable {O E ω : Type}

theorem dataLike_nonneg (like : O → List ℝ → E → ℝ) (h : ∀ o x e, 0 ≤ like o x e)
    (ds : List (O × E)) (x : List ℝ) : 0 ≤ dataLike like ds x := by
  apply List.prod_nonneg
  intro y hy
  obtain ⟨d, -, rfl⟩ := List.mem_map.1 hy
  exact h _ _ _

theorem dataLike_mle (γ : ℝ) (env : Env ℝ O E ω) (hg : ∀ o x e, 0 ≤ env.likelihood o x e)
    (ds : List (O × E)) (x : List ℝ) :
    dataLike (mleEnv γ env).likelihood ds x = dataLike env.likelihood ds x ^ γ := by
  induction ds with
  | nil => simp [dataLike]
  | cons d ds ih =>
    have h1 : dataLike (mleEnv γ env).likelihood (d :: ds) x =
        env.likelihood d.1 x d.2 ^ γ * dataLike (mleEnv γ env).likelihood ds x := rfl
    have h2 : dataLike env.likelihood (d :: ds) x =
        env.likelihood d.1 x d.2 * dataLike env.likelihood ds x := rfl
    rw [h1, h2, ih, Real.mul_rpow (hg _ _ _) (dataLike_nonneg _ hg _ _)]

/-- **C88, still a model.**  Raising to any power keeps the likelihood a valid one for the updater. -/
theorem C88_good (γ : ℝ) (env : Env ℝ O E ω) (hg : GoodEnv env) : GoodEnv (mleEnv γ env) where
  like_nonneg o x e := Real.rpow_nonneg (hg.like_nonneg o x e) γ
  prior_len := hg.prior_len
  canon_len := hg.canon_len
  timestep_len := hg.timestep_len
  resampler_ok := hg.resampler_ok

/-- **C88, amplified weights.**  After any data (no resampling) the weight of a particle is proportional
to its earlier weight times the `γ`-th power of the likelihood the wrapped model gives to the whole
data. -/
theorem C88_amplified (cfg : SmcConfig ℝ) (γ : ℝ) (env : Env ℝ O E ω) (hg : GoodEnv env)
    (hst : Static env) (hp : cfg.policy = "error") (ht : eps ≤ cfg.zeroThresh)
    (ht1 : cfg.zeroThresh < 1) (s : Smc ℝ O ω) (hlen : s.locs.length = s.weights.length)
    (hprob : IsProb s.weights) (ds : List (O × E))
    (hok : (feed cfg (mleEnv γ env) false ds s).2 = .ok ()) :
    (feed cfg (mleEnv γ env) false ds s).1.locs = s.locs ∧
    (feed cfg (mleEnv γ env) false ds s).1.weights =
      (s.weights.zip s.locs).map fun p => p.1 * dataLike env.likelihood ds p.2 ^ γ /
        ((s.weights.zip s.locs).map fun q => q.1 * dataLike env.likelihood ds q.2 ^ γ).sum := by
  obtain ⟨h1, h2, -⟩ := feed_closed cfg (mleEnv γ env) (C88_good γ env hg) hst hp ht ht1 ds s hlen
    hprob hok
  refine ⟨h2, ?_⟩
  rw [h1]
  simp only [dataPosterior, dataEvidence, dataLike_mle γ env hg.like_nonneg]

/-- **C88, whole powers.**  For a natural number `γ` the weights are those the wrapped model gives if
every datum has been seen `γ` times. -/
theorem C88_whole_power (n : Nat) (env : Env ℝ O E ω) (hg : GoodEnv env) (w : List ℝ)
    (locs : List (List ℝ)) (ds : List (O × E)) :
    dataPosterior (mleEnv n env).likelihood w locs ds =
      dataPosterior env.likelihood w locs (ds.flatMap fun d => List.replicate n d) := by
  have h : ∀ x, dataLike env.likelihood (ds.flatMap fun d => List.replicate n d) x =
      dataLike (mleEnv n env).likelihood ds x := by
    intro x
    induction ds with
    | nil => rfl
    | cons d ds ih =>
      have h1 : dataLike (mleEnv (n:ℝ) env).likelihood (d :: ds) x =
        env.likelihood d.1 x d.2 ^ (n:ℝ) * dataLike (mleEnv n env).likelihood ds x := rfl
      rw [h1, ← ih, Real.rpow_natCast]
      simp [dataLike, List.map_replicate]
  simp only [dataPosterior, dataEvidence, h]

/-- Weight of the maximisers of the likelihood of the data. -/
noncomputable def Spec.topWeight (like : O → List ℝ → E → ℝ) (w : List ℝ) (locs : List (List ℝ))
    (ds : List (O × E)) (M : ℝ) : ℝ :=
  open Classical in ((w.zip locs).map fun p => if dataLike like ds p.2 = M then p.1 else 0).sum

theorem tendsto_list_sum {α : Type*} (l : List α) (f : α → ℝ → ℝ) (a : α → ℝ)
    (h : ∀ x ∈ l, Tendsto (f x) atTop (𝓝 (a x))) :
    Tendsto (fun t => (l.map fun x => f x t).sum) atTop (𝓝 (l.map a).sum) := by
  induction l with
  | nil => simpa using tendsto_const_nhds
  | cons x l ih =>
    simp only [List.map_cons, List.sum_cons]
    exact (h x (by simp)).add (ih fun y hy => h y (by simp [hy]))

open Classical in
/-- **C88, limit.**  As the power grows, the weights after the data concentrate on the particles with
the largest likelihood: each of these keeps its share of their total weight, and all others tend to
zero. -/
theorem C88_limit (env : Env ℝ O E ω) (hg : GoodEnv env) (w : List ℝ) (hw : ∀ x ∈ w, 0 ≤ x)
    (locs : List (List ℝ)) (ds : List (O × E)) (M : ℝ) (hM : 0 < M)
    (hmax : ∀ p ∈ w.zip locs, dataLike env.likelihood ds p.2 ≤ M)
    (hatt : ∃ p ∈ w.zip locs, dataLike env.likelihood ds p.2 = M ∧ 0 < p.1)
    (i : Nat) (p : ℝ × List ℝ) (hi : (w.zip locs)[i]? = some p) :
    Tendsto (fun γ => (dataPosterior (mleEnv γ env).likelihood w locs ds)[i]?.getD 0) atTop
      (𝓝 (if dataLike env.likelihood ds p.2 = M then
        p.1 / Spec.topWeight env.likelihood w locs ds M else 0)) := by
  set D := fun x => dataLike env.likelihood ds x with hD
  have hD0 : ∀ x, 0 ≤ D x := fun x => dataLike_nonneg _ hg.like_nonneg _ _
  -- one term, relative to the maximum
  have hterm : ∀ q ∈ w.zip locs,
      Tendsto (fun γ : ℝ => q.1 * (D q.2 / M) ^ γ) atTop (𝓝 (if D q.2 = M then q.1 else 0)) := by
    intro q hq
    by_cases h : D q.2 = M
    · rw [if_pos h, h, div_self hM.ne']
      simpa using tendsto_const_nhds
    · rw [if_neg h]
      have hlt : D q.2 / M < 1 := by
        rw [div_lt_one hM]
        exact lt_of_le_of_ne (hmax q hq) h
      have hge : -1 < D q.2 / M := by
        have := div_nonneg (hD0 q.2) hM.le
        linarith
      have := (tendsto_rpow_atTop_of_base_lt_one _ hge hlt).const_mul q.1
      simpa using this
  have hpm : p ∈ w.zip locs := List.mem_of_getElem? hi
  have hsum := tendsto_list_sum (w.zip locs) (fun q γ => q.1 * (D q.2 / M) ^ γ)
    (fun q => if D q.2 = M then q.1 else 0) hterm
  have htop : 0 < Spec.topWeight env.likelihood w locs ds M := by
    obtain ⟨q, hq, hqM, hq0⟩ := hatt
    unfold Spec.topWeight
    have hnn : ∀ y ∈ (w.zip locs).map (fun p => if dataLike env.likelihood ds p.2 = M then p.1 else 0),
        (0:ℝ) ≤ y := by
      intro y hy
      obtain ⟨r, hr, rfl⟩ := List.mem_map.1 hy
      split
      · exact hw _ (List.of_mem_zip hr).1
      · exact le_rfl
    have := List.single_le_sum hnn q.1 (List.mem_map.2 ⟨q, hq, if_pos hqM⟩)
    linarith
  have hlim := (hterm p hpm).div hsum htop.ne'
  have hval : ∀ γ : ℝ, (dataPosterior (mleEnv γ env).likelihood w locs ds)[i]?.getD 0 =
      p.1 * (D p.2 / M) ^ γ / ((w.zip locs).map fun q => q.1 * (D q.2 / M) ^ γ).sum := by
    intro γ
    simp only [dataPosterior, dataEvidence, List.getElem?_map, hi, Option.map_some, Option.getD_some,
      dataLike_mle γ env hg.like_nonneg]
    have hMγ : M ^ γ ≠ 0 := (Real.rpow_pos_of_pos hM γ).ne'
    have hfac : ∀ q : ℝ × List ℝ, q.1 * (D q.2 / M) ^ γ = q.1 * D q.2 ^ γ / M ^ γ := by
      intro q
      rw [Real.div_rpow (hD0 _) hM.le]
      ring
    have hs : ((w.zip locs).map fun q => q.1 * (D q.2 / M) ^ γ).sum =
        ((w.zip locs).map fun q => q.1 * D q.2 ^ γ).sum / M ^ γ := by
      rw [← sum_map_div, List.map_map]
      congr 1
      apply List.map_congr_left
      intro q _
      exact hfac q
    rw [hs, hfac, div_div_div_cancel_right₀ hMγ]
  refine (hlim.congr fun γ => (hval γ).symm).trans_eq ?_
  congr 1
  show (if D p.2 = M then p.1 else 0) / _ = _
  split
  · rfl
  · rw [zero_div]

open Classical in
/-- **C88, estimate.**  If one particle alone has the largest likelihood, then, as the power grows, the
posterior mean of every parameter tends to the value at that particle. -/
theorem C88_estimate (env : Env ℝ O E ω) (hg : GoodEnv env) (w : List ℝ) (hw : ∀ x ∈ w, 0 ≤ x)
    (locs : List (List ℝ)) (ds : List (O × E)) (i : Nat) (p : ℝ × List ℝ)
    (hi : (w.zip locs)[i]? = some p) (hp : 0 < p.1) (hM : 0 < dataLike env.likelihood ds p.2)
    (huniq : ∀ j q, (w.zip locs)[j]? = some q → j ≠ i →
      dataLike env.likelihood ds q.2 < dataLike env.likelihood ds p.2) (k : Nat) :
    Tendsto (fun γ => (((w.zip locs).zipIdx).map fun q =>
        (dataPosterior (mleEnv γ env).likelihood w locs ds)[q.2]?.getD 0 * q.1.2.getD k 0).sum) atTop
      (𝓝 (p.2.getD k 0)) := by
  set M := dataLike env.likelihood ds p.2 with hMdef
  have hmax : ∀ q ∈ w.zip locs, dataLike env.likelihood ds q.2 ≤ M := by
    intro q hq
    obtain ⟨j, hj⟩ := List.mem_iff_getElem?.1 hq
    by_cases h : j = i
    · subst h
      rw [hi] at hj
      injection hj with hj
      rw [← hj]
    · exact (huniq j q hj h).le
  have hatt : ∃ q ∈ w.zip locs, dataLike env.likelihood ds q.2 = M ∧ 0 < q.1 :=
    ⟨p, List.mem_of_getElem? hi, rfl, hp⟩
  have hil : i < (w.zip locs).length := by
    rcases lt_or_ge i (w.zip locs).length with h | h
    · exact h
    · rw [List.getElem?_eq_none h] at hi; cases hi
  have hpi : (w.zip locs)[i] = p := by
    rw [List.getElem?_eq_getElem hil] at hi
    injection hi
  have htop : Spec.topWeight env.likelihood w locs ds M = p.1 := by
    unfold Spec.topWeight
    have : ((w.zip locs).map fun p => if dataLike env.likelihood ds p.2 = M then p.1 else 0) =
        (List.range (w.zip locs).length).map fun j => if j = i then p.1 else 0 := by
      apply List.ext_getElem
      · simp
      · intro j h1 h2
        simp only [List.getElem_map, List.getElem_range]
        have hj : j < (w.zip locs).length := by simpa using h1
        by_cases h : j = i
        · subst h
          rw [if_pos rfl, hpi, if_pos rfl]
        · rw [if_neg h, if_neg]
          exact (huniq j _ (List.getElem?_eq_getElem hj) h).ne
    rw [this, ← List.sum_toFinset _ List.nodup_range, List.toFinset_range]
    rw [Finset.sum_ite_eq', if_pos (Finset.mem_range.2 hil)]
  have hlim := tendsto_list_sum ((w.zip locs).zipIdx)
    (fun q γ => (dataPosterior (mleEnv γ env).likelihood w locs ds)[q.2]?.getD 0 * q.1.2.getD k 0)
    (fun q => if q.2 = i then p.2.getD k 0 else 0) (by
      intro q hq
      obtain ⟨⟨qw, qx⟩, j⟩ := q
      have hj : (w.zip locs)[j]? = some (qw, qx) := by
        have := List.mem_zipIdx_iff_getElem?.1 hq
        simpa using this
      have h := (C88_limit env hg w hw locs ds M hM hmax hatt j _ hj).mul_const (qx.getD k 0)
      by_cases hji : j = i
      · subst hji
        rw [hi] at hj
        injection hj with hj
        subst hj
        rw [if_pos rfl, htop, div_self hp.ne', one_mul] at h
        simpa using h
      · rw [if_neg (huniq j _ hj hji).ne, zero_mul] at h
        simpa [hji] using h)
  refine hlim.trans_eq ?_
  congr 1
  have : (((w.zip locs).zipIdx).map fun q => if q.2 = i then p.2.getD k 0 else 0) =
      (List.range (w.zip locs).length).map fun j => if j = i then p.2.getD k 0 else 0 := by
    apply List.ext_getElem
    · simp
    · intro j h1 h2
      simp
  rw [this, ← List.sum_toFinset _ List.nodup_range, List.toFinset_range]
  rw [Finset.sum_ite_eq', if_pos (Finset.mem_range.2 hil)]

open Classical in
/-- **C88, estimate with ties.**  As the power grows, the posterior mean of every parameter tends to the
mean of that parameter over the particles of largest likelihood, weighted as before the data. -/
theorem C88_mean_limit (env : Env ℝ O E ω) (hg : GoodEnv env) (w : List ℝ) (hw : ∀ x ∈ w, 0 ≤ x)
    (locs : List (List ℝ)) (ds : List (O × E)) (M : ℝ) (hM : 0 < M)
    (hmax : ∀ p ∈ w.zip locs, dataLike env.likelihood ds p.2 ≤ M)
    (hatt : ∃ p ∈ w.zip locs, dataLike env.likelihood ds p.2 = M ∧ 0 < p.1) (k : Nat) :
    Tendsto (fun γ => (((w.zip locs).zipIdx).map fun q =>
        (dataPosterior (mleEnv γ env).likelihood w locs ds)[q.2]?.getD 0 * q.1.2.getD k 0).sum) atTop
      (𝓝 ((((w.zip locs).filter fun p => dataLike env.likelihood ds p.2 = M).map
          fun p => p.1 * p.2.getD k 0).sum /
        (((w.zip locs).filter fun p => dataLike env.likelihood ds p.2 = M).map Prod.fst).sum)) := by
  have hsum : ∀ (l : List (ℝ × List ℝ)) (f : ℝ × List ℝ → ℝ),
      ((l.filter fun p => dataLike env.likelihood ds p.2 = M).map f).sum =
        (l.map fun p => if dataLike env.likelihood ds p.2 = M then f p else 0).sum := by
    intro l f
    induction l with
    | nil => rfl
    | cons p l ih => by_cases h : dataLike env.likelihood ds p.2 = M <;> simp [h, ih]
  have hlim := tendsto_list_sum ((w.zip locs).zipIdx)
    (fun q γ => (dataPosterior (mleEnv γ env).likelihood w locs ds)[q.2]?.getD 0 * q.1.2.getD k 0)
    (fun q => (if dataLike env.likelihood ds q.1.2 = M then q.1.1 * q.1.2.getD k 0 else 0) /
      Spec.topWeight env.likelihood w locs ds M) (by
      intro q hq
      obtain ⟨⟨qw, qx⟩, j⟩ := q
      have hj : (w.zip locs)[j]? = some (qw, qx) := by
        have := List.mem_zipIdx_iff_getElem?.1 hq
        simpa using this
      have h := (C88_limit env hg w hw locs ds M hM hmax hatt j _ hj).mul_const (qx.getD k 0)
      refine h.trans_eq ?_
      congr 1
      dsimp only
      split
      · ring
      · simp)
  refine hlim.trans_eq ?_
  congr 1
  have hz : ((w.zip locs).zipIdx.map fun q =>
      (if dataLike env.likelihood ds q.1.2 = M then q.1.1 * q.1.2.getD k 0 else 0) /
        Spec.topWeight env.likelihood w locs ds M) =
      ((w.zip locs).map fun p =>
        if dataLike env.likelihood ds p.2 = M then p.1 * p.2.getD k 0 else 0).map
          (· / Spec.topWeight env.likelihood w locs ds M) := by
    rw [List.map_map]
    apply List.ext_getElem
    · simp
    · intro j h1 h2
      simp
  rw [hz, sum_map_div, hsum, hsum]
  rfl

/-- Case for C88: two particles, a coin that shows heads twice. -/
example : ∃ env : Env ℝ Nat Unit Nat, GoodEnv env ∧
    dataLike env.likelihood [(0, ()), (0, ())] [1/4] < dataLike env.likelihood [(0, ()), (0, ())] [1/2] ∧
    0 < dataLike env.likelihood [(0, ()), (0, ())] [1/2] := by
  refine ⟨{ likelihood := fun o x _ => if o = 0 then |x.headD 0| else |1 - x.headD 0|
            timestep := fun r l _ => (l, r)
            canon := fun l => l
            clearCacheRaises := false
            prior := fun r n => (List.replicate n [], r)
            resampler := fun r _ _ => (.error .resamplerError, r)
            kl := fun _ _ _ _ => 0 }, ?_, ?_, ?_⟩
  · refine ⟨fun o x e => ?_, fun r n => by simp, fun l => rfl, fun r l e => rfl, ?_⟩
    · dsimp only; split <;> exact abs_nonneg _
    · intro r w l w' l' _ _ h; cases h
  · simp [dataLike, abs_of_pos]
    norm_num
  · simp [dataLike, abs_of_pos]

/-- Case for C88 with a tie: a likelihood that only sees the distance from one half.  The particles at
`1/4` and `3/4` share the largest likelihood, and the limit is their weighted mean. -/
example :
    let like : Nat → List ℝ → Unit → ℝ := fun _ x _ => |x.headD 0 - 1/2|
    let ds := [((0 : Nat), ())]
    dataLike like ds [1/4] = 1/4 ∧ dataLike like ds [3/4] = 1/4 ∧ dataLike like ds [1/2] < 1/4 := by
  refine ⟨?_, ?_, ?_⟩ <;> norm_num [dataLike, abs_of_neg, abs_of_pos]

end QInfer
