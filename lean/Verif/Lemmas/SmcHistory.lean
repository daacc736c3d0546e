import Verif.Lemmas.SmcMicro
import Mathlib.Algebra.BigOperators.Group.List.Lemmas

/-! # Lemmas on sequences of updates -/

set_option linter.unusedSectionVars false
set_option linter.unusedSimpArgs false

namespace QInfer

variable {K : Type*} {O E ω : Type*}
variable [Field K] [LinearOrder K]

/-- The state after a completed update, before a possible resampling. -/
theorem finishUpdate_false (cfg : SmcConfig K) (env : Env K O E ω) (s : Smc K O ω)
    (w : List K) (norm : K) (e : E) (hw : w.length = s.weights.length) :
    let r := finishUpdate cfg env s w norm e false
    r.2 = .ok () ∧ r.1.weights = w ∧ r.1.locs = (env.timestep s.seed s.locs e).1 ∧
    r.1.seed = (env.timestep s.seed s.locs e).2 ∧
    r.1.normRecord = s.normRecord ++ [norm] ∧ r.1.minNEss = min s.minNEss (nEss w) ∧
    r.1.resampleCount = s.resampleCount ∧ r.1.justResampled = s.justResampled ∧
    r.1.dataRecord = s.dataRecord ∧ r.1.warnings = s.warnings := by
  unfold finishUpdate
  rw [assignInto_eq _ _ hw]
  simp only [Bool.false_eq_true, if_false]
  split
  · rename_i h
    exact ⟨trivial, rfl, rfl, rfl, rfl, (min_eq_right h).symm, rfl, rfl, rfl, rfl⟩
  · rename_i h
    exact ⟨trivial, rfl, rfl, rfl, rfl, (min_eq_left (not_le.1 h).le).symm, rfl, rfl, rfl, rfl⟩

theorem finishUpdate_true (cfg : SmcConfig K) (env : Env K O E ω) (s : Smc K O ω)
    (w : List K) (norm : K) (e : E) (hw : w.length = s.weights.length) :
    finishUpdate cfg env s w norm e true =
      maybeResample cfg env (finishUpdate cfg env s w norm e false).1 := by
  unfold finishUpdate
  rw [assignInto_eq _ _ hw]
  simp

variable [IsStrictOrderedRing K]

theorem posterior_length (like : O → List K → E → K) (w : List K) (locs : List (List K)) (o : O)
    (e : E) (h : locs.length = w.length) : (posterior like w locs o e).length = w.length := by
  simp [posterior, h]

/-- A datum under policy `error` that is accepted. -/
theorem datum_error_ok (cfg : SmcConfig K) (env : Env K O E ω) (hg : GoodEnv env)
    (hp : cfg.policy = "error") (ht : eps ≤ cfg.zeroThresh)
    (s : Smc K O ω) (hlen : s.locs.length = s.weights.length) (hw : ∀ x ∈ s.weights, 0 ≤ x)
    (o : O) (e : E) (hok : (update cfg env s o e false).2 = .ok ()) :
    eps ≤ evidence env.likelihood s.weights s.locs o e := by
  by_contra h
  rw [not_le] at h
  have hsum : ((s.weights.zip s.locs).map (fun p => p.1 * env.likelihood o p.2 e)).sum ≤
        cfg.zeroThresh := h.le.trans ht
  rw [update_tiny cfg env s o e false hlen hw (fun x => hg.like_nonneg o x e) h] at hok
  unfold applyUpdate at hok
  rw [if_pos hsum] at hok
  simp [hp] at hok

theorem datum_normal (cfg : SmcConfig K) (env : Env K O E ω) (s : Smc K O ω) (o : O) (e : E)
    (hlen : s.locs.length = s.weights.length) (hw : ∀ x ∈ s.weights, 0 ≤ x)
    (hL : ∀ x, 0 ≤ env.likelihood o x e) (ht1 : cfg.zeroThresh < 1)
    (hev : eps ≤ evidence env.likelihood s.weights s.locs o e) :
    let r := update cfg env s o e false
    r.2 = .ok () ∧ r.1.weights = posterior env.likelihood s.weights s.locs o e ∧
    r.1.locs = (env.timestep s.seed s.locs e).1 ∧
    r.1.seed = (env.timestep s.seed s.locs e).2 ∧
    r.1.normRecord = s.normRecord ++ [evidence env.likelihood s.weights s.locs o e] ∧
    r.1.minNEss = min s.minNEss (nEss (posterior env.likelihood s.weights s.locs o e)) ∧
    r.1.resampleCount = s.resampleCount ∧ r.1.justResampled = false ∧
    r.1.dataRecord = s.dataRecord ++ [o] ∧ r.1.warnings = s.warnings := by
  have h := finishUpdate_false cfg env (recordDatum s o)
    (posterior env.likelihood s.weights s.locs o e)
    (evidence env.likelihood s.weights s.locs o e) e
    (posterior_length env.likelihood s.weights s.locs o e hlen)
  rw [← update_normal cfg env s o e false hlen hw hL ht1 hev] at h
  exact h

/-! ### Closed form of a run of updates -/

theorem zip_map_left_div (w : List K) (locs : List (List K)) (f : List K → K) (g : List K → K)
    (c : K) :
    (((w.zip locs).map fun p => p.1 * f p.2 / c).zip locs).map (fun p => p.1 * g p.2) =
      (w.zip locs).map fun p => p.1 * f p.2 / c * g p.2 := by
  induction w generalizing locs with
  | nil => simp
  | cons a w ih => cases locs with
    | nil => simp
    | cons b l => simp [ih]

theorem dataEvidence_cons (like : O → List K → E → K) (w : List K) (locs : List (List K))
    (d : O × E) (ds : List (O × E)) :
    dataEvidence like (posterior like w locs d.1 d.2) locs ds =
      dataEvidence like w locs (d :: ds) / evidence like w locs d.1 d.2 := by
  unfold dataEvidence posterior
  rw [zip_map_left_div w locs (fun x => like d.1 x d.2) (dataLike like ds), ← sum_map_div,
    List.map_map]
  congr 1
  apply List.map_congr_left
  intro p _
  simp only [dataLike, List.map_cons, List.prod_cons, Function.comp]
  ring

theorem dataPosterior_cons (like : O → List K → E → K) (w : List K) (locs : List (List K))
    (d : O × E) (ds : List (O × E)) (h : evidence like w locs d.1 d.2 ≠ 0) :
    dataPosterior like (posterior like w locs d.1 d.2) locs ds =
      dataPosterior like w locs (d :: ds) := by
  unfold dataPosterior
  rw [dataEvidence_cons]
  have hz : ((posterior like w locs d.1 d.2).zip locs).map (fun p => p.1 * dataLike like ds p.2) =
      (w.zip locs).map fun p => p.1 * like d.1 p.2 d.2 / evidence like w locs d.1 d.2 *
        dataLike like ds p.2 :=
    zip_map_left_div w locs (fun x => like d.1 x d.2) (dataLike like ds) _
  have : ((posterior like w locs d.1 d.2).zip locs).map (fun p => p.1 * dataLike like ds p.2 /
      (dataEvidence like w locs (d :: ds) / evidence like w locs d.1 d.2)) =
      (((posterior like w locs d.1 d.2).zip locs).map (fun p => p.1 * dataLike like ds p.2)).map
        (· / (dataEvidence like w locs (d :: ds) / evidence like w locs d.1 d.2)) := by
    simp
  rw [this, hz, List.map_map]
  apply List.map_congr_left
  intro p _
  simp only [dataLike, List.map_cons, List.prod_cons, Function.comp]
  rw [show p.1 * like d.1 p.2 d.2 / evidence like w locs d.1 d.2 *
      (ds.map fun d => like d.1 p.2 d.2).prod =
      p.1 * (like d.1 p.2 d.2 * (ds.map fun d => like d.1 p.2 d.2).prod) /
        evidence like w locs d.1 d.2 by ring]
  rw [div_div_div_cancel_right₀ h]

theorem dataEvidence_nil (like : O → List K → E → K) (w : List K) (locs : List (List K))
    (h : locs.length = w.length) : dataEvidence like w locs [] = w.sum := by
  unfold dataEvidence dataLike
  simp only [List.map_nil, List.prod_nil, mul_one]
  rw [show ((w.zip locs).map fun p => p.1) = w from List.map_fst_zip (by omega)]

theorem dataPosterior_nil (like : O → List K → E → K) (w : List K) (locs : List (List K))
    (h : locs.length = w.length) (hs : w.sum = 1) : dataPosterior like w locs [] = w := by
  unfold dataPosterior
  rw [dataEvidence_nil like w locs h, hs]
  simp only [dataLike, List.map_nil, List.prod_nil, mul_one, div_one]
  exact List.map_fst_zip (by omega)

/-- After feeding a whole data set to a static model under policy `error`: the posterior, and a
normalization record that multiplies to the evidence. -/
theorem feed_closed (cfg : SmcConfig K) (env : Env K O E ω) (hg : GoodEnv env) (hst : Static env)
    (hp : cfg.policy = "error") (ht : eps ≤ cfg.zeroThresh) (ht1 : cfg.zeroThresh < 1)
    (ds : List (O × E)) (s : Smc K O ω) (hlen : s.locs.length = s.weights.length)
    (hprob : IsProb s.weights) (hok : (feed cfg env false ds s).2 = .ok ()) :
    (feed cfg env false ds s).1.weights = dataPosterior env.likelihood s.weights s.locs ds ∧
    (feed cfg env false ds s).1.locs = s.locs ∧
    (feed cfg env false ds s).1.dataRecord = s.dataRecord ++ ds.map Prod.fst ∧
    ∃ ns : List K, (feed cfg env false ds s).1.normRecord = s.normRecord ++ ns ∧
      ns.length = ds.length ∧ (∀ x ∈ ns, eps ≤ x) ∧
      ns.prod = dataEvidence env.likelihood s.weights s.locs ds := by
  induction ds generalizing s with
  | nil =>
    refine ⟨(dataPosterior_nil _ _ _ hlen hprob.2).symm, rfl, by simp [feed], [], by simp [feed],
      rfl, by simp, ?_⟩
    rw [dataEvidence_nil _ _ _ hlen, hprob.2]; rfl
  | cons d ds ih =>
    rcases heq : update cfg env s d.1 d.2 false with ⟨t, err | ⟨⟨⟩⟩⟩
    · simp [feed, heq] at hok
    · have hok1 : (update cfg env s d.1 d.2 false).2 = .ok () := by rw [heq]
      have hev := datum_error_ok cfg env hg hp ht s hlen hprob.1 d.1 d.2 hok1
      obtain ⟨-, h2, h3, -, h5, -, -, -, h9, -⟩ := datum_normal cfg env s d.1 d.2 hlen hprob.1
        (fun x => hg.like_nonneg d.1 x d.2) ht1 hev
      rw [heq] at h2 h3 h5 h9
      rw [hst] at h3
      simp only at h2 h3 h5 h9
      have hne := (lt_of_lt_of_le eps_pos hev).ne'
      have hprob' : IsProb t.weights := by
        rw [h2]
        exact ⟨posterior_nonneg _ _ _ _ _ hprob.1 (fun x => hg.like_nonneg d.1 x d.2),
          posterior_sum _ _ _ _ _ hne⟩
      have hlen' : t.locs.length = t.weights.length := by
        rw [h2, h3, posterior_length _ _ _ _ _ hlen, hlen]
      have hfeed : feed cfg env false (d :: ds) s = feed cfg env false ds t := by
        simp [feed, heq]
      rw [hfeed] at hok ⊢
      obtain ⟨i1, i2, i3, ns, i4, i5, i6, i7⟩ := ih t hlen' hprob' hok
      refine ⟨?_, i2.trans h3, by rw [i3, h9]; simp, evidence env.likelihood s.weights s.locs d.1 d.2 :: ns,
        ?_, by simp [i5], ?_, ?_⟩
      · rw [i1, h2, h3, dataPosterior_cons _ _ _ _ _ hne]
      · rw [i4, h5]; simp
      · intro x hx
        rcases List.mem_cons.1 hx with rfl | hx
        · exact hev
        · exact i6 x hx
      · rw [List.prod_cons, i7, h2, h3, dataEvidence_cons]
        field_simp

theorem dataLike_perm (like : O → List K → E → K) (ds ds' : List (O × E)) (h : ds.Perm ds')
    (x : List K) : dataLike like ds x = dataLike like ds' x :=
  (h.map _).prod_eq

theorem dataPosterior_perm (like : O → List K → E → K) (w : List K) (locs : List (List K))
    (ds ds' : List (O × E)) (h : ds.Perm ds') :
    dataPosterior like w locs ds = dataPosterior like w locs ds' := by
  simp only [dataPosterior, dataEvidence, dataLike_perm like ds ds' h]

end QInfer
