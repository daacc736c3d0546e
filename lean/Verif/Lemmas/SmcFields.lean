import Verif.Lemmas.Smc

/-! # How each method of the updater acts on each attribute -/

set_option linter.unusedSectionVars false

namespace QInfer

variable {K : Type*} {O E ω : Type*}
variable [Field K] [LinearOrder K]

/-! ### `reset` -/

section
variable (cfg : SmcConfig K) (env : Env K O E ω) (s : Smc K O ω) (n : Option Nat)
  (only : Option (List Nat)) (rw_ : Bool)

theorem reset_fields : let t := (reset cfg env s n only rw_).1
    t.dataRecord = s.dataRecord ∧ t.normRecord = s.normRecord ∧ t.minNEss = s.minNEss ∧
    t.resampleCount = s.resampleCount ∧ t.justResampled = s.justResampled ∧
    t.divergences = s.divergences ∧ t.warnings = s.warnings := by
  unfold reset
  split
  · simp
  · cases only <;> cases rw_ <;> simp

end

/-! ### `resample` -/

theorem resample_fields (cfg : SmcConfig K) (env : Env K O E ω) (s : Smc K O ω) :
    let t := (resample cfg env s).1
    t.dataRecord = s.dataRecord ∧ t.normRecord = s.normRecord ∧ t.minNEss = s.minNEss ∧
    t.resampleCount = s.resampleCount + 1 ∧ t.justResampled = true := by
  unfold resample runResampler markResampled
  dsimp only
  cases s.justResampled <;> simp only [Bool.false_eq_true, if_false, if_true, Smc.warn] <;>
  · split
    · simp
    · cases env.clearCacheRaises <;> cases s.divergences <;> simp

theorem maybeResample_fields (cfg : SmcConfig K) (env : Env K O E ω) (s : Smc K O ω) :
    let t := (maybeResample cfg env s).1
    t.dataRecord = s.dataRecord ∧ t.normRecord = s.normRecord ∧ t.minNEss = s.minNEss := by
  unfold maybeResample
  dsimp only
  have h : ∀ u : Smc K O ω, u = (if nEss s.weights ≤ ((10 : K) : WithTop K)
      then s.warn .smallEss else s) → u.dataRecord = s.dataRecord ∧ u.normRecord = s.normRecord ∧
      u.minNEss = s.minNEss := by
    intro u hu; subst hu; split <;> simp [Smc.warn]
  generalize hu : (if nEss s.weights ≤ ((10 : K) : WithTop K) then s.warn .smallEss else s) = u
  obtain ⟨h1, h2, h3⟩ := h u hu.symm
  split
  · obtain ⟨a, b, c, -, -⟩ := resample_fields cfg env u
    exact ⟨a.trans h1, b.trans h2, c.trans h3⟩
  · exact ⟨h1, h2, h3⟩

theorem maybeResample_count (cfg : SmcConfig K) (env : Env K O E ω) (s : Smc K O ω) :
    let t := (maybeResample cfg env s).1
    (nEss s.weights < (((s.locs.length : K) * cfg.resampleThresh : K) : WithTop K) ∧
      t.resampleCount = s.resampleCount + 1 ∧ t.justResampled = true) ∨
    (¬ nEss s.weights < (((s.locs.length : K) * cfg.resampleThresh : K) : WithTop K) ∧
      t.resampleCount = s.resampleCount ∧ t.justResampled = s.justResampled ∧
      t.weights = s.weights ∧ t.locs = s.locs ∧ t.seed = s.seed ∧
      (maybeResample cfg env s).2 = .ok ()) := by
  unfold maybeResample
  dsimp only
  have h : ∀ u : Smc K O ω, u = (if nEss s.weights ≤ ((10 : K) : WithTop K)
      then s.warn .smallEss else s) → u.resampleCount = s.resampleCount ∧
      u.justResampled = s.justResampled ∧ u.weights = s.weights ∧ u.locs = s.locs ∧
      u.seed = s.seed := by
    intro u hu; subst hu; split <;> simp [Smc.warn]
  generalize hu : (if nEss s.weights ≤ ((10 : K) : WithTop K) then s.warn .smallEss else s) = u
  obtain ⟨h1, h2, h3, h4, h5⟩ := h u hu.symm
  have hn : u.nParticles = s.locs.length := by rw [Smc.nParticles, h4]
  rw [hn]
  split
  · rename_i hlt
    obtain ⟨-, -, -, c, d⟩ := resample_fields cfg env u
    exact Or.inl ⟨hlt, c.trans (by rw [h1]), d⟩
  · rename_i hlt
    exact Or.inr ⟨hlt, h1, h2, h3, h4, h5, rfl⟩

/-! ### `update` in normal form -/

theorem zipWith_like (env : Env K O E ω) (w : List K) (locs : List (List K)) (o : O) (e : E) :
    List.zipWith (· * ·) w (env.likeRow locs o e) =
      (w.zip locs).map fun p => p.1 * env.likelihood o p.2 e := by
  unfold Env.likeRow
  induction w generalizing locs with
  | nil => simp
  | cons a w ih => cases locs with
    | nil => simp
    | cons b l => simp [ih]

theorem evidence_eq (env : Env K O E ω) (w : List K) (locs : List (List K)) (o : O) (e : E) :
    (List.zipWith (· * ·) w (env.likeRow locs o e)).sum = evidence env.likelihood w locs o e := by
  rw [zipWith_like]; rfl

variable [IsStrictOrderedRing K]

theorem evidence_nonneg (like : O → List K → E → K) (w : List K) (locs : List (List K))
    (o : O) (e : E) (hw : ∀ x ∈ w, 0 ≤ x) (hL : ∀ x, 0 ≤ like o x e) :
    0 ≤ evidence like w locs o e := by
  apply List.sum_nonneg
  intro x hx
  obtain ⟨p, hp, rfl⟩ := List.mem_map.1 hx
  exact mul_nonneg (hw _ (List.of_mem_zip hp).1) (hL _)

theorem hypCell_normal (env : Env K O E ω) (w : List K) (locs : List (List K)) (o : O) (e : E)
    (hlen : locs.length = w.length) (hev : eps ≤ |evidence env.likelihood w locs o e|) :
    hypCell env w locs o e = .ok (posterior env.likelihood w locs o e, env.likeRow locs o e,
      evidence env.likelihood w locs o e) := by
  rw [hypCell_eq env w locs o e hlen, evidence_eq, if_neg (not_lt.2 hev), zipWith_like]
  simp [posterior]

theorem hypCell_tiny (env : Env K O E ω) (w : List K) (locs : List (List K)) (o : O) (e : E)
    (hlen : locs.length = w.length) (hev : |evidence env.likelihood w locs o e| < eps) :
    hypCell env w locs o e = .ok ((w.zip locs).map (fun p => p.1 * env.likelihood o p.2 e),
      env.likeRow locs o e, evidence env.likelihood w locs o e) := by
  rw [hypCell_eq env w locs o e hlen, evidence_eq, if_pos hev, zipWith_like]
  simp

theorem posterior_sum (like : O → List K → E → K) (w : List K) (locs : List (List K)) (o : O) (e : E)
    (h : evidence like w locs o e ≠ 0) : (posterior like w locs o e).sum = 1 := by
  have : posterior like w locs o e =
      ((w.zip locs).map fun p => p.1 * like o p.2 e).map (· / evidence like w locs o e) := by
    simp [posterior]
  rw [this, sum_map_div]
  exact div_self h

theorem posterior_nonneg (like : O → List K → E → K) (w : List K) (locs : List (List K))
    (o : O) (e : E) (hw : ∀ x ∈ w, 0 ≤ x) (hL : ∀ x, 0 ≤ like o x e) :
    ∀ x ∈ posterior like w locs o e, 0 ≤ x := by
  intro x hx
  obtain ⟨p, hp, rfl⟩ := List.mem_map.1 hx
  exact div_nonneg (mul_nonneg (hw _ (List.of_mem_zip hp).1) (hL _))
    (evidence_nonneg like w locs o e hw hL)

/-- An update whose outcome has probability at least `eps`. -/
theorem update_normal (cfg : SmcConfig K) (env : Env K O E ω) (s : Smc K O ω) (o : O) (e : E)
    (check : Bool) (hlen : s.locs.length = s.weights.length) (hw : ∀ x ∈ s.weights, 0 ≤ x)
    (hL : ∀ x, 0 ≤ env.likelihood o x e) (ht : cfg.zeroThresh < 1)
    (hev : eps ≤ evidence env.likelihood s.weights s.locs o e) :
    update cfg env s o e check = finishUpdate cfg env (recordDatum s o)
      (posterior env.likelihood s.weights s.locs o e)
      (evidence env.likelihood s.weights s.locs o e) e check := by
  have h := hypCell_normal env s.weights s.locs o e hlen (hev.trans (le_abs_self _))
  have h' : hypCell env (recordDatum s o).weights (recordDatum s o).locs o e = _ := h
  unfold update
  dsimp only
  rw [h']
  dsimp only
  rw [if_pos (by simpa using posterior_nonneg env.likelihood s.weights s.locs o e hw hL)]
  unfold applyUpdate
  rw [posterior_sum _ _ _ _ _ (lt_of_lt_of_le eps_pos hev).ne', if_neg (not_le.2 ht)]

/-- An update whose outcome has probability below `eps`. -/
theorem update_tiny (cfg : SmcConfig K) (env : Env K O E ω) (s : Smc K O ω) (o : O) (e : E)
    (check : Bool) (hlen : s.locs.length = s.weights.length) (hw : ∀ x ∈ s.weights, 0 ≤ x)
    (hL : ∀ x, 0 ≤ env.likelihood o x e)
    (hev : evidence env.likelihood s.weights s.locs o e < eps) :
    update cfg env s o e check = applyUpdate cfg env (recordDatum s o)
      ((s.weights.zip s.locs).map (fun p => p.1 * env.likelihood o p.2 e))
      (evidence env.likelihood s.weights s.locs o e) e check := by
  have hn := evidence_nonneg env.likelihood s.weights s.locs o e hw hL
  have h := hypCell_tiny env s.weights s.locs o e hlen (by rwa [abs_of_nonneg hn])
  have h' : hypCell env (recordDatum s o).weights (recordDatum s o).locs o e = _ := h
  unfold update
  dsimp only
  rw [h']
  dsimp only
  rw [if_pos]
  simp only [List.all_map, List.all_eq_true, Function.comp, decide_eq_true_eq]
  intro p hp
  exact mul_nonneg (hw _ (List.of_mem_zip hp).1) (hL _)

end QInfer
