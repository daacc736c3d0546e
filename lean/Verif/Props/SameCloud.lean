import Verif.Props.SmcPolicies
import Verif.Model.SimpleEst
import Verif.Props.Risk
import Verif.Demo.Smc

/-!
# C132: only the distribution a cloud represents matters

Particles may be reordered, split into several with the same location, merged, or left out if they have
no weight: updates and estimates do not change.
-/

set_option linter.unusedSectionVars false

namespace QInfer

open Demo

variable {K : Type} [Field K] [LinearOrder K] [IsStrictOrderedRing K]

/-- The weight a cloud, a list of weighted points, gives to the point `y`. -/
def Spec.mass {α : Type} [DecidableEq α] (l : List (K × α)) (y : α) : K :=
  ((l.filter fun p => p.2 = y).map Prod.fst).sum

/-- Two clouds represent the same distribution. -/
def Spec.SameCloud {α : Type} [DecidableEq α] (l l' : List (K × α)) : Prop :=
  ∀ y, Spec.mass l y = Spec.mass l' y

/-! ## Helper lemmas -/

section
variable {α : Type} [DecidableEq α]

theorem sum_eq_mass (l : List (K × α)) (g : α → K) (T : Finset α) (hT : ∀ p ∈ l, p.2 ∈ T) :
    (l.map fun p => p.1 * g p.2).sum = ∑ y ∈ T, Spec.mass l y * g y := by
  induction l with
  | nil => simp [Spec.mass]
  | cons p l ih =>
    rw [List.map_cons, List.sum_cons, ih fun q hq => hT q (by simp [hq])]
    have hm : ∀ y, Spec.mass (p :: l) y = (if p.2 = y then p.1 else 0) + Spec.mass l y := by
      intro y
      unfold Spec.mass
      by_cases h : p.2 = y <;> simp [h]
    simp only [hm, add_mul, Finset.sum_add_distrib, ite_mul, zero_mul]
    rw [Finset.sum_ite_eq T p.2 (fun y => p.1 * g y), if_pos (hT p (by simp))]

/-- Clouds represent the same distribution exactly if all means agree. -/
theorem sameCloud_iff (l l' : List (K × α)) :
    Spec.SameCloud l l' ↔
      ∀ g : α → K, (l.map fun p => p.1 * g p.2).sum = (l'.map fun p => p.1 * g p.2).sum := by
  constructor
  · intro h g
    obtain ⟨T, hT⟩ : ∃ T : Finset α, T = ((l ++ l').map Prod.snd).toFinset := ⟨_, rfl⟩
    rw [sum_eq_mass l g T, sum_eq_mass l' g T]
    · exact Finset.sum_congr rfl fun y _ => by rw [h y]
    · intro p hp; rw [hT]; simp only [List.mem_toFinset, List.mem_map]; exact ⟨p, by simp [hp], rfl⟩
    · intro p hp; rw [hT]; simp only [List.mem_toFinset, List.mem_map]; exact ⟨p, by simp [hp], rfl⟩
  · intro h y
    have hm : ∀ l : List (K × α), Spec.mass l y = (l.map fun p => p.1 * (if p.2 = y then 1 else 0)).sum := by
      intro l
      induction l with
      | nil => simp [Spec.mass]
      | cons p l ih =>
        rw [List.map_cons, List.sum_cons, ← ih]
        unfold Spec.mass
        by_cases h : p.2 = y <;> simp [h]
    rw [hm, hm, h fun x => if x = y then 1 else 0]

end

variable {O E ω : Type}

/-- Particles move one by one, without noise. -/
def Spec.MovesEach (env : Env K O E ω) : Prop :=
  ∃ step : E → List K → List K, ∀ r l e, (env.timestep r l e).1 = l.map (step e)

/-- Two updaters with the same history and clouds that represent the same distribution. -/
structure Spec.Alike (s s' : Smc K O ω) : Prop where
  len : s.locs.length = s.weights.length
  len' : s'.locs.length = s'.weights.length
  nonneg : ∀ x ∈ s.weights, 0 ≤ x
  nonneg' : ∀ x ∈ s'.weights, 0 ≤ x
  cloud : Spec.SameCloud (s.weights.zip s.locs) (s'.weights.zip s'.locs)
  data : s.dataRecord = s'.dataRecord
  norms : s.normRecord = s'.normRecord
  warnings : s.warnings = s'.warnings

theorem zip_map_weights {α β : Type*} (w : List α) (x : List β) (f : α × β → α) (h : x.length = w.length) :
    ((w.zip x).map f).zip x = (w.zip x).map fun p => (f p, p.2) := by
  induction w generalizing x with
  | nil => simp
  | cons a w ih => cases x with
    | nil => simp
    | cons b x => simp [ih x (by simpa using h)]

theorem zip_map_points {α β γ : Type*} (w : List α) (x : List β) (f : β → γ) :
    w.zip (x.map f) = (w.zip x).map fun p => (p.1, f p.2) := by
  induction w generalizing x with
  | nil => simp
  | cons a w ih => cases x with
    | nil => simp
    | cons b x => simp [ih x]

theorem finish_alike (cfg : SmcConfig K) (env : Env K O E ω) (hm : Spec.MovesEach env) (s s' : Smc K O ω)
    (h : Spec.Alike s s') (e : E) (g : List K → K) (hg : ∀ x, 0 ≤ g x) (n : K) :
    let r := finishUpdate cfg env s ((s.weights.zip s.locs).map fun p => p.1 * g p.2) n e false
    let r' := finishUpdate cfg env s' ((s'.weights.zip s'.locs).map fun p => p.1 * g p.2) n e false
    r.2 = r'.2 ∧ Spec.Alike r.1 r'.1 := by
  intro r r'
  obtain ⟨step, hstep⟩ := hm
  have hl : ((s.weights.zip s.locs).map fun p => p.1 * g p.2).length = s.weights.length := by
    simp [h.len]
  have hl' : ((s'.weights.zip s'.locs).map fun p => p.1 * g p.2).length = s'.weights.length := by
    simp [h.len']
  obtain ⟨a1, a2, a3, -, a4, -, -, -, a5, a6⟩ := finishUpdate_false cfg env s _ n e hl
  obtain ⟨b1, b2, b3, -, b4, -, -, -, b5, b6⟩ := finishUpdate_false cfg env s' _ n e hl'
  rw [hstep] at a3 b3
  refine ⟨a1.trans b1.symm, ?_⟩
  constructor
  · rw [a2, a3, List.length_map, hl, h.len]
  · rw [b2, b3, List.length_map, hl', h.len']
  · rw [a2]
    intro x hx
    obtain ⟨p, hp, rfl⟩ := List.mem_map.1 hx
    exact mul_nonneg (h.nonneg _ (List.of_mem_zip hp).1) (hg _)
  · rw [b2]
    intro x hx
    obtain ⟨p, hp, rfl⟩ := List.mem_map.1 hx
    exact mul_nonneg (h.nonneg' _ (List.of_mem_zip hp).1) (hg _)
  · rw [a2, a3, b2, b3, sameCloud_iff]
    intro f
    rw [zip_map_points, zip_map_points, zip_map_weights _ _ _ h.len, zip_map_weights _ _ _ h.len']
    have := (sameCloud_iff _ _).1 h.cloud fun x => g x * f (step e x)
    simpa [Function.comp_def, mul_assoc] using this
  · rw [a5, b5, h.data]
  · rw [a4, b4, h.norms]
  · rw [a6, b6, h.warnings]

theorem apply_alike (cfg : SmcConfig K) (hp : cfg.policy ≠ "reset") (env : Env K O E ω)
    (hm : Spec.MovesEach env) (s s' : Smc K O ω)
    (h : Spec.Alike s s') (e : E) (g : List K → K) (hg : ∀ x, 0 ≤ g x) (n : K) :
    let r := applyUpdate cfg env s ((s.weights.zip s.locs).map fun p => p.1 * g p.2) n e false
    let r' := applyUpdate cfg env s' ((s'.weights.zip s'.locs).map fun p => p.1 * g p.2) n e false
    r.2 = r'.2 ∧ Spec.Alike r.1 r'.1 := by
  intro r r'
  have hs : ((s.weights.zip s.locs).map fun p => p.1 * g p.2).sum =
      ((s'.weights.zip s'.locs).map fun p => p.1 * g p.2).sum := (sameCloud_iff _ _).1 h.cloud g
  have hw : Spec.Alike (s.warn .zeroWeights) (s'.warn .zeroWeights) :=
    ⟨h.len, h.len', h.nonneg, h.nonneg', h.cloud, h.data, h.norms, by
      show s.warnings ++ _ = s'.warnings ++ _
      rw [h.warnings]⟩
  show (applyUpdate cfg env s _ n e false).2 = (applyUpdate cfg env s' _ n e false).2 ∧
    Spec.Alike (applyUpdate cfg env s _ n e false).1 (applyUpdate cfg env s' _ n e false).1
  unfold applyUpdate
  rw [hs]
  split
  · split
    · exact finish_alike cfg env hm s s' h e g hg n
    · split
      · exact ⟨rfl, h⟩
      · split
        · exact finish_alike cfg env hm _ _ hw e g hg n
        · split
          · exact ⟨rfl, h⟩
          · exact ⟨rfl, h⟩
  · exact finish_alike cfg env hm s s' h e g hg n

theorem update_alike (cfg : SmcConfig K) (hp : cfg.policy ≠ "reset") (env : Env K O E ω) (hg : GoodEnv env)
    (hm : Spec.MovesEach env) (s s' : Smc K O ω) (h : Spec.Alike s s') (o : O) (e : E) :
    (update cfg env s o e false).2 = (update cfg env s' o e false).2 ∧
    Spec.Alike (update cfg env s o e false).1 (update cfg env s' o e false).1 := by
  have hr : Spec.Alike (recordDatum s o) (recordDatum s' o) :=
    ⟨h.len, h.len', h.nonneg, h.nonneg', h.cloud, by simp [recordDatum, h.data], h.norms, h.warnings⟩
  have hev : evidence env.likelihood s.weights s.locs o e = evidence env.likelihood s'.weights s'.locs o e :=
    (sameCloud_iff _ _).1 h.cloud fun x => env.likelihood o x e
  obtain ⟨N, hN⟩ : ∃ N, N = evidence env.likelihood s.weights s.locs o e := ⟨_, rfl⟩
  have hN0 : 0 ≤ N := hN ▸ evidence_nonneg _ _ _ _ _ h.nonneg fun x => hg.like_nonneg o x e
  rcases lt_or_ge N eps with hlt | hge
  · rw [update_tiny cfg env s o e false h.len h.nonneg (fun x => hg.like_nonneg o x e) (hN ▸ hlt),
      update_tiny cfg env s' o e false h.len' h.nonneg' (fun x => hg.like_nonneg o x e) (by rw [← hev, ← hN]; exact hlt),
      ← hev]
    exact apply_alike cfg hp env hm _ _ hr e (fun x => env.likelihood o x e)
      (fun x => hg.like_nonneg o x e) _
  · have key : ∀ t : Smc K O ω, t.locs.length = t.weights.length → (∀ x ∈ t.weights, 0 ≤ x) →
        evidence env.likelihood t.weights t.locs o e = N →
        update cfg env t o e false = applyUpdate cfg env (recordDatum t o)
          (((recordDatum t o).weights.zip (recordDatum t o).locs).map fun p => p.1 * (env.likelihood o p.2 e / N))
          N e false := by
      intro t hl hn ht
      have hc := hypCell_normal env t.weights t.locs o e hl (by rw [ht]; exact hge.trans (le_abs_self _))
      have hpost : posterior env.likelihood t.weights t.locs o e =
          (t.weights.zip t.locs).map fun p => p.1 * (env.likelihood o p.2 e / N) := by
        simp only [posterior, ht, mul_div_assoc]
      have hc' : hypCell env (recordDatum t o).weights (recordDatum t o).locs o e = _ := hc
      unfold update
      dsimp only
      rw [hc']
      dsimp only
      have hnn := posterior_nonneg env.likelihood t.weights t.locs o e hn fun x => hg.like_nonneg o x e
      rw [if_pos (by simpa using hnn), hpost, ht]
      rfl
    rw [key s h.len h.nonneg hN.symm, key s' h.len' h.nonneg' (hev ▸ hN.symm)]
    exact apply_alike cfg hp env hm _ _ hr e (fun x => env.likelihood o x e / N)
      (fun x => div_nonneg (hg.like_nonneg o x e) hN0) _

/-! ## C132 -/

/-- **C132.**  Two updaters with the same history whose clouds represent the same distribution, fed with the same data
without resampling, raise the same exceptions, record the same normalizations, give the same warnings
and end with clouds that represent the same distribution, under every policy except `reset`. -/
theorem C132_updates (cfg : SmcConfig K) (hp : cfg.policy ≠ "reset") (env : Env K O E ω) (hg : GoodEnv env)
    (hm : Spec.MovesEach env) (ds : List (O × E)) (s s' : Smc K O ω) (h : Spec.Alike s s') :
    (feed cfg env false ds s).2 = (feed cfg env false ds s').2 ∧
    Spec.Alike (feed cfg env false ds s).1 (feed cfg env false ds s').1 := by
  induction ds generalizing s s' with
  | nil => exact ⟨rfl, h⟩
  | cons d ds ih =>
    obtain ⟨h1, h2⟩ := update_alike cfg hp env hg hm s s' h d.1 d.2
    unfold feed
    rcases hu : update cfg env s d.1 d.2 false with ⟨t, err | ⟨⟩⟩ <;>
      rcases hu' : update cfg env s' d.1 d.2 false with ⟨t', err' | ⟨⟩⟩ <;> rw [hu, hu'] at h1 h2
    · exact ⟨h1, h2⟩
    · cases h1
    · cases h1
    · exact ih t t' h2

/-- **C132, what may be done to a cloud.**  Reordering the particles, splitting one into two at the same
place, and leaving out particles without weight keep the distribution. -/
theorem C132_rearrangements {α : Type} [DecidableEq α] (l l' : List (K × α)) (a b : K) (x : α) :
    (l.Perm l' → Spec.SameCloud l l') ∧
    Spec.SameCloud ((a + b, x) :: l) ((a, x) :: (b, x) :: l) ∧
    Spec.SameCloud l (l.filter fun p => p.1 ≠ 0) := by
  refine ⟨fun h y => ?_, fun y => ?_, ?_⟩
  · exact ((h.filter _).map _).sum_eq
  · unfold Spec.mass
    by_cases hx : x = y <;> simp [hx, add_assoc]
  · rw [sameCloud_iff]
    intro g
    induction l with
    | nil => simp
    | cons p l ih =>
      by_cases hp : p.1 = 0
      · rw [List.filter_cons_of_neg (by simp [hp])]; simp [hp, ih]
      · rw [List.filter_cons_of_pos (by simp [hp])]; simp [ih]

theorem zipWith_zip {α β γ : Type*} (f : α → β → γ) (l : List α) (m : List β) :
    List.zipWith f l m = (l.zip m).map fun p => f p.1 p.2 := by
  rw [List.zip, List.map_zipWith]

/-- **C132, estimates.**  `est_mean` and `est_covariance_mtx` depend on the distribution only. -/
theorem C132_moments (w w' : List K) (x x' : List (List K)) (h : Spec.SameCloud (w.zip x) (w'.zip x')) (d : ℕ) :
    smcMean d w x = smcMean d w' x' ∧ smcCov d w x = smcCov d w' x' := by
  rw [sameCloud_iff] at h
  have hm : smcMean d w x = smcMean d w' x' := by
    unfold smcMean
    refine List.map_congr_left fun j _ => ?_
    rw [zipWith_zip, zipWith_zip]
    exact h fun y => y.getD j 0
  refine ⟨hm, ?_⟩
  unfold smcCov
  rw [hm]
  refine List.map_congr_left fun a _ => List.map_congr_left fun b _ => ?_
  rw [zipWith_zip, zipWith_zip]
  have := h fun y => y.getD a 0 * y.getD b 0
  simp only [mul_assoc]
  rw [this]

/-! ### Risk and information gain -/

section arrays

variable {n n' d k m : ℕ}

theorem sameCloud_fin {α : Type} [DecidableEq α] (w : Fin n → K) (x : Fin n → α) (w' : Fin n' → K) (x' : Fin n' → α) :
    Spec.SameCloud (List.ofFn fun i => (w i, x i)) (List.ofFn fun i => (w' i, x' i)) ↔
      ∀ g : α → K, ∑ i, w i * g (x i) = ∑ i, w' i * g (x' i) := by
  rw [sameCloud_iff]
  refine forall_congr' fun g => ?_
  rw [List.map_ofFn, List.map_ofFn, List.sum_ofFn, List.sum_ofFn]
  rfl

theorem qvar_same (Q : Fin d → K) (w : Fin n → K) (x : Fin n → Fin d → K) (w' : Fin n' → K) (x' : Fin n' → Fin d → K)
    (h : ∀ g : (Fin d → K) → K, ∑ i, w i * g (x i) = ∑ i, w' i * g (x' i)) : qvar Q w x = qvar Q w' x' := by
  have hm : ∀ j, pmean w x j = pmean w' x' j := fun j => h fun y => y j
  unfold qvar
  simp only [hm]
  exact h fun y => ∑ j, Q j * (y j - pmean w' x' j) ^ 2

/-- **C132, risk.**  `bayes_risk` depends on the distribution only. -/
theorem C132_bayes_risk (Q : Fin d → K) (w : Fin n → K) (x : Fin n → Fin d → K) (w' : Fin n' → K)
    (x' : Fin n' → Fin d → K)
    (h : Spec.SameCloud (List.ofFn fun i => (w i, x i)) (List.ofFn fun i => (w' i, x' i)))
    (like : Fin k → (Fin d → K) → Fin m → K) (e : Fin m) :
    bayesRisk Q w x (fun o i e => like o (x i) e) e = bayesRisk Q w' x' (fun o i e => like o (x' i) e) e := by
  rw [sameCloud_fin] at h
  have hN : ∀ o, hypN w (fun o i e => like o (x i) e) o e = hypN w' (fun o i e => like o (x' i) e) o e :=
    fun o => h fun y => like o y e
  have hlast : lastN w (fun o i e => like o (x i) e) e = lastN w' (fun o i e => like o (x' i) e) e := by
    have := h fun y => 1 - ∑ o, like o y e
    simpa only [lastN, lastRaw, mul_comm] using this
  unfold bayesRisk
  rw [hlast]
  have hq : ∀ o, qvar Q (hypW w (fun o i e => like o (x i) e) o e) x =
      qvar Q (hypW w' (fun o i e => like o (x' i) e) o e) x' := by
    intro o
    refine qvar_same Q _ _ _ _ fun g => ?_
    obtain ⟨c, hc⟩ : ∃ c, c = if |hypN w' (fun o i e => like o (x' i) e) o e| < eps then 1
      else hypN w' (fun o i e => like o (x' i) e) o e := ⟨_, rfl⟩
    have := h fun y => like o y e / c * g y
    simp only [hypW, hN, ← hc]
    simpa only [mul_div_assoc, mul_assoc] using this
  have hq2 : qvar Q (fun i => lastRaw w (fun o i e => like o (x i) e) e i / lastN w' (fun o i e => like o (x' i) e) e) x =
      qvar Q (fun i => lastRaw w' (fun o i e => like o (x' i) e) e i / lastN w' (fun o i e => like o (x' i) e) e) x' := by
    refine qvar_same Q _ _ _ _ fun g => ?_
    obtain ⟨c, hc⟩ : ∃ c, c = lastN w' (fun o i e => like o (x' i) e) e := ⟨_, rfl⟩
    rw [← hc]
    have := h fun y => (1 - ∑ o, like o y e) / c * g y
    simp only [lastRaw]
    calc _ = ∑ i, w i * ((1 - ∑ o, like o (x i) e) / c * g (x i)) :=
          Finset.sum_congr rfl fun i _ => by ring
      _ = _ := this
      _ = _ := Finset.sum_congr rfl fun i _ => by ring
  simp only [hN, hq, hq2]

theorem hypDen_pos (N : ℝ) (hN : 0 ≤ N) : 0 < if |N| < eps then 1 else N := by
  split
  · exact one_pos
  · rename_i h
    rw [abs_of_nonneg hN] at h
    exact lt_of_lt_of_le eps_pos (not_lt.1 h)

theorem kld_weighted (w : Fin n → ℝ) (hw : ∀ i, 0 < w i) (f : Fin n → ℝ) (hf : ∀ i, 0 < f i) :
    kld (fun i => w i * f i) w = some (∑ i, w i * (f i * Real.log (f i))) := by
  unfold kld
  apply nanSum_some
  intro i
  unfold klTerm
  rw [if_pos ⟨mul_pos (hw i) (hf i), hw i⟩, mul_div_cancel_left₀ _ (hw i).ne', mul_assoc]

/-- **C132, information gain.**  `expected_information_gain` depends on the distribution only, as long as
every particle has weight and every outcome can occur. -/
theorem C132_information_gain (w : Fin n → ℝ) (x : Fin n → Fin d → ℝ) (w' : Fin n' → ℝ)
    (x' : Fin n' → Fin d → ℝ) (hw : ∀ i, 0 < w i) (hw' : ∀ i, 0 < w' i)
    (h : Spec.SameCloud (List.ofFn fun i => (w i, x i)) (List.ofFn fun i => (w' i, x' i)))
    (like : Fin k → (Fin d → ℝ) → Fin m → ℝ) (e : Fin m) (hl : ∀ o y, 0 < like o y e)
    (hlast : ∀ y, ∑ o, like o y e < 1) :
    infoGain w (fun o i e => like o (x i) e) e = infoGain w' (fun o i e => like o (x' i) e) e := by
  rw [sameCloud_fin] at h
  have hN : ∀ o, hypN w (fun o i e => like o (x i) e) o e = hypN w' (fun o i e => like o (x' i) e) o e :=
    fun o => h fun y => like o y e
  have hL : lastN w (fun o i e => like o (x i) e) e = lastN w' (fun o i e => like o (x' i) e) e := by
    have := h fun y => 1 - ∑ o, like o y e
    simpa only [lastN, lastRaw, mul_comm] using this
  have hN0 : ∀ o, 0 ≤ hypN w' (fun o i e => like o (x' i) e) o e := fun o =>
    Finset.sum_nonneg fun i _ => (mul_pos (hw' i) (hl o _)).le
  have hL0 : 0 ≤ lastN w' (fun o i e => like o (x' i) e) e :=
    Finset.sum_nonneg fun i _ => by
      have := mul_pos (sub_pos.2 (hlast (x' i))) (hw' i)
      exact this.le
  have k1 : ∀ o, kld (hypW w (fun o i e => like o (x i) e) o e) w =
      kld (hypW w' (fun o i e => like o (x' i) e) o e) w' := by
    intro o
    obtain ⟨c, hc⟩ : ∃ c, c = if |hypN w' (fun o i e => like o (x' i) e) o e| < eps then 1
      else hypN w' (fun o i e => like o (x' i) e) o e := ⟨_, rfl⟩
    have hc0 : 0 < c := hc ▸ hypDen_pos _ (hN0 o)
    have e1 : hypW w (fun o i e => like o (x i) e) o e = fun i => w i * (like o (x i) e / c) := by
      funext i; unfold hypW; rw [hN, ← hc, mul_div_assoc]
    have e2 : hypW w' (fun o i e => like o (x' i) e) o e = fun i => w' i * (like o (x' i) e / c) := by
      funext i; unfold hypW; rw [← hc, mul_div_assoc]
    rw [e1, e2, kld_weighted w hw _ fun i => div_pos (hl o _) hc0,
      kld_weighted w' hw' _ fun i => div_pos (hl o _) hc0]
    exact congrArg some (h fun y => like o y e / c * Real.log (like o y e / c))
  unfold infoGain
  rw [hL]
  split
  · rfl
  · rename_i hne
    have hpos := lt_of_le_of_ne hL0 (Ne.symm hne)
    obtain ⟨c, hc⟩ : ∃ c, c = lastN w' (fun o i e => like o (x' i) e) e := ⟨_, rfl⟩
    rw [← hc] at hpos ⊢
    have e1 : (fun i => lastRaw w (fun o i e => like o (x i) e) e i / c) =
        fun i => w i * ((1 - ∑ o, like o (x i) e) / c) := by
      funext i; unfold lastRaw; ring
    have e2 : (fun i => lastRaw w' (fun o i e => like o (x' i) e) e i / c) =
        fun i => w' i * ((1 - ∑ o, like o (x' i) e) / c) := by
      funext i; unfold lastRaw; ring
    have k2 : kld (fun i => lastRaw w (fun o i e => like o (x i) e) e i / c) w =
        kld (fun i => lastRaw w' (fun o i e => like o (x' i) e) e i / c) w' := by
      rw [e1, e2, kld_weighted w hw _ fun i => div_pos (sub_pos.2 (hlast _)) hpos,
        kld_weighted w' hw' _ fun i => div_pos (sub_pos.2 (hlast _)) hpos]
      exact congrArg some (h fun y => (1 - ∑ o, like o y e) / c * Real.log ((1 - ∑ o, like o y e) / c))
    simp only [k1, k2, hN]

end arrays

/-! ### What does depend on the representation -/

/-- Two particles. -/
def plain : Smc ℚ Nat Nat := { fresh with weights := [1/2, 1/2], locs := [[1/4], [3/4]] }

/-- The same with three particles of no weight, and in the other order. -/
def padded : Smc ℚ Nat Nat :=
  { fresh with weights := [0, 1/2, 0, 1/2, 0], locs := [[1/3], [3/4], [1/8], [1/4], [1/8]] }

theorem plain_padded : Spec.Alike plain padded where
  len := rfl
  len' := rfl
  nonneg := by decide +kernel
  nonneg' := by decide +kernel
  cloud := by
    rw [sameCloud_iff]
    intro g
    simp [plain, padded]
    ring
  data := rfl
  norms := rfl
  warnings := rfl

/-- **C132, what is not covered.**  The effective sample size, the entropy and the information gain do
see the representation: splitting a particle doubles `n_ess` and adds `log 2` to `est_entropy`, a
particle without weight turns `expected_information_gain` into NaN, and of two updaters that represent the same
distribution one resamples after a datum and the other does not. -/
theorem C132_resampling_differs :
    (Spec.SameCloud [((1 : ℚ), [(0 : ℚ)])] [(1/2, [0]), (1/2, [0])] ∧
      nEss [(1 : ℚ)] = (1 : ℚ) ∧ nEss [(1/2 : ℚ), 1/2] = (2 : ℚ)) ∧
    (entropy [1] = 0 ∧ entropy [1/2, 1/2] = Real.log 2) ∧
    (∃ (s s' : Smc ℚ Nat Nat), Spec.Alike s s' ∧
      (update cfg coinEnv s 0 () true).1.justResampled = false ∧
      (update cfg coinEnv s' 0 () true).1.justResampled = true) ∧
    ∀ {n k m : ℕ} (w : Fin (n + 1) → ℝ) (L : Fin (k + 1) → Fin (n + 1) → Fin m → ℝ) (e : Fin m),
      w 0 = 0 → infoGain w L e = none := by
  refine ⟨⟨?_, by decide +kernel, by decide +kernel⟩, ⟨by simp [entropy], ?_⟩,
    ⟨plain, padded, plain_padded, by decide +kernel, by decide +kernel⟩, ?_⟩
  · rw [sameCloud_iff]
    intro g
    simp
    ring
  · have h : ¬ (2 : ℝ)⁻¹ ≤ 0 := by norm_num
    simp [entropy, Real.log_inv]
    ring
  · intro n k m w L e hw
    unfold infoGain
    split
    · rfl
    · have hk : kld (hypW w L 0 e) w = none := by
        apply nanSum_none _ 0
        unfold klTerm
        rw [if_neg]
        rw [hw]
        simp
      have : nanSum (fun o => (kld (hypW w L o e) w).map (hypN w L o e * ·)) = none := by
        apply nanSum_none _ 0
        rw [hk]; rfl
      rw [this]; rfl

/-! ## Examples -/

theorem coin_moves : Spec.MovesEach coinEnv := ⟨fun _ x => x, fun r l e => by simp [coinEnv]⟩

/-- Three tosses of the coin, two particles against five. -/
example : (feed cfg coinEnv false [(0, ()), (1, ()), (0, ())] plain).1.normRecord =
      (feed cfg coinEnv false [(0, ()), (1, ()), (0, ())] padded).1.normRecord ∧
    (feed cfg coinEnv false [(0, ()), (1, ()), (0, ())] plain).2 = .ok () ∧
    (feed cfg coinEnv false [(0, ()), (1, ()), (0, ())] plain).1.weights ≠ [1/2, 1/2] :=
  ⟨(C132_updates cfg (by decide +kernel) coinEnv coinEnv_good coin_moves _ plain padded plain_padded).2.norms,
    by decide +kernel, by decide +kernel⟩

/-- Two particles of which the first is split, with a likelihood that depends on the place. -/
example : infoGain (k := 1) (m := 1) ![1/2, 1/2] (fun _ i _ => 1 / (2 + (![![0], ![1]] i 0) ^ 2)) 0 =
    infoGain (k := 1) (m := 1) ![1/4, 1/2, 1/4] (fun _ i _ => 1 / (2 + (![![0], ![1], ![0]] i 0) ^ 2)) 0 := by
  refine C132_information_gain (d := 1) ![1/2, 1/2] ![![0], ![1]] ![1/4, 1/2, 1/4] ![![0], ![1], ![0]]
    ?_ ?_ ?_ (fun _ y _ => 1 / (2 + y 0 ^ 2)) 0 ?_ ?_
  · intro i; fin_cases i <;> norm_num
  · intro i; fin_cases i <;> norm_num
  · rw [sameCloud_fin]
    intro g
    simp [Fin.sum_univ_succ]
    ring
  · intro o y; positivity
  · intro y
    simp only [Finset.univ_unique, Finset.sum_const, Finset.card_singleton, one_smul]
    rw [div_lt_one (by positivity)]
    nlinarith [sq_nonneg (y 0)]

/-- The moments of the two clouds above. -/
example : smcMean 1 plain.weights plain.locs = smcMean 1 padded.weights padded.locs ∧
    smcCov 1 plain.weights plain.locs = smcCov 1 padded.weights padded.locs ∧
    smcCov 1 plain.weights plain.locs ≠ [[0]] :=
  ⟨(C132_moments _ _ _ _ plain_padded.cloud 1).1, (C132_moments _ _ _ _ plain_padded.cloud 1).2, by decide +kernel⟩

/-- The risk of a split cloud. -/
example (like : Fin 1 → (Fin 1 → ℚ) → Fin 1 → ℚ) :
    bayesRisk ![1] ![(1/2 : ℚ), 1/2] ![![0], ![1]] (fun o i e => like o (![![0], ![1]] i) e) 0 =
    bayesRisk ![1] ![(1/4 : ℚ), 1/2, 1/4] ![![0], ![1], ![0]] (fun o i e => like o (![![0], ![1], ![0]] i) e) 0 := by
  refine C132_bayes_risk _ _ _ _ _ ?_ like 0
  rw [sameCloud_fin]
  intro g
  simp [Fin.sum_univ_succ]
  ring

end QInfer
