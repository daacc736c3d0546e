import Verif.Props.ResampleNoise
import Verif.Props.Risk
import Verif.Lemmas.SmcHistory
import Verif.Model.Heur
import Verif.Model.LwSmc
import Verif.Demo.Smc
import Mathlib.Probability.Distributions.Gaussian.Multivariate

/-!
# C133: units do not matter

The same model written in other coordinates gives the same inference.
-/

set_option linter.unusedSectionVars false

namespace QInfer

open Demo Matrix
open scoped BigOperators

section path

variable {K : Type} [Field K] [LinearOrder K] [IsStrictOrderedRing K] {O E ω : Type}

/-- `env'` is what `env` becomes when the parameters `x` are written as `T x`. -/
structure Spec.Recoordinated (T : List K → List K) (env env' : Env K O E ω) : Prop where
  like : ∀ o x e, env'.likelihood o (T x) e = env.likelihood o x e
  timestep : ∀ r l e, env'.timestep r (l.map T) e = ((env.timestep r l e).1.map T, (env.timestep r l e).2)
  canon : ∀ l, env'.canon (l.map T) = (env.canon l).map T
  clear : env'.clearCacheRaises = env.clearCacheRaises
  prior : ∀ r n, env'.prior r n = ((env.prior r n).1.map T, (env.prior r n).2)
  resampler : ∀ r w l, env'.resampler r w (l.map T) =
    ((env.resampler r w l).1.map fun p => (p.1, p.2.map T), (env.resampler r w l).2)
  kl : ∀ w l w' l', env'.kl w (l.map T) w' (l'.map T) = env.kl w l w' l'

/-- The updater with its particles written in the other coordinates and everything else unchanged. -/
def Spec.inUnits (T : List K → List K) (s : Smc K O ω) : Smc K O ω := { s with locs := s.locs.map T }

open Spec

variable {T : List K → List K} {env env' : Env K O E ω} (h : Recoordinated T env env') (cfg : SmcConfig K)

/-! ## Helper lemmas -/

theorem inUnits_fields (s : Smc K O ω) : (inUnits T s).locs = s.locs.map T ∧ (inUnits T s).weights = s.weights ∧
    (inUnits T s).seed = s.seed ∧ (inUnits T s).nParticles = s.nParticles :=
  ⟨rfl, rfl, rfl, by simp [inUnits, Smc.nParticles]⟩

theorem warn_units (s : Smc K O ω) (x : Warn) : (inUnits T s).warn x = inUnits T (s.warn x) := rfl

include h

theorem hypCell_units (w : List K) (l : List (List K)) (o : O) (e : E) :
    hypCell env' w (l.map T) o e = hypCell env w l o e := by
  have : env'.likeRow (l.map T) o e = env.likeRow l o e := by
    simp [Env.likeRow, h.like]
  unfold hypCell
  rw [this]

theorem reset_units (s : Smc K O ω) (n : Option Nat) (rw' : Bool) :
    reset cfg env' (inUnits T s) n none rw' =
      (inUnits T (reset cfg env s n none rw').1, (reset cfg env s n none rw').2) := by
  unfold reset
  simp only [Option.isSome_none, Bool.and_false, Bool.false_eq_true, if_false, (inUnits_fields s).2.2.2]
  cases rw' <;> cases hc : cfg.canonicalize <;>
    simp [inUnits, h.prior, h.canon]

theorem resample_units (s : Smc K O ω) :
    resample cfg env' (inUnits T s) = (inUnits T (resample cfg env s).1, (resample cfg env s).2) := by
  have hm : markResampled (inUnits T s) = inUnits T (markResampled s) := by
    unfold markResampled
    have : (inUnits T s).justResampled = s.justResampled := rfl
    rw [this]
    cases s.justResampled <;> rfl
  unfold resample
  rw [hm]
  generalize markResampled s = t
  unfold runResampler
  rw [(inUnits_fields t).1, (inUnits_fields t).2.1, (inUnits_fields t).2.2.1, h.resampler]
  rcases hr : env.resampler t.seed t.weights t.locs with ⟨err | ⟨w, l⟩, seed⟩
  · rfl
  · simp only [Except.map]
    have hd : (inUnits T t).divergences = t.divergences := rfl
    rw [hd, h.clear]
    cases hc : cfg.canonicalize <;> cases env.clearCacheRaises <;> cases t.divergences <;>
      simp [inUnits, h.canon, h.kl, Smc.warn]

theorem maybeResample_units (s : Smc K O ω) :
    maybeResample cfg env' (inUnits T s) =
      (inUnits T (maybeResample cfg env s).1, (maybeResample cfg env s).2) := by
  unfold maybeResample
  simp only [(inUnits_fields s).2.1]
  split <;> simp only [warn_units, (inUnits_fields _).2.2.2] <;> split <;>
    first | exact resample_units h cfg _ | rfl

theorem finish_units (s : Smc K O ω) (w : List K) (n : K) (e : E) (check : Bool) :
    finishUpdate cfg env' (inUnits T s) w n e check =
      (inUnits T (finishUpdate cfg env s w n e check).1, (finishUpdate cfg env s w n e check).2) := by
  unfold finishUpdate
  rw [(inUnits_fields s).2.1]
  cases assignInto s.weights w with
  | error err => rfl
  | ok w =>
    have ht : env'.timestep s.seed (s.locs.map T) e = _ := h.timestep s.seed s.locs e
    simp only [inUnits, ht]
    cases check <;> simp only [if_true, if_false, Bool.false_eq_true]
    · split <;> rfl
    · split
      · exact maybeResample_units h cfg
          { s with weights := w, normRecord := s.normRecord ++ [n], locs := (env.timestep s.seed s.locs e).1,
                   seed := (env.timestep s.seed s.locs e).2, minNEss := nEss w }
      · exact maybeResample_units h cfg
          { s with weights := w, normRecord := s.normRecord ++ [n], locs := (env.timestep s.seed s.locs e).1,
                   seed := (env.timestep s.seed s.locs e).2 }

theorem apply_units (s : Smc K O ω) (w : List K) (n : K) (e : E) (check : Bool) :
    applyUpdate cfg env' (inUnits T s) w n e check =
      (inUnits T (applyUpdate cfg env s w n e check).1, (applyUpdate cfg env s w n e check).2) := by
  unfold applyUpdate
  split
  · split
    · exact finish_units h cfg s w n e check
    · split
      · rfl
      · split
        · rw [warn_units]; exact finish_units h cfg _ w n e check
        · split
          · rfl
          · split
            · rw [warn_units, reset_units h cfg]
              rcases hr : reset cfg env (s.warn .zeroWeightsReset) none none true with ⟨t, err | ⟨⟩⟩
              · rfl
              · exact finish_units h cfg t w n e check
            · rfl
  · exact finish_units h cfg s w n e check

theorem update_units (s : Smc K O ω) (o : O) (e : E) (check : Bool) :
    update cfg env' (inUnits T s) o e check =
      (inUnits T (update cfg env s o e check).1, (update cfg env s o e check).2) := by
  have hr : recordDatum (inUnits T s) o = inUnits T (recordDatum s o) := rfl
  unfold update
  rw [hr]
  generalize recordDatum s o = t
  dsimp only
  rw [(inUnits_fields t).1, (inUnits_fields t).2.1, hypCell_units h]
  rcases hypCell env t.weights t.locs o e with err | ⟨w, L, n⟩
  · rfl
  · dsimp only
    split
    · exact apply_units h cfg t w n e check
    · rw [warn_units]; exact apply_units h cfg _ _ n e check

theorem batchLoop_units (interval : Int) (ds : List (O × E)) (k : Nat) (s : Smc K O ω) :
    batchLoop cfg env' interval k ds (inUnits T s) =
      (inUnits T (batchLoop cfg env interval k ds s).1, (batchLoop cfg env interval k ds s).2) := by
  induction ds generalizing k s with
  | nil => rfl
  | cons d ds ih =>
    obtain ⟨o, e⟩ := d
    unfold batchLoop
    rw [update_units h cfg]
    rcases update cfg env s o e false with ⟨t, err | ⟨⟩⟩
    · rfl
    · dsimp only
      split
      · rfl
      · split
        · rw [maybeResample_units h cfg]
          rcases maybeResample cfg env t with ⟨t', err | ⟨⟩⟩
          · rfl
          · exact ih _ _
        · exact ih _ _

theorem step_units (s : Smc K O ω) (op : Op O E) (hop : ∀ n cols rw', op ≠ .reset n (some cols) rw') :
    step cfg env' (inUnits T s) op = (inUnits T (step cfg env s op).1, (step cfg env s op).2) := by
  cases op with
  | update o e check => exact update_units h cfg s o e check
  | batch os es interval =>
    show batchUpdate _ _ _ _ _ _ = _
    unfold step batchUpdate
    dsimp only
    split
    · rfl
    · exact batchLoop_units h cfg interval _ 0 s
  | resample => exact resample_units h cfg s
  | reset n only rw' =>
    cases only with
    | none => exact reset_units h cfg s n rw'
    | some cols => exact absurd rfl (hop n cols rw')

/-! ## C133 -/

/-- **C133.**  If the model, the prior and the resampler are written in other coordinates, then a fresh
updater and every later history of calls give the same weights, records, warnings, exceptions and
resampling decisions, and the particles are the same ones in the other coordinates.  The transformation is
arbitrary; `reset` of single parameters is left out. -/
theorem C133_history (n : Nat) (track : Bool) (seed : ω) (s : Smc K O ω) (ops : List (Op O E))
    (hops : ∀ op ∈ ops, ∀ n cols rw', op ≠ .reset n (some cols) rw') :
    construct cfg env' n track seed =
      (inUnits T (construct cfg env n track seed).1, (construct cfg env n track seed).2) ∧
    run cfg env' ops (inUnits T s) = inUnits T (run cfg env ops s) ∧
    ∀ op ∈ ops, (step cfg env' (inUnits T s) op).2 = (step cfg env s op).2 := by
  refine ⟨reset_units h cfg
    { weights := [], locs := [], resampleCount := 0, minNEss := ((n : K) : WithTop K),
      justResampled := false, dataRecord := [], normRecord := [],
      divergences := if track then some [] else none, seed := seed, warnings := [] } (some n) true, ?_, fun op hop => ?_⟩
  · induction ops generalizing s with
    | nil => rfl
    | cons op ops ih =>
      unfold run
      rw [step_units h cfg s op (hops op (by simp))]
      exact ih _ fun op' hop' => hops op' (by simp [hop'])
  · rw [step_units h cfg s op (hops op hop)]

end path

/-! ### Estimates in other units -/

section estimates

variable {n d k m : ℕ}

/-- **C133, mean and covariance** transform as they should under every affine change of coordinates. -/
theorem C133_moments (w : Fin n → ℝ) (hs : ∑ i, w i = 1) (x : Fin n → Fin d → ℝ) {d' : ℕ}
    (A : Matrix (Fin d') (Fin d) ℝ) (b : Fin d' → ℝ) :
    pmean w (fun i => A *ᵥ x i + b) = A *ᵥ pmean w x + b ∧
    pcov w (fun i => A *ᵥ x i + b) = A * pcov w x * Aᵀ := by
  have hm : ∀ j, pmean w (fun i => A *ᵥ x i + b) j = (A *ᵥ pmean w x) j + b j := by
    intro j
    simp only [pmean, Pi.add_apply, mul_add, Finset.sum_add_distrib, ← Finset.sum_mul, hs, one_mul, mulVec,
      dotProduct, Finset.mul_sum]
    congr 1
    rw [Finset.sum_comm]
    exact Finset.sum_congr rfl fun r _ => Finset.sum_congr rfl fun i _ => by ring
  refine ⟨funext fun j => by rw [hm]; rfl, ?_⟩
  have hc : ∀ {q : ℕ} (y : Fin n → Fin q → ℝ) a b,
      pcov w y a b = ∑ i, w i * ((y i a - pmean w y a) * (y i b - pmean w y b)) := by
    intro q y a b
    have e1 : ∀ i, w i * ((y i a - pmean w y a) * (y i b - pmean w y b)) =
        w i * y i a * y i b - pmean w y b * (w i * y i a) - pmean w y a * (w i * y i b) +
          pmean w y a * pmean w y b * w i := fun i => by ring
    simp only [e1, Finset.sum_add_distrib, Finset.sum_sub_distrib, ← Finset.mul_sum, hs]
    show (∑ i, w i * y i a * y i b) - pmean w y a * pmean w y b = _
    have ea : ∑ i, w i * y i a = pmean w y a := rfl
    have eb : ∑ i, w i * y i b = pmean w y b := rfl
    rw [ea, eb]; ring
  ext p q
  rw [hc]
  simp only [hm, Matrix.mul_apply, Matrix.transpose_apply, hc]
  have hd : ∀ i (r : Fin d'), (A *ᵥ x i + b) r - ((A *ᵥ pmean w x) r + b r) =
      ∑ j, A r j * (x i j - pmean w x j) := by
    intro i r
    simp only [Pi.add_apply, mulVec, dotProduct, mul_sub, Finset.sum_sub_distrib]
    ring
  simp only [hd, Finset.sum_mul, Finset.mul_sum]
  calc _ = ∑ i, ∑ c, ∑ a, A p a * (w i * ((x i a - pmean w x a) * (x i c - pmean w x c))) * A q c := by
        refine Finset.sum_congr rfl fun i _ => ?_
        exact Finset.sum_congr rfl fun c _ => Finset.sum_congr rfl fun a _ => by ring
    _ = _ := by
        rw [Finset.sum_comm]
        refine Finset.sum_congr rfl fun c _ => ?_
        rw [Finset.sum_comm]

theorem qvar_units (Q s b : Fin d → ℝ) (hs0 : ∀ j, s j ≠ 0) (w : Fin n → ℝ) (x : Fin n → Fin d → ℝ)
    (hw : ∑ i, w i = 1) :
    qvar (fun j => Q j / s j ^ 2) w (fun i j => s j * x i j + b j) = qvar Q w x := by
  have hm : ∀ j, pmean w (fun i j => s j * x i j + b j) j = s j * pmean w x j + b j := by
    intro j
    simp only [pmean, mul_add, Finset.sum_add_distrib, ← Finset.sum_mul, hw, one_mul, Finset.mul_sum]
    congr 1
    exact Finset.sum_congr rfl fun i _ => by ring
  unfold qvar
  refine Finset.sum_congr rfl fun i _ => ?_
  congr 1
  refine Finset.sum_congr rfl fun j _ => ?_
  rw [hm]
  have := hs0 j
  field_simp
  ring

/-- **C133, risk and distance.**  In other units for each parameter, with the scale matrix `Q` divided by the
square of the unit, `bayes_risk` and `rescaled_distance_mtx` do not change. -/
theorem C133_scale_matrix (Q s b : Fin d → ℝ) (hs : ∀ j, s j ≠ 0) (w : Fin n → ℝ)
    (x : Fin n → Fin d → ℝ) (L : Fin k → Fin n → Fin m → ℝ) (e : Fin m)
    (hN : ∀ o, eps ≤ hypN w L o e) :
    bayesRisk (fun j => Q j / s j ^ 2) w (fun i j => s j * x i j + b j) L e = bayesRisk Q w x L e ∧
    ∀ p q : Fin d → ℝ, rescaledDistance (fun j => Q j / s j ^ 2) (fun j => s j * p j + b j)
      (fun j => s j * q j + b j) = rescaledDistance Q p q := by
  constructor
  · unfold bayesRisk
    split
    · rfl
    · rename_i hne
      have h1 : ∀ o, ∑ i, hypW w L o e i = 1 := by
        intro o
        have hpos : 0 < hypN w L o e := lt_of_lt_of_le eps_pos (hN o)
        have : ¬ |hypN w L o e| < eps := by rw [abs_of_pos hpos]; exact not_lt.2 (hN o)
        simp only [hypW, if_neg this, ← Finset.sum_div]
        exact div_self hpos.ne'
      have h2 : ∑ i, lastRaw w L e i / lastN w L e = 1 := by
        rw [← Finset.sum_div]; exact div_self hne
      simp only [qvar_units Q s b hs _ x (h1 _), qvar_units Q s b hs _ x h2]
  · intro p q
    have hneg : (∃ j, Q j / s j ^ 2 < 0) ↔ ∃ j, Q j < 0 := by
      refine exists_congr fun j => ?_
      have : 0 < s j ^ 2 := by have := hs j; positivity
      rw [div_lt_iff₀ this, zero_mul]
    unfold rescaledDistance
    by_cases hn : ∃ j, Q j < 0
    · rw [if_pos hn, if_pos (hneg.2 hn)]
    · rw [if_neg hn, if_neg fun h => hn (hneg.1 h)]
      congr 2
      refine Finset.sum_congr rfl fun j _ => ?_
      have h0 : 0 ≤ Q j := by by_contra h; exact hn ⟨j, not_le.1 h⟩
      have hsj := hs j
      rw [mul_pow, mul_pow, Real.sq_sqrt h0, Real.sq_sqrt (by positivity)]
      field_simp
      ring

/-- **C133, the other distance.**  `Simulatable.distance` multiplies by `Q` where `bayes_risk` uses its square
root: it is unchanged if `Q` is divided by the unit itself, so no scale matrix serves both. -/
theorem C133_distance_differs :
    (∀ q c a b : ℝ, 0 < c → modelDistance [q / c] [c * a] [c * b] = modelDistance [q] [a] [b]) ∧
    modelDistance [(1 : ℝ) / 2 ^ 2] [2 * 1] [2 * 0] ≠ modelDistance [1] [1] [0] := by
  constructor
  · intro q c a b hc
    simp only [modelDistance, List.zipWith_cons_cons, List.zipWith_nil_left, List.map_cons, List.map_nil,
      List.sum_cons, List.sum_nil, add_zero]
    congr 1
    field_simp
  · norm_num [modelDistance]

end estimates

/-! ### The Liu-West resampler in other units -/

section loop

variable {ρ ρ' Z ω : Type*} {K : Type*} [Field K] [LinearOrder K]

theorem assignAt_map {α β : Type*} (f : α → β) (a : List α) (idxs : List Nat) (vals : List α) :
    assignAt (a.map f) idxs (vals.map f) = (assignAt a idxs vals).map f := by
  unfold assignAt
  induction idxs generalizing a vals with
  | nil => simp
  | cons i idxs ih => cases vals with
    | nil => simp
    | cons v vals =>
      simp only [List.map_cons, List.zip_cons_cons, List.foldl_cons]
      rw [← ih, List.map_set]

/-- The variables of the loop in the other coordinates. -/
def lwMove (T : ρ → ρ') (s : LwState ρ ω) : LwState ρ' ω :=
  { newLocs := s.newLocs.map (Option.map T), idxs := s.idxs, js := s.js, mus := s.mus.map T,
    nIters := s.nIters, seed := s.seed }

/-- The loop's environment in the other coordinates. -/
structure Spec.LwUnits (T : ρ → ρ') (env : LwEnv ρ Z ω) (env' : LwEnv ρ' Z ω) : Prop where
  kernel : env'.kernel = env.kernel
  disp : ∀ mu z, env'.disp (T mu) z = T (env.disp mu z)
  valid : ∀ rows, env'.valid (rows.map T) = env.valid rows
  postselect : env'.postselect = env.postselect

variable {T : ρ → ρ'} {env : LwEnv ρ Z ω} {env' : LwEnv ρ' Z ω} (h : Spec.LwUnits T env env')

include h

theorem lwBody_units (s : LwState ρ ω) : lwBody env' (lwMove T s) = (lwBody env s).map (lwMove T) := by
  unfold lwBody
  rw [h.kernel, h.postselect]
  have hl : (lwMove T s).mus.length = s.mus.length := by simp [lwMove]
  have hsd : (lwMove T s).seed = s.seed := rfl
  rw [hl, hsd]
  rcases env.kernel s.seed s.mus.length with ⟨zs, seed⟩
  dsimp only
  have hrows : List.zipWith env'.disp (lwMove T s).mus zs = (List.zipWith env.disp s.mus zs).map T := by
    show List.zipWith env'.disp (s.mus.map T) zs = _
    rw [List.zipWith_map_left, List.map_zipWith]
    simp only [h.disp]
  rw [hrows, h.valid, List.length_map]
  generalize hmask : (if env.postselect = true then env.valid (List.zipWith env.disp s.mus zs)
    else List.replicate (List.zipWith env.disp s.mus zs).length true) = mask
  split
  · rfl
  · have ha : assignAt (lwMove T s).newLocs (lwMove T s).idxs
        (((List.zipWith env.disp s.mus zs).map T).map some) =
        (assignAt s.newLocs s.idxs ((List.zipWith env.disp s.mus zs).map some)).map (Option.map T) := by
      rw [← assignAt_map, List.map_map, List.map_map]
      rfl
    simp only [Except.map, lwMove] at ha ⊢
    rw [ha, List.map_take]

theorem lwLoop_units (fuel : Nat) (s : LwState ρ ω) :
    lwLoop env' fuel (lwMove T s) = (lwLoop env fuel s).map (lwMove T) := by
  induction fuel generalizing s with
  | zero => rfl
  | succ fuel ih =>
    unfold lwLoop
    have hi : (lwMove T s).idxs = s.idxs := rfl
    rw [hi]
    split
    · rfl
    · rw [lwBody_units h]
      cases lwBody env s with
      | error e => rfl
      | ok t => exact ih t

/-- **C133, the resampler.**  Whatever the coordinates, a Liu-West resampler whose mean, square root and validity
test are those of the new coordinates makes the same choices for the same random numbers: same errors, warnings,
weights, number of passes, and the same particles in the new coordinates. -/
theorem C133_liu_west (centre : ρ → ρ) (centre' : ρ' → ρ') (hc : ∀ x, centre' (T x) = T (centre x))
    (maxiter : Nat) (covZero sqrtFinite : Bool) (w : List K) (l : List ρ) (n : Nat) (us : List K) (seed : ω) :
    liuWest env' maxiter covZero sqrtFinite w (l.map T) centre' n us seed =
      (liuWest env maxiter covZero sqrtFinite w l centre n us seed).map
        fun r => (r.1.map (Option.map T), r.2) := by
  unfold liuWest
  by_cases hsq : sqrtFinite = false
  · simp only [hsq, if_true]; rfl
  · simp only [if_neg hsq]
    have hp : lwParents w (l.map T) centre' us =
        (lwParents w l centre us).map fun r => (r.1, r.2.map T) := by
      unfold lwParents
      simp only [List.length_map]
      split
      · simp only [Except.map, List.map_filterMap]
        congr 2
        refine List.filterMap_congr fun j _ => ?_
        cases hj : l[j]? <;> simp [hj, hc]
      · rfl
    rw [hp]
    rcases lwParents w l centre us with e | ⟨js, mus⟩
    · rfl
    · simp only [Except.map]
      have hst : lwStart n js (mus.map T) seed = lwMove T (lwStart n js mus seed) := by
        simp [lwStart, lwMove]
      rw [hst, lwLoop_units h]
      cases lwLoop env maxiter (lwStart n js mus seed) with
      | error e => rfl
      | ok t => rfl

end loop

/-- All parameters multiplied by the same number and shifted. -/
def Spec.rescale (c : ℝ) (b : ℕ → ℝ) (x : List ℝ) : List ℝ := x.mapIdx fun j y => c * y + b j

/-- **C133, in the hands of the updater.**  If mean and square root of a cloud follow the units (`C133_moments`,
`C133_liu_west_run`; unless the cloud has collapsed, C162), the Liu-West resampler satisfies what `C133_history` asks of a resampler. -/
theorem C133_liu_west_setup (c : ℝ) (b : ℕ → ℝ) (p p' : LwSetup) (ha : p'.a = p.a) (hh : p'.h = p.h)
    (hm : p'.maxiter = p.maxiter) (hk : p'.kernel = p.kernel)
    (seed : List (List ℝ)) (w : List ℝ) (l : List (List ℝ))
    (hmean : ∀ j, (p'.mean w (l.map (Spec.rescale c b))).getD j 0 = c * (p.mean w l).getD j 0 + b j)
    (hcov : p'.covZero w (l.map (Spec.rescale c b)) = p.covZero w l)
    (hroot : ∀ z j, (p'.root w (l.map (Spec.rescale c b)) z).getD j 0 = c * (p.root w l z).getD j 0) :
    p'.resampler seed w (l.map (Spec.rescale c b)) =
      ((p.resampler seed w l).1.map fun q => (q.1, q.2.map (Spec.rescale c b)), (p.resampler seed w l).2) := by
  cases seed with
  | nil => rfl
  | cons us rest =>
    have hu : Spec.LwUnits (Spec.rescale c b) (p.env w l) (p'.env w (l.map (Spec.rescale c b))) :=
      { kernel := by simp only [LwSetup.env, hk]
        disp := fun mu z => by
          simp only [LwSetup.env, Spec.rescale, hh, hroot]
          apply List.ext_getElem <;> simp
          intro i _
          ring
        valid := fun rows => by simp [LwSetup.env]
        postselect := rfl }
    have hcen : ∀ x, p'.centre w (l.map (Spec.rescale c b)) (Spec.rescale c b x) =
        Spec.rescale c b (p.centre w l x) := by
      intro x
      simp only [LwSetup.centre, Spec.rescale, ha]
      apply List.ext_getElem <;> simp
      intro i _
      have := hmean i
      simp only [List.getD_eq_getElem?_getD, Spec.rescale] at this
      rw [this]
      ring
    have key := C133_liu_west hu (p.centre w l) _ hcen p.maxiter (p.covZero w l) true w l us.length us ()
    unfold LwSetup.resampler
    dsimp only
    rw [hm, hcov, key]
    rcases hr : liuWest (p.env w l) p.maxiter (p.covZero w l) true w l (p.centre w l) us.length us () with
      e | ⟨locs, ws, r⟩
    · rfl
    · simp only [Except.map, List.map_map]
      have ho : ∀ o : Option (List ℝ), (Option.map (Spec.rescale c b) o).getD [] =
          Spec.rescale c b (o.getD []) := fun o => by cases o <;> rfl
      simp only [Function.comp_def, ho]

section liuWest

open MeasureTheory ProbabilityTheory

variable {d : ℕ}

/-- Independent standard normal numbers, the default `kernel`, resamplers.py 227. -/
noncomputable def Spec.normalKernel (d : ℕ) : Measure (Fin d → ℝ) := Measure.pi fun _ => gaussianReal 0 1

instance : IsProbabilityMeasure (Spec.normalKernel d) := by unfold Spec.normalKernel; infer_instance

/-- Normal noise depends on the root only through the covariance. -/
theorem normal_roots (M N : Matrix (Fin d) (Fin d) ℝ) (h : M * Mᵀ = N * Nᵀ) :
    (Spec.normalKernel d).map (fun z => M *ᵥ z) = (Spec.normalKernel d).map (fun z => N *ᵥ z) := by
  have hmeas : ∀ A : Matrix (Fin d) (Fin d) ℝ, Measurable fun z : Fin d → ℝ => A *ᵥ z := fun A =>
    (Continuous.matrix_mulVec continuous_const continuous_id).measurable
  have key : ∀ A : Matrix (Fin d) (Fin d) ℝ, ((Spec.normalKernel d).map (fun z => A *ᵥ z)).map (WithLp.toLp 2) =
      (stdGaussian (EuclideanSpace ℝ (Fin d))).map (Matrix.toEuclideanLin A).toContinuousLinearMap := by
    intro A
    have hL : Measurable (Matrix.toEuclideanLin A).toContinuousLinearMap :=
      ContinuousLinearMap.measurable _
    have ht : Measurable (WithLp.toLp 2 : (Fin d → ℝ) → EuclideanSpace ℝ (Fin d)) := by fun_prop
    rw [← map_pi_eq_stdGaussian, Measure.map_map hL ht, Measure.map_map ht (hmeas A)]
    rfl
  have heq : (stdGaussian (EuclideanSpace ℝ (Fin d))).map (Matrix.toEuclideanLin M).toContinuousLinearMap =
      (stdGaussian (EuclideanSpace ℝ (Fin d))).map (Matrix.toEuclideanLin N).toContinuousLinearMap := by
    have hfin : ∀ A : Matrix (Fin d) (Fin d) ℝ, IsProbabilityMeasure
        ((stdGaussian (EuclideanSpace ℝ (Fin d))).map (Matrix.toEuclideanLin A).toContinuousLinearMap) := fun A =>
      Measure.isProbabilityMeasure_map (ContinuousLinearMap.measurable _).aemeasurable
    have := hfin M
    have := hfin N
    apply Measure.ext_of_charFun
    ext t
    have hc : ∀ A : Matrix (Fin d) (Fin d) ℝ,
        charFun ((stdGaussian (EuclideanSpace ℝ (Fin d))).map
          (Matrix.toEuclideanLin A).toContinuousLinearMap) t =
        Complex.exp (-((t.ofLp ⬝ᵥ ((A * Aᵀ) *ᵥ t.ofLp) : ℝ) : ℂ) / 2) := by
      intro A
      have hadj : ∀ y : EuclideanSpace ℝ (Fin d),
          inner ℝ ((Matrix.toEuclideanLin A).toContinuousLinearMap y) t =
            inner ℝ y (Matrix.toEuclideanLin Aᵀ t) := by
        intro y
        simp only [LinearMap.coe_toContinuousLinearMap', PiLp.inner_apply, Matrix.toEuclideanLin,
          Matrix.toLpLin_apply, RCLike.inner_apply, conj_trivial]
        show t.ofLp ⬝ᵥ (A *ᵥ y.ofLp) = (Aᵀ *ᵥ t.ofLp) ⬝ᵥ y.ofLp
        rw [Matrix.dotProduct_mulVec, Matrix.mulVec_transpose]
      rw [charFun_apply, integral_map (ContinuousLinearMap.measurable _).aemeasurable
        (Measurable.aestronglyMeasurable (by fun_prop))]
      simp only [hadj]
      rw [← charFun_apply, charFun_stdGaussian]
      congr 3
      have : ‖Matrix.toEuclideanLin Aᵀ t‖ ^ 2 = t.ofLp ⬝ᵥ ((A * Aᵀ) *ᵥ t.ofLp) := by
        rw [EuclideanSpace.real_norm_sq_eq]
        have e : ∀ i, (Matrix.toEuclideanLin Aᵀ t).ofLp i = (Aᵀ *ᵥ t.ofLp) i := fun i => by
          simp [Matrix.toEuclideanLin]
        simp only [e, pow_two]
        show (Aᵀ *ᵥ t.ofLp) ⬝ᵥ (Aᵀ *ᵥ t.ofLp) = _
        rw [← Matrix.mulVec_mulVec, Matrix.dotProduct_mulVec t.ofLp, ← Matrix.mulVec_transpose]
      rw [← this]
      push_cast
      rfl
    rw [hc, hc, h]
  have e := (key M).trans (heq.trans (key N).symm)
  have hinj := congrArg (fun μ => Measure.map (WithLp.ofLp : EuclideanSpace ℝ (Fin d) → Fin d → ℝ) μ) e
  have ht : Measurable (WithLp.toLp 2 : (Fin d → ℝ) → EuclideanSpace ℝ (Fin d)) := by fun_prop
  have ho : Measurable (WithLp.ofLp : EuclideanSpace ℝ (Fin d) → Fin d → ℝ) := by fun_prop
  dsimp only at hinj
  rw [Measure.map_map ho ht, Measure.map_map ho ht] at hinj
  simpa [Function.comp_def] using hinj

variable {N : ℕ}

/-- A new particle in the coordinates `A x + b`. -/
theorem newLoc_units (w : Fin N → ℝ) (hs : ∑ i, w i = 1) (x : Fin N → Fin d → ℝ) (a h : ℝ)
    (S S' A : Matrix (Fin d) (Fin d) ℝ) (b : Fin d → ℝ) (u : ℝ) (z : Fin d → ℝ) :
    newLoc w (pos_of_sum hs) (fun i => A *ᵥ x i + b) a h S' u z =
      (A *ᵥ (fun m => a * x (parent w (pos_of_sum hs) u) m + (1 - a) * pmean w x m) + b) + (h • S') *ᵥ z ∧
    A *ᵥ newLoc w (pos_of_sum hs) x a h S u z + b =
      (A *ᵥ (fun m => a * x (parent w (pos_of_sum hs) u) m + (1 - a) * pmean w x m) + b) +
        (h • (A * S)) *ᵥ z := by
  have hsplit : ∀ (B : Matrix (Fin d) (Fin d) ℝ) (y : Fin N → Fin d → ℝ),
      newLoc w (pos_of_sum hs) y a h B u z =
        (fun m => a * y (parent w (pos_of_sum hs) u) m + (1 - a) * pmean w y m) + (h • B) *ᵥ z := by
    intro B y
    funext m
    simp only [newLoc, lwLocation, Pi.add_apply, mulVec, dotProduct, Matrix.smul_apply, smul_eq_mul]
  constructor
  · rw [hsplit, (C133_moments w hs x A b).1]
    congr 1
    have e : (fun m => a * x (parent w (pos_of_sum hs) u) m + (1 - a) * pmean w x m) =
        a • x (parent w (pos_of_sum hs) u) + (1 - a) • pmean w x := by
      funext m; simp
    rw [e, mulVec_add, mulVec_smul, mulVec_smul]
    funext m
    simp only [Pi.add_apply, Pi.smul_apply, smul_eq_mul]
    ring
  · rw [hsplit, mulVec_add, mulVec_mulVec, Matrix.mul_smul]
    abel

/-- Positive square roots are unique. -/
theorem psd_root_unique {S S' : Matrix (Fin d) (Fin d) ℝ} (hS : S.PosSemidef) (hS' : S'.PosSemidef)
    (h : S * S = S' * S') : S = S' := by
  open scoped MatrixOrder Matrix.Norms.L2Operator in
  rw [← CFC.sqrt_mul_self S (Matrix.nonneg_iff_posSemidef.2 hS), h,
    CFC.sqrt_mul_self S' (Matrix.nonneg_iff_posSemidef.2 hS')]

/-- **C133, one unit for all parameters.**  If all parameters are multiplied by the same positive number
and shifted, the resampler's square root of the covariance is multiplied by that number, and for the same
random numbers the new particles are the same ones in the new units. -/
theorem C133_liu_west_run (w : Fin N → ℝ) (hs : ∑ i, w i = 1) (x : Fin N → Fin d → ℝ) (a h : ℝ) (c : ℝ)
    (hc : 0 < c) (b : Fin d → ℝ) (S S' : Matrix (Fin d) (Fin d) ℝ) (hS : S.PosSemidef)
    (hS' : S'.PosSemidef) (hroot : S * S = pcov w x) (hroot' : S' * S' = pcov w fun i => c • x i + b) :
    S' = c • S ∧ ∀ u z, newLoc w (pos_of_sum hs) (fun i => c • x i + b) a h S' u z =
      c • newLoc w (pos_of_sum hs) x a h S u z + b := by
  have hx : (fun i => c • x i + b) = fun i => (c • (1 : Matrix (Fin d) (Fin d) ℝ)) *ᵥ x i + b := by
    funext i; rw [smul_mulVec, one_mulVec]
  have hSS : S' = c • S := by
    refine psd_root_unique hS' (hS.smul hc.le) ?_
    rw [hroot', hx, (C133_moments w hs x _ b).2, ← hroot]
    simp [smul_smul]
  refine ⟨hSS, fun u z => ?_⟩
  have h2 := (newLoc_units w hs x a h S S' (c • 1) b u z).2
  rw [hx, (newLoc_units w hs x a h S S' (c • 1) b u z).1, hSS]
  rw [smul_mulVec, one_mulVec] at h2
  rw [h2]
  simp

/-- One new particle has the same law. -/
theorem newLoc_law (w : Fin N → ℝ) (hs : ∑ i, w i = 1) (x : Fin N → Fin d → ℝ) (a h : ℝ)
    (A : Matrix (Fin d) (Fin d) ℝ) (b : Fin d → ℝ) (S S' : Matrix (Fin d) (Fin d) ℝ)
    (hroot : S * Sᵀ = pcov w x) (hroot' : S' * S'ᵀ = pcov w fun i => A *ᵥ x i + b)
    (μ : Measure ℝ) [IsProbabilityMeasure μ] :
    Measurable (fun q : ℝ × (Fin d → ℝ) => newLoc w (pos_of_sum hs) (fun i => A *ᵥ x i + b) a h S' q.1 q.2) ∧
    Measurable (fun q : ℝ × (Fin d → ℝ) => A *ᵥ newLoc w (pos_of_sum hs) x a h S q.1 q.2 + b) ∧
    (μ.prod (Spec.normalKernel d)).map
        (fun q => newLoc w (pos_of_sum hs) (fun i => A *ᵥ x i + b) a h S' q.1 q.2) =
      (μ.prod (Spec.normalKernel d)).map (fun q => A *ᵥ newLoc w (pos_of_sum hs) x a h S q.1 q.2 + b) := by
  have hmeas : ∀ B : Matrix (Fin d) (Fin d) ℝ, Measurable fun z : Fin d → ℝ => B *ᵥ z := fun B =>
    (Continuous.matrix_mulVec continuous_const continuous_id).measurable
  obtain ⟨g, hgdef⟩ : ∃ g : Fin N → Fin d → ℝ, g = fun j =>
    A *ᵥ (fun m => a * x j m + (1 - a) * pmean w x m) + b := ⟨_, rfl⟩
  have hg : Measurable fun u : ℝ => g (parent w (pos_of_sum hs) u) :=
    (measurable_of_finite g).comp (measurable_parent w (pos_of_sum hs))
  have m1 : ∀ B : Matrix (Fin d) (Fin d) ℝ,
      Measurable fun q : ℝ × (Fin d → ℝ) => g (parent w (pos_of_sum hs) q.1) + B *ᵥ q.2 := fun B =>
    (hg.comp measurable_fst).add ((hmeas B).comp measurable_snd)
  have e1 : (fun q : ℝ × (Fin d → ℝ) => newLoc w (pos_of_sum hs) (fun i => A *ᵥ x i + b) a h S' q.1 q.2) =
      fun q => g (parent w (pos_of_sum hs) q.1) + (h • S') *ᵥ q.2 := by
    funext q; rw [(newLoc_units w hs x a h S S' A b q.1 q.2).1, hgdef]
  have e2 : (fun q : ℝ × (Fin d → ℝ) => A *ᵥ newLoc w (pos_of_sum hs) x a h S q.1 q.2 + b) =
      fun q => g (parent w (pos_of_sum hs) q.1) + (h • (A * S)) *ᵥ q.2 := by
    funext q; rw [(newLoc_units w hs x a h S S' A b q.1 q.2).2, hgdef]
  rw [e1, e2]
  refine ⟨m1 _, m1 _, ?_⟩
  have hk : (h • S') * (h • S')ᵀ = (h • (A * S)) * (h • (A * S))ᵀ := by
    simp only [Matrix.transpose_smul, Matrix.smul_mul, Matrix.mul_smul, hroot', (C133_moments w hs x A b).2,
      Matrix.transpose_mul, ← hroot, Matrix.mul_assoc]
  have hlaw := normal_roots _ _ hk
  ext s hms
  rw [Measure.map_apply (m1 _) hms, Measure.map_apply (m1 _) hms, Measure.prod_apply (m1 _ hms),
    Measure.prod_apply (m1 _ hms)]
  refine lintegral_congr fun u => ?_
  have hpre : ∀ B : Matrix (Fin d) (Fin d) ℝ,
      (Spec.normalKernel d) (Prod.mk u ⁻¹' ((fun q : ℝ × (Fin d → ℝ) =>
        g (parent w (pos_of_sum hs) q.1) + B *ᵥ q.2) ⁻¹' s)) =
      (Spec.normalKernel d).map (fun z => B *ᵥ z) {y | g (parent w (pos_of_sum hs) u) + y ∈ s} := by
    intro B
    have hset : MeasurableSet {y | g (parent w (pos_of_sum hs) u) + y ∈ s} :=
      measurable_const_add (g (parent w (pos_of_sum hs) u)) hms
    rw [Measure.map_apply (hmeas B) hset]
    rfl
  rw [hpre, hpre, hlaw]

/-- **C133, units of each parameter.**  Under every affine change of coordinates, for instance a change of the unit
of each parameter, the cloud returned by the Liu-West resampler with its default normal kernel has the
same law as before, expressed in the new coordinates. -/
theorem C133_liu_west_law {Ω : Type*} [MeasurableSpace Ω] {P : Measure Ω} [IsProbabilityMeasure P] {n : ℕ}
    {U : Fin n → Ω → ℝ} {Z : Fin n → Ω → Fin d → ℝ} (hr : LwRandom P (Spec.normalKernel d) U Z)
    (w : Fin N → ℝ) (hs : ∑ i, w i = 1) (x : Fin N → Fin d → ℝ) (a h : ℝ)
    (A : Matrix (Fin d) (Fin d) ℝ) (b : Fin d → ℝ) (S S' : Matrix (Fin d) (Fin d) ℝ)
    (hroot : S * Sᵀ = pcov w x) (hroot' : S' * S'ᵀ = pcov w fun i => A *ᵥ x i + b) :
    P.map (fun v i => newLoc w (pos_of_sum hs) (fun i => A *ᵥ x i + b) a h S' (U i v) (Z i v)) =
      P.map (fun v i => A *ᵥ newLoc w (pos_of_sum hs) x a h S (U i v) (Z i v) + b) := by
  have hvol : IsProbabilityMeasure (volume.restrict (Set.Ico (0 : ℝ) 1)) := ⟨by simp⟩
  obtain ⟨m1, m2, hl⟩ := newLoc_law w hs x a h A b S S' hroot hroot' (volume.restrict (Set.Ico (0 : ℝ) 1))
  have hpair : ∀ i, Measurable fun v => (U i v, Z i v) := fun i => (hr.measU i).prodMk (hr.measZ i)
  have key : ∀ f : ℝ × (Fin d → ℝ) → Fin d → ℝ, Measurable f →
      P.map (fun v i => f (U i v, Z i v)) =
        Measure.pi fun _ : Fin n => ((volume.restrict (Set.Ico (0 : ℝ) 1)).prod (Spec.normalKernel d)).map f := by
    intro f hf
    have hi : iIndepFun (fun i v => f (U i v, Z i v)) P := hr.indep.comp (fun _ => f) fun _ => hf
    have hm : ∀ i, AEMeasurable (fun v => f (U i v, Z i v)) P := fun i => (hf.comp (hpair i)).aemeasurable
    rw [(iIndepFun_iff_map_fun_eq_pi_map hm).1 hi]
    congr 1
    funext i
    rw [← hr.law i, Measure.map_map hf (hpair i)]
    rfl
  rw [key _ m1, key _ m2, hl]

/-- **C133, what is not covered.**  Unless all parameters have the same unit, the new particles are not the
old ones in the new units for the same random numbers: the symmetric square root of the covariance does
not follow the units. -/
theorem C133_seeds_differ : ∃ (C S A : Matrix (Fin 2) (Fin 2) ℝ), S.PosSemidef ∧ S * S = C ∧ A.det ≠ 0 ∧
    A = diagonal ![2, 1] ∧
    ∀ S' : Matrix (Fin 2) (Fin 2) ℝ, S'.PosSemidef → S' * S' = A * C * Aᵀ → S' ≠ A * S := by
  refine ⟨!![5, 4; 4, 5], !![2, 1; 1, 2], diagonal ![2, 1], ?_, ?_, ?_, rfl, ?_⟩
  · have e : (!![2, 1; 1, 2] : Matrix (Fin 2) (Fin 2) ℝ) = 1 + (!![1, 1; 0, 0] : Matrix (Fin 2) (Fin 2) ℝ)ᴴ * !![1, 1; 0, 0] := by
      ext i j; fin_cases i <;> fin_cases j <;> norm_num [Matrix.mul_apply, Fin.sum_univ_two]
    rw [e]
    exact Matrix.PosSemidef.one.add (Matrix.posSemidef_conjTranspose_mul_self _)
  · ext i j; fin_cases i <;> fin_cases j <;> norm_num [Matrix.mul_apply, Fin.sum_univ_two]
  · simp
  · rintro S' hS' - rfl
    have := congrFun (congrFun hS'.isHermitian 0) 1
    norm_num [Matrix.mul_apply, Fin.sum_univ_two, Matrix.conjTranspose_apply, Matrix.diagonal] at this

end liuWest

/-! ## Examples -/

open MeasureTheory ProbabilityTheory

/-- From fractions to percent. -/
def toPercent (x : List ℚ) : List ℚ := x.map (· * 100)

/-- The coin of `Demo` with its bias in percent. -/
def percentEnv : Env ℚ Nat Unit Nat :=
  { coinEnv with
    likelihood := fun o x _ => if o = 0 then |x.headD 0 / 100| else |1 - x.headD 0 / 100|
    prior := fun r n => ((List.range n).map fun i => [((i : ℚ) + 1) / (n + 1) * 100], r + 1) }

theorem percent_units : Spec.Recoordinated toPercent coinEnv percentEnv where
  like o x e := by
    cases x <;> simp [coinEnv, percentEnv, toPercent]
  timestep r l e := rfl
  canon l := rfl
  clear := rfl
  prior r n := by simp [coinEnv, percentEnv, toPercent]
  resampler r w l := by
    simp only [coinEnv, percentEnv, List.map_eq_nil_iff, List.length_map]
    split <;> rfl
  kl w l w' l' := rfl

/-- Case for `C133_history`: seven calls, one of which resamples; the particles are in percent at the end. -/
example :
    let ops : List (Op Nat Unit) := [.update 0 () true, .update 0 () true, .resample, .batch [1, 0] [(), ()] 1,
      .update 0 () true, .reset none none true, .update 1 () true]
    run cfg percentEnv ops (construct cfg percentEnv 3 false 0).1 =
      Spec.inUnits toPercent (run cfg coinEnv ops (construct cfg coinEnv 3 false 0).1) ∧
    (run cfg percentEnv ops (construct cfg percentEnv 3 false 0).1).locs = [[25], [50], [75]] ∧
    (run cfg percentEnv ops (construct cfg percentEnv 3 false 0).1).resampleCount = 1 := by
  refine ⟨?_, by decide +kernel, by decide +kernel⟩
  have h := C133_history percent_units cfg 3 false 0 (construct cfg coinEnv 3 false 0).1
    [.update 0 () true, .update 0 () true, .resample, .batch [1, 0] [(), ()] 1,
      .update 0 () true, .reset none none true, .update 1 () true] (by simp)
  rw [h.1]
  exact h.2.1

/-- Case for the Liu-West theorems: the cloud `{-1, 1}` in a unit three times smaller. -/
example (hs : ∑ i : Fin 2, (fun _ => (1/2 : ℝ)) i = 1) (u : ℝ) (z : Fin 1 → ℝ) :
    newLoc (fun _ => (1/2 : ℝ)) (pos_of_sum hs) (fun i => (3 : ℝ) • (fun _ => if i = 0 then -1 else 1) + 0) (3/5) (4/5)
      ((3 : ℝ) • 1) u z =
    (3 : ℝ) • newLoc (fun _ => (1/2 : ℝ)) (pos_of_sum hs) (fun i _ => if i = 0 then -1 else 1) (3/5) (4/5) 1 u z + 0 := by
  refine (C133_liu_west_run _ hs (fun (i : Fin 2) (_ : Fin 1) => if i = 0 then (-1 : ℝ) else 1) (3/5) (4/5) 3 (by norm_num) 0 1 ((3 : ℝ) • 1)
    Matrix.PosSemidef.one ?_ ?_ ?_).2 u z
  · exact Matrix.PosSemidef.one.smul (by norm_num)
  · ext i j
    have : i = j := Subsingleton.elim i j
    subst this
    simp [pcov, pmean, Fin.sum_univ_two]
    norm_num
  · ext i j
    have : i = j := Subsingleton.elim i j
    subst this
    simp [pcov, pmean, Fin.sum_univ_two]
    norm_num

/-- Case for `C133_liu_west_law`: ten new particles from the corners of a rhombus, with the two parameters in
other units; `S` and `S'` are square roots of the covariance before and after. -/
example (hs : ∑ i : Fin 4, (fun _ => (1/4 : ℝ)) i = 1) :
    let x : Fin 4 → Fin 2 → ℝ := ![![4, 2], ![-4, -2], ![2, 4], ![-2, -4]]
    let A : Matrix (Fin 2) (Fin 2) ℝ := diagonal ![1000, 1/60]
    let P := Measure.pi fun _ : Fin 10 => (volume.restrict (Set.Ico (0 : ℝ) 1)).prod (Spec.normalKernel 2)
    ∀ S S' : Matrix (Fin 2) (Fin 2) ℝ, S * Sᵀ = !![10, 8; 8, 10] → S' * S'ᵀ = A * !![10, 8; 8, 10] * Aᵀ →
      P.map (fun v i => newLoc (fun _ => 1/4) (pos_of_sum hs) (fun i => A *ᵥ x i + 0) (3/5) (4/5) S'
        (Int.fract (v i).1) (v i).2) =
      P.map (fun v i => A *ᵥ newLoc (fun _ => 1/4) (pos_of_sum hs) x (3/5) (4/5) S (Int.fract (v i).1) (v i).2 + 0) := by
  intro x A P S S' hS hS'
  have hvol : IsProbabilityMeasure (volume.restrict (Set.Ico (0 : ℝ) 1)) := ⟨by simp⟩
  have hx : pcov (fun _ => 1/4) x = !![10, 8; 8, 10] := by
    ext i j
    fin_cases i <;> fin_cases j <;> simp [pcov, pmean, Fin.sum_univ_succ, x] <;> norm_num
  exact C133_liu_west_law (lwRandom_pi 10 2 (Spec.normalKernel 2)) _ hs x (3/5) (4/5) A 0 S S' (hS.trans hx.symm)
    (by rw [hS', (C133_moments _ hs x A 0).2, hx])

end QInfer
