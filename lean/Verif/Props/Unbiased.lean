import Verif.Model.LwSmc
import Verif.Lemmas.Path
import Verif.Props.ResampleNoise
import Verif.Props.ManyParticles
import Mathlib.MeasureTheory.Integral.Pi
import Mathlib.MeasureTheory.Constructions.Pi

/-!
# C108: resampling does not bias the evidence
-/

namespace QInfer

open Spec MeasureTheory ProbabilityTheory

/-- Variates in `[0, 1)`. -/
abbrev Spec.Unit01 : Type := Set.Ico (0 : ℝ) 1

/-- The uniform law on `[0, 1)`. -/
noncomputable def Spec.uniform01 : Measure Unit01 := Measure.comap Subtype.val volume

instance : IsProbabilityMeasure Spec.uniform01 := ⟨by
  rw [Spec.uniform01, (MeasurableEmbedding.subtype_coe measurableSet_Ico).comap_apply, Set.image_univ,
    Subtype.range_coe, Real.volume_Ico]
  simp⟩

/-- The stock of variates for `m` calls of the resampler with `n` particles. -/
def Spec.stock {m n : ℕ} (v : Fin m → Fin n → Unit01) : List (List ℝ) :=
  List.ofFn fun i => List.ofFn fun k => (v i k : ℝ)

/-- Value of the data and of `f` at the end, along the path that starts in `x` and moves by `step`. -/
def Spec.pathValue {O E : Type*} (like : O → List ℝ → E → ℝ) (step : E → List ℝ → List ℝ)
    (f : List ℝ → ℝ) : List (O × E) → List ℝ → ℝ
  | [], x => f x
  | d :: ds, x => like d.1 x d.2 * Spec.pathValue like step f ds (step d.2 x)

section resampler

variable {n : ℕ}

/-- With `a = 1` and `h = 0` a call returns copies of the parents. -/
theorem boot_call (p : LwSetup) (ha : p.a = 1) (hh : p.h = 0) (hm : 0 < p.maxiter)
    (hk : ∀ m, (p.kernel m).length = m) (w : Fin n → ℝ) (hw : ∀ i, 0 ≤ w i) (hs : ∑ i, w i = 1)
    (x : Fin n → List ℝ) (u : Fin n → Unit01) (rest : List (List ℝ)) :
    p.resampler (List.ofFn (fun k => (u k : ℝ)) :: rest) (List.ofFn w) (List.ofFn x) =
      (.ok (List.ofFn (fun _ : Fin n => 1 / (n : ℝ)),
        List.ofFn fun k => x (parent w (pos_of_sum hs) (u k))), rest) := by
  have hprob : IsProb (List.ofFn w) := ⟨fun y hy => by
    obtain ⟨i, rfl⟩ := (List.mem_ofFn' _ _).1 hy; exact hw i, by rw [List.sum_ofFn, hs]⟩
  have hn := pos_of_sum hs
  have hgood : GoodLw (p.env (List.ofFn w) (List.ofFn x)) fun _ => true :=
    ⟨fun _ => rfl, fun r m => hk m⟩
  obtain ⟨locs, mus, seed', h1, h2, h3⟩ := C18_no_postselect (p.env (List.ofFn w) (List.ofFn x))
    (fun _ => true) hgood rfl p.maxiter hm (p.covZero (List.ofFn w) (List.ofFn x)) (List.ofFn w) hprob
    (List.ofFn x) (by simp) (p.centre (List.ofFn w) (List.ofFn x)) (List.ofFn fun k => (u k : ℝ))
    (by simp [hn.ne'])
    (fun y hy => by obtain ⟨i, rfl⟩ := (List.mem_ofFn' _ _).1 hy; exact (u i).2) ()
  have hc : ∀ y, p.centre (List.ofFn w) (List.ofFn x) y = y := fun y => by
    apply List.ext_getElem <;> simp [LwSetup.centre, ha]
  have hd : ∀ mu z, (p.env (List.ofFn w) (List.ofFn x)).disp mu z = mu := fun mu z => by
    apply List.ext_getElem <;> simp [LwSetup.env, hh]
  have hmus : mus = List.ofFn fun k => x (parent w hn (u k)) := by
    apply List.map_injective_iff.2 (Option.some_injective _)
    rw [h1, List.map_ofFn, List.map_ofFn]
    congr 1
    funext i
    have hlt : sampleIdx (List.ofFn w) (u i) < n := (parent w hn (u i)).2
    simp only [Function.comp]
    rw [List.getElem?_eq_getElem (by simpa using hlt)]
    simp [parent, hc]
  have hl : locs = (List.ofFn fun k => x (parent w hn (u k))).map some := by
    rw [h3, hmus]
    congr 1
    apply List.ext_getElem
    · simp [LwSetup.env, hk]
    · intro i hi1 hi2
      simp [hd]
  unfold LwSetup.resampler
  dsimp only
  rw [h2, hl]
  simp [Function.comp_def]

end resampler

section run

variable {O E : Type*} {n : ℕ}

/-- The run as a recursion: the product of the new normalizations and the mean of `f` at the end. -/
noncomputable def bootVal (thresh : ℝ) (check : Bool) (like : O → List ℝ → E → ℝ)
    (step : E → List ℝ → List ℝ) (f : List ℝ → ℝ) (hn : 0 < n) :
    List (O × E) → (m : ℕ) → (Fin n → ℝ) → (Fin n → List ℝ) → (Fin m → Fin n → Unit01) → ℝ
  | [], _, w, x, _ => ∑ i, w i * f (x i)
  | d :: ds, m, w, x, v =>
    let Z := ∑ j, w j * like d.1 (x j) d.2
    let w' : Fin n → ℝ := fun i => w i * like d.1 (x i) d.2 / Z
    let x' : Fin n → List ℝ := fun i => step d.2 (x i)
    Z * (if check = true ∧ nEss (List.ofFn w') < (((n : ℝ) * thresh : ℝ) : WithTop ℝ) then
        match m, v with
        | 0, _ => 0
        | m + 1, v => bootVal thresh check like step f hn ds m (fun _ => 1 / (n : ℝ))
            (fun k => x' (parent w' hn (v 0 k))) (Fin.tail v)
      else bootVal thresh check like step f hn ds m w' x' v)

/-- An updater that resamples by drawing copies. -/
structure Spec.Boot (cfg : SmcConfig ℝ) (env : Env ℝ O E (List (List ℝ))) (p : LwSetup)
    (step : E → List ℝ → List ℝ) : Prop where
  a : p.a = 1
  h : p.h = 0
  maxiter : 0 < p.maxiter
  kernel : ∀ m, (p.kernel m).length = m
  resampler : env.resampler = p.resampler
  step : ∀ r l e, env.timestep r l e = (l.map (step e), r)
  canon : cfg.canonicalize = false
  thresh : cfg.zeroThresh < 1
  policy : cfg.policy = "error"

variable {cfg : SmcConfig ℝ} {env : Env ℝ O E (List (List ℝ))} {p : LwSetup}
  {step : E → List ℝ → List ℝ}

/-- One call of `update`. -/
theorem boot_update (h : Boot cfg env p step) (check : Bool) (o : O) (e : E)
    (hL : ∀ x, eps ≤ env.likelihood o x e) (w : Fin n → ℝ) (hw : ∀ i, 0 ≤ w i) (hs : ∑ i, w i = 1)
    (x : Fin n → List ℝ) (s : Smc ℝ O (List (List ℝ))) (hsw : s.weights = List.ofFn w)
    (hsl : s.locs = List.ofFn x) {m : ℕ} (v : Fin m → Fin n → Unit01) (hsv : s.seed = stock v)
    (hm : 0 < m) :
    let Z := ∑ j, w j * env.likelihood o (x j) e
    let w' : Fin n → ℝ := fun i => w i * env.likelihood o (x i) e / Z
    let x' : Fin n → List ℝ := fun i => step e (x i)
    0 < Z ∧ (∀ i, 0 ≤ w' i) ∧ ∑ i, w' i = 1 ∧
    ∃ t, update cfg env s o e check = (t, .ok ()) ∧ t.normRecord = s.normRecord ++ [Z] ∧
      ((check = true ∧ nEss (List.ofFn w') < (((n : ℝ) * cfg.resampleThresh : ℝ) : WithTop ℝ)) →
        t.weights = List.ofFn (fun _ : Fin n => 1 / (n : ℝ)) ∧
        t.locs = List.ofFn (fun k => x' (parent w' (pos_of_sum hs) (v ⟨0, hm⟩ k))) ∧
        t.seed = (stock v).tail) ∧
      (¬ (check = true ∧ nEss (List.ofFn w') < (((n : ℝ) * cfg.resampleThresh : ℝ) : WithTop ℝ)) →
        t.weights = List.ofFn w' ∧ t.locs = List.ofFn x' ∧ t.seed = stock v) := by
  intro Z w' x'
  have heps : (0 : ℝ) < eps := eps_pos
  have hZe : eps ≤ Z := by
    calc (eps : ℝ) = ∑ j, w j * eps := by rw [← Finset.sum_mul, hs, one_mul]
      _ ≤ Z := Finset.sum_le_sum fun j _ => mul_le_mul_of_nonneg_left (hL _) (hw j)
  have hZ : 0 < Z := heps.trans_le hZe
  have hw' : ∀ i, 0 ≤ w' i := fun i => div_nonneg (mul_nonneg (hw i) (heps.le.trans (hL _))) hZ.le
  have hs' : ∑ i, w' i = 1 := by
    show ∑ i, w i * env.likelihood o (x i) e / Z = 1
    rw [← Finset.sum_div]; exact div_self hZ.ne'
  refine ⟨hZ, hw', hs', ?_⟩
  have hev : evidence env.likelihood s.weights s.locs o e = Z := by rw [hsw, hsl, evidence_ofFn]
  have hpost : posterior env.likelihood s.weights s.locs o e = List.ofFn w' := by
    rw [hsw, hsl, posterior_ofFn]
  obtain ⟨h1, h2, h3, h4, h5, -⟩ := datum_normal cfg env s o e (by rw [hsw, hsl]; simp)
    (fun y hy => by rw [hsw] at hy; obtain ⟨i, rfl⟩ := (List.mem_ofFn' _ _).1 hy; exact hw i)
    (fun y => heps.le.trans (hL y)) h.thresh (by rw [hev]; exact hZe)
  rw [hpost] at h2
  rw [h.step, hsl, List.map_ofFn] at h3
  rw [h.step, hsv] at h4
  rw [hev] at h5
  have h3' : (update cfg env s o e false).1.locs = List.ofFn x' := h3
  cases check with
  | false =>
    exact ⟨_, Prod.ext rfl h1, h5, fun hc => absurd hc.1 (by decide), fun _ => ⟨h2, h3', h4⟩⟩
  | true =>
    have hu : update cfg env s o e true = maybeResample cfg env (update cfg env s o e false).1 := by
      rcases update_split cfg env s o e with ⟨hu, -⟩ | ⟨-, hu⟩
      · exact hu
      · rcases hu with hu | hu
        · rw [h.policy] at hu; exact absurd hu (by decide)
        · exact absurd h1 hu
    rw [hu]
    generalize (update cfg env s o e false).1 = t at *
    unfold maybeResample
    dsimp only
    set q := if nEss t.weights ≤ ((10 : ℝ) : WithTop ℝ) then t.warn .smallEss else t with hq
    have hq1 : q.weights = List.ofFn w' ∧ q.locs = List.ofFn x' ∧ q.seed = stock v ∧
        q.normRecord = s.normRecord ++ [Z] ∧ q.nParticles = n := by
      rw [hq]
      split
      · exact ⟨h2, h3', h4, h5, by simp [Smc.nParticles, Smc.warn, h3']⟩
      · exact ⟨h2, h3', h4, h5, by simp [Smc.nParticles, h3']⟩
    clear_value q
    rw [hq1.2.2.2.2, h2]
    by_cases hc : nEss (List.ofFn w') < (((n : ℝ) * cfg.resampleThresh : ℝ) : WithTop ℝ)
    · simp only [if_pos hc]
      obtain ⟨m', rfl⟩ : ∃ m', m = m' + 1 := ⟨m - 1, by omega⟩
      have hstock : stock v = List.ofFn (fun k => (v 0 k : ℝ)) :: (stock v).tail := by
        simp [stock, List.ofFn_succ]
      unfold resample
      have hq2 : (markResampled q).weights = List.ofFn w' ∧ (markResampled q).locs = List.ofFn x' ∧
          (markResampled q).seed = stock v ∧ (markResampled q).normRecord = s.normRecord ++ [Z] := by
        unfold markResampled
        dsimp only
        split <;> exact ⟨hq1.1, hq1.2.1, hq1.2.2.1, hq1.2.2.2.1⟩
      generalize markResampled q = q' at *
      have hcall : env.resampler q'.seed q'.weights q'.locs =
          (.ok (List.ofFn (fun _ : Fin n => 1 / (n : ℝ)),
            List.ofFn fun k => x' (parent w' (pos_of_sum hs') (v 0 k))), (stock v).tail) := by
        rw [h.resampler, hq2.1, hq2.2.1, hq2.2.2.1, hstock, List.tail_cons]
        exact boot_call p h.a h.h h.maxiter h.kernel w' hw' hs' x' (v 0) _
      unfold runResampler
      rw [hcall]
      simp only [h.canon]
      refine ⟨_, rfl, ?_, fun _ => ⟨?_, ?_, ?_⟩, fun hn => absurd ⟨by trivial, hc⟩ hn⟩ <;>
        (cases q'.divergences <;> cases env.clearCacheRaises <;> first | exact hq2.2.2.2 | rfl)
    · simp only [if_neg hc]
      exact ⟨_, rfl, hq1.2.2.2.1, fun hh => absurd hh.2 hc, fun _ => ⟨hq1.1, hq1.2.1, hq1.2.2.1⟩⟩

/-- A run from any state is `bootVal`. -/
theorem feed_boot (h : Boot cfg env p step) (check : Bool) (f : List ℝ → ℝ) (ds : List (O × E))
    (hL : ∀ d ∈ ds, ∀ x, eps ≤ env.likelihood d.1 x d.2) (m : ℕ) (hm : ds.length ≤ m) (w : Fin n → ℝ)
    (hw : ∀ i, 0 ≤ w i) (hs : ∑ i, w i = 1) (x : Fin n → List ℝ) (s : Smc ℝ O (List (List ℝ)))
    (hsw : s.weights = List.ofFn w) (hsl : s.locs = List.ofFn x) (v : Fin m → Fin n → Unit01)
    (hsv : s.seed = stock v) :
    (feed cfg env check ds s).2 = .ok () ∧
    (feed cfg env check ds s).1.normRecord.prod * cloudMean f (feed cfg env check ds s).1 =
      s.normRecord.prod * bootVal cfg.resampleThresh check env.likelihood step f (pos_of_sum hs) ds m w x v ∧
    cloudMean (fun _ => 1) (feed cfg env check ds s).1 = 1 := by
  induction ds generalizing m w x s with
  | nil =>
    refine ⟨rfl, ?_, ?_⟩
    · simp only [feed, bootVal, cloudMean, hsw, hsl, zip_ofFn, List.map_ofFn, List.sum_ofFn]
      rfl
    · simp only [feed, cloudMean, hsw, hsl, zip_ofFn, List.map_ofFn, List.sum_ofFn]
      simpa using hs
  | cons d ds ih =>
    simp only [List.length_cons] at hm
    obtain ⟨m, rfl⟩ : ∃ m', m = m' + 1 := ⟨m - 1, by omega⟩
    obtain ⟨hZ, hw', hs', t, hu, hnr, hyes, hno⟩ := boot_update h check d.1 d.2
      (hL d List.mem_cons_self) w hw hs x s hsw hsl v hsv (by omega)
    have hfeed : feed cfg env check (d :: ds) s = feed cfg env check ds t := by simp [feed, hu]
    rw [hfeed]
    have hL' : ∀ d ∈ ds, ∀ x, eps ≤ env.likelihood d.1 x d.2 := fun d hd => hL d (List.mem_cons_of_mem _ hd)
    simp only [bootVal]
    by_cases hc : check = true ∧ nEss (List.ofFn fun i => w i * env.likelihood d.1 (x i) d.2 /
        ∑ j, w j * env.likelihood d.1 (x j) d.2) < (((n : ℝ) * cfg.resampleThresh : ℝ) : WithTop ℝ)
    · obtain ⟨h1, h2, h3⟩ := hyes hc
      rw [if_pos hc]
      have hn0 : (n : ℝ) ≠ 0 := Nat.cast_ne_zero.2 (pos_of_sum hs).ne'
      obtain ⟨i1, i2, i3⟩ := ih hL' m (by omega) (fun _ => 1 / (n : ℝ)) (fun _ => by positivity)
        (by simp [hn0]) _ t h1 h2 (Fin.tail v) (by rw [h3]; simp [stock, List.ofFn_succ, Fin.tail])
      refine ⟨i1, ?_, i3⟩
      rw [i2, hnr, List.prod_append, List.prod_singleton, mul_assoc]
      rfl
    · obtain ⟨h1, h2, h3⟩ := hno hc
      rw [if_neg hc]
      obtain ⟨i1, i2, i3⟩ := ih hL' (m + 1) (by omega) _ hw' hs' _ t h1 h2 v h3
      refine ⟨i1, ?_, i3⟩
      rw [i2, hnr, List.prod_append, List.prod_singleton, mul_assoc]

theorem bootVal_nonneg (thresh : ℝ) (check : Bool) (like : O → List ℝ → E → ℝ)
    (step : E → List ℝ → List ℝ) (f : List ℝ → ℝ) (hf : ∀ x, 0 ≤ f x) (hn : 0 < n) (ds : List (O × E))
    (hL : ∀ d ∈ ds, ∀ x, 0 ≤ like d.1 x d.2) (m : ℕ) (w : Fin n → ℝ) (hw : ∀ i, 0 ≤ w i)
    (x : Fin n → List ℝ) (v : Fin m → Fin n → Unit01) :
    0 ≤ bootVal thresh check like step f hn ds m w x v := by
  induction ds generalizing m w x with
  | nil => exact Finset.sum_nonneg fun i _ => mul_nonneg (hw i) (hf _)
  | cons d ds ih =>
    have hl := hL d List.mem_cons_self
    have hL' : ∀ d ∈ ds, ∀ x, 0 ≤ like d.1 x d.2 := fun d hd => hL d (List.mem_cons_of_mem _ hd)
    have hZ : 0 ≤ ∑ j, w j * like d.1 (x j) d.2 := Finset.sum_nonneg fun i _ => mul_nonneg (hw i) (hl _)
    simp only [bootVal]
    refine mul_nonneg hZ ?_
    split
    · cases m with
      | zero => exact le_rfl
      | succ m => exact ih hL' m _ (fun _ => by positivity) _ _
    · exact ih hL' m _ (fun i => div_nonneg (mul_nonneg (hw i) (hl _)) hZ) _ _

/-- The law of independent variates. -/
noncomputable def Spec.drawLaw (n : ℕ) : Measure (Fin n → Unit01) := Measure.pi fun _ => uniform01

/-- The law of the stock. -/
noncomputable def Spec.stockLaw (m n : ℕ) : Measure (Fin m → Fin n → Unit01) :=
  Measure.pi fun _ => drawLaw n

instance (n : ℕ) : IsProbabilityMeasure (drawLaw n) := by unfold drawLaw; infer_instance

instance (m n : ℕ) : IsProbabilityMeasure (stockLaw m n) := by unfold stockLaw; infer_instance

/-- Averaging over the parent. -/
theorem parent_average (w : Fin n → ℝ) (hw : ∀ i, 0 ≤ w i) (hs : ∑ i, w i = 1) (g : Fin n → ℝ) :
    ∫ u : Unit01, g (parent w (pos_of_sum hs) u) ∂uniform01 = ∑ i, w i * g i := by
  set hn := pos_of_sum hs
  have hm : Measurable fun u : Unit01 => parent w hn u :=
    (measurable_parent w hn).comp measurable_subtype_coe
  have h1 : ∫ u : Unit01, g (parent w hn u) ∂uniform01 =
      ∫ j, g j ∂(uniform01.map fun u : Unit01 => parent w hn u) := by
    rw [integral_map hm.aemeasurable (measurable_of_finite g).aestronglyMeasurable]
  have hp : IsProbabilityMeasure (uniform01.map fun u : Unit01 => parent w hn u) :=
    Measure.isProbabilityMeasure_map hm.aemeasurable
  rw [h1, integral_fintype Integrable.of_finite]
  refine Finset.sum_congr rfl fun j _ => ?_
  have h2 : (uniform01.map fun u : Unit01 => parent w hn u).real {j} = w j := by
    rw [Measure.real, Measure.map_apply hm (measurableSet_singleton j), uniform01,
      (MeasurableEmbedding.subtype_coe measurableSet_Ico).comap_apply]
    have : (Subtype.val '' ((fun u : Unit01 => parent w hn u) ⁻¹' {j}) : Set ℝ) =
        {u ∈ Set.Ico (0 : ℝ) 1 | sampleIdx (List.ofFn w) u = j} := by
      ext u
      simp only [Set.mem_image, Set.mem_preimage, Set.mem_singleton_iff, Subtype.exists, Set.mem_ofPred_eq,
        parent, Fin.ext_iff]
      constructor
      · rintro ⟨a, ha, hj, rfl⟩; exact ⟨ha, hj⟩
      · rintro ⟨ha, hj⟩; exact ⟨u, ha, hj, rfl⟩
    rw [this, C105_parent_law w hw hs j, ENNReal.toReal_ofReal (hw j)]
  rw [h2, smul_eq_mul]

/-- Averaging over a stock: first over its first call, then over the rest. -/
theorem stock_average (m : ℕ) (T : Type*) [Fintype T] [MeasurableSpace T] [MeasurableSingletonClass T]
    (par : (Fin n → Unit01) → T) (hpar : Measurable par) (B : T → (Fin m → Fin n → Unit01) → ℝ)
    (hB : ∀ J, Integrable (B J) (stockLaw m n)) :
    Integrable (fun v : Fin (m + 1) → Fin n → Unit01 => B (par (v 0)) (Fin.tail v)) (stockLaw (m + 1) n) ∧
    ∫ v : Fin (m + 1) → Fin n → Unit01, B (par (v 0)) (Fin.tail v) ∂(stockLaw (m + 1) n) =
      ∫ u, (∫ v, B (par u) v ∂(stockLaw m n)) ∂(drawLaw n) := by
  have hmp := measurePreserving_piFinSuccAbove (fun _ : Fin (m + 1) => drawLaw n) 0
  have hfun : (fun v : Fin (m + 1) → Fin n → Unit01 => B (par (v 0)) (Fin.tail v)) =
      (fun q : (Fin n → Unit01) × (Fin m → Fin n → Unit01) => B (par q.1) q.2) ∘
        (MeasurableEquiv.piFinSuccAbove (fun _ : Fin (m + 1) => Fin n → Unit01) 0) := by
    funext v
    rfl
  have hint : Integrable (fun q : (Fin n → Unit01) × (Fin m → Fin n → Unit01) => B (par q.1) q.2)
      ((drawLaw n).prod (stockLaw m n)) := by
    have hsum : (fun q : (Fin n → Unit01) × (Fin m → Fin n → Unit01) => B (par q.1) q.2) =
        fun q => ∑ J, (par ⁻¹' {J}).indicator (fun _ => (1 : ℝ)) q.1 * B J q.2 := by
      funext q
      rw [Finset.sum_eq_single (par q.1)]
      · rw [Set.indicator_of_mem (by simp), one_mul]
      · intro J _ hJ
        rw [Set.indicator_of_notMem (by simpa using hJ.symm), zero_mul]
      · intro h; exact absurd (Finset.mem_univ _) h
    rw [hsum]
    refine integrable_finsetSum _ fun J _ => Integrable.mul_prod ?_ (hB J)
    exact (integrable_const 1).indicator (hpar (measurableSet_singleton J))
  refine ⟨?_, ?_⟩
  · rw [hfun]
    exact (hmp.integrable_comp_emb (MeasurableEquiv.measurableEmbedding _)).2 hint
  · rw [hfun]
    have := hmp.integral_comp (MeasurableEquiv.measurableEmbedding _)
      (fun q : (Fin n → Unit01) × (Fin m → Fin n → Unit01) => B (par q.1) q.2)
    exact this.trans (integral_prod _ hint)

/-- The average of `bootVal`. -/
theorem bootVal_average (thresh : ℝ) (check : Bool) (like : O → List ℝ → E → ℝ)
    (step : E → List ℝ → List ℝ) (f : List ℝ → ℝ) (ds : List (O × E))
    (hL : ∀ d ∈ ds, ∀ x, 0 < like d.1 x d.2) (m : ℕ) (hm : ds.length ≤ m) (w : Fin n → ℝ)
    (hw : ∀ i, 0 ≤ w i) (hs : ∑ i, w i = 1) (x : Fin n → List ℝ) :
    Integrable (bootVal thresh check like step f (pos_of_sum hs) ds m w x) (stockLaw m n) ∧
    ∫ v, bootVal thresh check like step f (pos_of_sum hs) ds m w x v ∂(stockLaw m n) =
      ∑ i, w i * pathValue like step f ds (x i) := by
  induction ds generalizing m w x with
  | nil =>
    refine ⟨?_, ?_⟩
    · exact integrable_const _
    · simp [bootVal, pathValue]
  | cons d ds ih =>
    simp only [List.length_cons] at hm
    obtain ⟨m, rfl⟩ : ∃ m', m = m' + 1 := ⟨m - 1, by omega⟩
    have hn := pos_of_sum hs
    have hn0 : (n : ℝ) ≠ 0 := Nat.cast_ne_zero.2 hn.ne'
    have hL' : ∀ d ∈ ds, ∀ x, 0 < like d.1 x d.2 := fun d hd => hL d (List.mem_cons_of_mem _ hd)
    set Z := ∑ j, w j * like d.1 (x j) d.2 with hZ
    have hlike : ∀ y, 0 < like d.1 y d.2 := hL d List.mem_cons_self
    have hZ0 : 0 < Z := by
      obtain ⟨i, -, hi⟩ : ∃ i ∈ Finset.univ, 0 < w i := by
        apply Finset.exists_lt_of_sum_lt (f := fun _ => (0 : ℝ))
        rw [hs]; simp
      exact lt_of_lt_of_le (mul_pos hi (hlike _)) (Finset.single_le_sum
        (f := fun j => w j * like d.1 (x j) d.2)
        (fun j _ => mul_nonneg (hw j) (hlike _).le) (Finset.mem_univ i))
    set w' : Fin n → ℝ := fun i => w i * like d.1 (x i) d.2 / Z with hw'd
    have hw' : ∀ i, 0 ≤ w' i := fun i => div_nonneg (mul_nonneg (hw i) (hlike _).le) hZ0.le
    have hs' : ∑ i, w' i = 1 := by
      rw [hw'd, ← Finset.sum_div]; exact div_self hZ0.ne'
    have hgoal : ∀ I : ℝ, I = ∑ i, w' i * pathValue like step f ds (step d.2 (x i)) →
        Z * I = ∑ i, w i * pathValue like step f (d :: ds) (x i) := by
      rintro I rfl
      rw [Finset.mul_sum]
      refine Finset.sum_congr rfl fun i _ => ?_
      rw [pathValue, hw'd]
      field_simp
    by_cases hc : check = true ∧ nEss (List.ofFn w') < (((n : ℝ) * thresh : ℝ) : WithTop ℝ)
    · have hform : bootVal thresh check like step f (pos_of_sum hs) (d :: ds) (m + 1) w x =
          fun v : Fin (m + 1) → Fin n → Unit01 =>
            Z * bootVal thresh check like step f hn ds m (fun _ => 1 / (n : ℝ))
              (fun k => step d.2 (x (parent w' hn (v 0 k)))) (Fin.tail v) := by
        funext v
        simp only [bootVal]
        rw [if_pos hc]
      rw [hform]
      obtain ⟨s1, s2⟩ := stock_average m (Fin n → Fin n) (fun u k => parent w' hn (u k))
        (measurable_pi_lambda _ fun k => ((measurable_parent w' hn).comp measurable_subtype_coe).comp
          (measurable_pi_apply k))
        (fun J => bootVal thresh check like step f hn ds m (fun _ => 1 / (n : ℝ))
            (fun k => step d.2 (x (J k))))
        (fun J => (ih hL' m (by omega) (fun _ => 1 / (n : ℝ)) (fun _ => by positivity) (by simp [hn0]) _).1)
      refine ⟨s1.const_mul Z, ?_⟩
      rw [integral_const_mul, s2]
      apply hgoal
      have hin : ∀ J : Fin n → Fin n, ∫ v, bootVal thresh check like step f hn ds m (fun _ => 1 / (n : ℝ))
            (fun k => step d.2 (x (J k))) v ∂(stockLaw m n) =
          ∑ k, 1 / (n : ℝ) * pathValue like step f ds (step d.2 (x (J k))) := fun J =>
        (ih hL' m (by omega) (fun _ => 1 / (n : ℝ)) (fun _ => by positivity) (by simp [hn0]) _).2
      simp only [hin]
      have heval : ∀ k : Fin n, ∫ u : Fin n → Unit01, 1 / (n : ℝ) *
          pathValue like step f ds (step d.2 (x (parent w' hn (u k)))) ∂(drawLaw n) =
          1 / (n : ℝ) * ∑ i, w' i * pathValue like step f ds (step d.2 (x i)) := by
        intro k
        rw [integral_const_mul, ← parent_average w' hw' hs' fun i => pathValue like step f ds (step d.2 (x i))]
        congr 1
        have := (measurePreserving_eval (fun _ : Fin n => uniform01) k).map_eq
        conv_rhs => rw [← this]
        rw [integral_map (measurable_pi_apply k).aemeasurable]
        · rfl
        · exact ((measurable_of_finite fun i => pathValue like step f ds (step d.2 (x i))).comp
            ((measurable_parent w' hn).comp measurable_subtype_coe)).aestronglyMeasurable
      rw [integral_finsetSum]
      · simp only [heval, Finset.sum_const, Finset.card_univ, Fintype.card_fin, nsmul_eq_mul]
        field_simp
      · intro k _
        refine Integrable.const_mul ?_ _
        have hmeas : Measurable fun u : Fin n → Unit01 => parent w' hn (u k) :=
          ((measurable_parent w' hn).comp measurable_subtype_coe).comp (measurable_pi_apply k)
        exact (Integrable.of_finite (μ := (drawLaw n).map fun u : Fin n → Unit01 => parent w' hn (u k))
          (f := fun i => pathValue like step f ds (step d.2 (x i)))).comp_measurable hmeas
    · have hform : bootVal thresh check like step f (pos_of_sum hs) (d :: ds) (m + 1) w x =
          fun v => Z * bootVal thresh check like step f hn ds (m + 1) w' (fun i => step d.2 (x i)) v := by
        funext v
        simp only [bootVal]
        rw [if_neg hc]
      obtain ⟨i1, i2⟩ := ih hL' (m + 1) (by omega) w' hw' hs' fun i => step d.2 (x i)
      rw [hform]
      refine ⟨i1.const_mul Z, ?_⟩
      rw [integral_const_mul]
      exact hgoal _ i2

/-- **C108.**  An updater whose resampler draws copies of particles (`a = 1`, `h = 0`, no
postselection) accepts all data, and whenever it resamples, on average over the draws of the resampler
the product of the normalizations times the estimated mean of `f` is what it would be without any
resampling: the weighted sum of the likelihood of all data times `f` along the paths of the original
particles. -/
theorem C108_unbiased (h : Boot cfg env p step) (check : Bool) (f : List ℝ → ℝ) (ds : List (O × E))
    (hL : ∀ d ∈ ds, ∀ x, eps ≤ env.likelihood d.1 x d.2) (m : ℕ) (hm : ds.length ≤ m) (w : Fin n → ℝ)
    (hw : ∀ i, 0 ≤ w i) (hs : ∑ i, w i = 1) (x : Fin n → List ℝ)
    (s : (Fin m → Fin n → Unit01) → Smc ℝ O (List (List ℝ))) (hsw : ∀ v, (s v).weights = List.ofFn w)
    (hsl : ∀ v, (s v).locs = List.ofFn x) (hsn : ∀ v, (s v).normRecord = [])
    (hsv : ∀ v, (s v).seed = stock v) :
    (∀ v, (feed cfg env check ds (s v)).2 = .ok ()) ∧
    Integrable (fun v => (feed cfg env check ds (s v)).1.normRecord.prod *
      cloudMean f (feed cfg env check ds (s v)).1) (stockLaw m n) ∧
    ∫ v, (feed cfg env check ds (s v)).1.normRecord.prod *
      cloudMean f (feed cfg env check ds (s v)).1 ∂(stockLaw m n) =
      ∑ i, w i * pathValue env.likelihood step f ds (x i) := by
  have hb := fun v => feed_boot h check f ds hL m hm w hw hs x (s v) (hsw v) (hsl v) v (hsv v)
  obtain ⟨h1, h2⟩ := bootVal_average cfg.resampleThresh check env.likelihood step f ds
    (fun d hd x => eps_pos.trans_le (hL d hd x)) m hm w hw hs x
  have heq : (fun v => (feed cfg env check ds (s v)).1.normRecord.prod *
      cloudMean f (feed cfg env check ds (s v)).1) =
      bootVal cfg.resampleThresh check env.likelihood step f (pos_of_sum hs) ds m w x := by
    funext v
    rw [(hb v).2.1, hsn, List.prod_nil, one_mul]
  exact ⟨fun v => (hb v).1, by rw [heq]; exact h1, by rw [heq]; exact h2⟩

/-- **C108, evidence.**  The product of the normalizations is an unbiased estimate of the evidence, and it
exceeds the evidence `c` times or more with probability at most `1 / c`. -/
theorem C108_evidence (h : Boot cfg env p step) (check : Bool) (ds : List (O × E))
    (hL : ∀ d ∈ ds, ∀ x, eps ≤ env.likelihood d.1 x d.2) (m : ℕ) (hm : ds.length ≤ m) (w : Fin n → ℝ)
    (hw : ∀ i, 0 ≤ w i) (hs : ∑ i, w i = 1) (x : Fin n → List ℝ)
    (s : (Fin m → Fin n → Unit01) → Smc ℝ O (List (List ℝ))) (hsw : ∀ v, (s v).weights = List.ofFn w)
    (hsl : ∀ v, (s v).locs = List.ofFn x) (hsn : ∀ v, (s v).normRecord = [])
    (hsv : ∀ v, (s v).seed = stock v) :
    let ev := ∑ i, w i * pathValue env.likelihood step (fun _ => 1) ds (x i)
    ∫ v, (feed cfg env check ds (s v)).1.normRecord.prod ∂(stockLaw m n) = ev ∧
    ∀ c > 0, (stockLaw m n).real {v | c * ev ≤ (feed cfg env check ds (s v)).1.normRecord.prod} ≤ 1 / c := by
  intro ev
  obtain ⟨h1, h2, h3⟩ := C108_unbiased h check (fun _ => 1) ds hL m hm w hw hs x s hsw hsl hsn hsv
  have hb := fun v => feed_boot h check (fun _ => 1) ds hL m hm w hw hs x (s v) (hsw v) (hsl v) v (hsv v)
  simp only [(hb _).2.2, mul_one] at h2 h3
  refine ⟨h3, fun c hc => ?_⟩
  have hpos : ∀ y, 0 < pathValue env.likelihood step (fun _ => 1) ds y := by
    clear h1 h2 h3 hb hm hsw hsl hsn hsv ev
    induction ds with
    | nil => intro y; exact one_pos
    | cons d ds ih =>
      intro y
      exact mul_pos (eps_pos.trans_le (hL d List.mem_cons_self y))
        (ih (fun d hd => hL d (List.mem_cons_of_mem _ hd)) _)
  have hev : 0 < ev := by
    obtain ⟨i, -, hi⟩ : ∃ i ∈ Finset.univ, 0 < w i := by
      apply Finset.exists_lt_of_sum_lt (f := fun _ => (0 : ℝ))
      rw [hs]; simp
    exact lt_of_lt_of_le (mul_pos hi (hpos (x i))) (Finset.single_le_sum
      (f := fun j => w j * pathValue env.likelihood step (fun _ => 1) ds (x j))
      (fun j _ => mul_nonneg (hw j) (hpos _).le) (Finset.mem_univ i))
  have hnn : ∀ v, 0 ≤ (feed cfg env check ds (s v)).1.normRecord.prod := fun v => by
    have := (hb v).2.1
    rw [(hb v).2.2, mul_one, hsn, List.prod_nil, one_mul] at this
    rw [this]
    exact bootVal_nonneg _ _ _ _ _ (fun _ => zero_le_one) _ _
      (fun d hd x => (eps_pos.trans_le (hL d hd x)).le) _ _ hw _ _
  have hmk := mul_meas_ge_le_integral_of_nonneg (Filter.Eventually.of_forall hnn) h2 (c * ev)
  rw [h3] at hmk
  rw [le_div_iff₀ hc]
  have : ev * ((stockLaw m n).real {v | c * ev ≤ (feed cfg env check ds (s v)).1.normRecord.prod} * c) ≤
      ev * 1 := by
    rw [mul_one]
    calc _ = c * ev * (stockLaw m n).real {v | c * ev ≤ (feed cfg env check ds (s v)).1.normRecord.prod} := by
          ring
      _ ≤ ev := hmk
  exact le_of_mul_le_mul_left this hev

/-- **C108, prior.**  If each of the `n` particles is drawn from the prior `π` (dependently or not) and
they start with equal weights, the average over particles and resampling is the average over the
prior: of the likelihood of all data times `f`. -/
theorem C108_prior {Ω : Type*} [MeasurableSpace Ω] (P : Measure Ω) [IsProbabilityMeasure P]
    {Θ : Type*} [MeasurableSpace Θ] (π : Measure Θ) (loc : Θ → List ℝ) (X : Fin n → Ω → Θ)
    (hX : ∀ i, Measurable (X i)) (hπ : ∀ i, P.map (X i) = π) (hn : n ≠ 0)
    (h : Boot cfg env p step) (check : Bool) (f : List ℝ → ℝ) (ds : List (O × E))
    (hL : ∀ d ∈ ds, ∀ x, eps ≤ env.likelihood d.1 x d.2) (m : ℕ) (hm : ds.length ≤ m)
    (s : Ω → (Fin m → Fin n → Unit01) → Smc ℝ O (List (List ℝ)))
    (hsw : ∀ ω v, (s ω v).weights = List.ofFn fun _ : Fin n => 1 / (n : ℝ))
    (hsl : ∀ ω v, (s ω v).locs = List.ofFn fun i => loc (X i ω)) (hsn : ∀ ω v, (s ω v).normRecord = [])
    (hsv : ∀ ω v, (s ω v).seed = stock v)
    (hmeas : Measurable fun θ => pathValue env.likelihood step f ds (loc θ))
    (hint : Integrable (fun θ => pathValue env.likelihood step f ds (loc θ)) π) :
    ∫ ω, (∫ v, (feed cfg env check ds (s ω v)).1.normRecord.prod *
      cloudMean f (feed cfg env check ds (s ω v)).1 ∂(stockLaw m n)) ∂P =
      ∫ θ, pathValue env.likelihood step f ds (loc θ) ∂π := by
  have hn0 : (n : ℝ) ≠ 0 := Nat.cast_ne_zero.2 hn
  have h1 : ∀ ω, ∫ v, (feed cfg env check ds (s ω v)).1.normRecord.prod *
      cloudMean f (feed cfg env check ds (s ω v)).1 ∂(stockLaw m n) =
      ∑ i : Fin n, 1 / (n : ℝ) * pathValue env.likelihood step f ds (loc (X i ω)) := fun ω =>
    (C108_unbiased h check f ds hL m hm (fun _ => 1 / (n : ℝ)) (fun _ => by positivity) (by simp [hn0])
      (fun i => loc (X i ω)) (s ω) (hsw ω) (hsl ω) (hsn ω) (hsv ω)).2.2
  simp only [h1]
  have hi : ∀ i, Integrable (fun ω => pathValue env.likelihood step f ds (loc (X i ω))) P := fun i => by
    rw [← hπ i] at hint
    exact (integrable_map_measure hmeas.aestronglyMeasurable (hX i).aemeasurable).1 hint
  have he : ∀ i, ∫ ω, pathValue env.likelihood step f ds (loc (X i ω)) ∂P =
      ∫ θ, pathValue env.likelihood step f ds (loc θ) ∂π := fun i => by
    rw [← hπ i, integral_map (hX i).aemeasurable hmeas.aestronglyMeasurable]
  rw [integral_finsetSum _ fun i _ => (hi i).const_mul _]
  simp only [integral_const_mul, he, Finset.sum_const, Finset.card_univ, Fintype.card_fin, nsmul_eq_mul]
  field_simp

end run

/-! ### A case: two phases, resampled after the first datum -/

/-- Liu and West with `a = 1`, so that `h = 0`. -/
noncomputable def copySetup : LwSetup where
  a := 1
  h := 0
  maxiter := 1000
  kernel m := List.replicate m [0]
  mean w l := [((w.zip l).map fun p => p.1 * p.2.getD 0 0).sum]
  covZero _ _ := false
  root _ _ z := z

/-- A phase that an experiment `e` multiplies by `e`. -/
noncomputable def copyEnv : Env ℝ Bool ℝ (List (List ℝ)) where
  likelihood o x _ := 1 / 2 + (if o then 1 else -1) * Real.sin (x.getD 0 0) / 4
  timestep r l e := (l.map fun x => x.map (e * ·), r)
  canon l := l
  clearCacheRaises := false
  prior r n := (List.replicate n [0], r)
  resampler := copySetup.resampler
  kl _ _ _ _ := 0

/-- Resampling as soon as the weights differ. -/
noncomputable def copyCfg : SmcConfig ℝ where
  resampleThresh := 1
  policy := "error"
  zeroThresh := 10 * eps
  canonicalize := false

theorem copy_boot : Boot copyCfg copyEnv copySetup fun e x => x.map (e * ·) where
  a := rfl
  h := rfl
  maxiter := by decide
  kernel m := by simp [copySetup]
  resampler := rfl
  step _ _ _ := rfl
  canon := rfl
  thresh := by
    show 10 * (eps : ℝ) < 1
    unfold eps; norm_num
  policy := rfl

/-- Two phases with equal weights, and a stock of variates. -/
noncomputable def copyStart {m : ℕ} (v : Fin m → Fin 2 → Unit01) : Smc ℝ Bool (List (List ℝ)) where
  weights := List.ofFn fun _ : Fin 2 => 1 / 2
  locs := List.ofFn fun i : Fin 2 => [(2 * i.val - 1 : ℝ) * (Real.pi / 2)]
  resampleCount := 0
  minNEss := ⊤
  justResampled := false
  dataRecord := []
  normRecord := []
  divergences := none
  seed := stock v
  warnings := []

/-- After the first datum the weights are 1/4 and 3/4 and the cloud is resampled. -/
example (v : Fin 2 → Fin 2 → Unit01) :
    (feed copyCfg copyEnv true [(true, 1)] (copyStart v)).1.weights = List.ofFn fun _ : Fin 2 => 1 / (2 : ℝ) := by
  obtain ⟨-, -, -, t, h1, -, h2, -⟩ := boot_update copy_boot true true 1
    (fun x => by
      have hε : (eps : ℝ) ≤ 1 / 40 := by unfold eps; norm_num
      exact le_trans (by linarith) (phase_like true x ()).1)
    (fun _ : Fin 2 => 1 / 2) (fun _ => by norm_num) (by norm_num)
    (fun i : Fin 2 => [(2 * i.val - 1 : ℝ) * (Real.pi / 2)]) (copyStart v) rfl rfl v rfl (by norm_num)
  have hc : nEss (List.ofFn fun i : Fin 2 => (1 / 2 : ℝ) *
      copyEnv.likelihood true [(2 * i.val - 1 : ℝ) * (Real.pi / 2)] 1 /
      ∑ j : Fin 2, (1 / 2 : ℝ) * copyEnv.likelihood true [(2 * j.val - 1 : ℝ) * (Real.pi / 2)] 1) <
      ((((2 : ℕ) : ℝ) * copyCfg.resampleThresh : ℝ) : WithTop ℝ) := by
    have h0 : copyEnv.likelihood true [(2 * ((0 : Fin 2).val : ℝ) - 1) * (Real.pi / 2)] 1 = 1 / 4 := by
      simp [copyEnv]; norm_num
    have h1 : copyEnv.likelihood true [(2 * ((1 : Fin 2).val : ℝ) - 1) * (Real.pi / 2)] 1 = 3 / 4 := by
      simp [copyEnv]; norm_num
    simp only [Fin.sum_univ_two, List.ofFn_succ, List.ofFn_zero, Fin.succ_zero_eq_one, h0, h1]
    simp only [nEss, recip, copyCfg]
    norm_num
    exact WithTop.coe_lt_coe.2 (by norm_num)
  simp only [feed, h1]
  exact (h2 ⟨rfl, hc⟩).1

/-- Case for C108: the average evidence of two equal data is `(1/4 * 1/4 + 3/4 * 3/4) / 2`. -/
example : ∫ v : Fin 2 → Fin 2 → Unit01, (feed copyCfg copyEnv true [(true, 1), (true, 1)]
    (copyStart v)).1.normRecord.prod ∂(stockLaw 2 2) = 5 / 16 := by
  have h := (C108_evidence copy_boot true [(true, 1), (true, 1)] (fun d _ x => by
      have hε : (eps : ℝ) ≤ 1 / 40 := by unfold eps; norm_num
      exact le_trans (by linarith) (phase_like d.1 x ()).1) 2 le_rfl (fun _ : Fin 2 => 1 / 2)
      (fun _ => by norm_num) (by norm_num) (fun i : Fin 2 => [(2 * i.val - 1 : ℝ) * (Real.pi / 2)])
      copyStart (fun _ => rfl) (fun _ => rfl) (fun _ => rfl) (fun _ => rfl)).1
  rw [h]
  simp [pathValue, copyEnv, Fin.sum_univ_two]
  norm_num

end QInfer
