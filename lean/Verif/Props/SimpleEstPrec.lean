import Verif.Props.SimpleEst
import Verif.Props.Pdf
import Verif.Props.TestModels

/-!
# C82: `simple_est_prec` and the prior of `simple_est_rb`
-/

set_option linter.unusedSectionVars false

namespace QInfer

open Spec

variable {ω : Type}

/-- What the estimation functions expect of their surroundings: uniform variates in `[0, 1)` in the
shape asked for, and a resampler that turns weighted clouds into weighted clouds. -/
structure GoodWorld (world : EstWorld ω) : Prop where
  uniform_len : ∀ r n k, (world.uniform r n k).1.length = n
  uniform_row : ∀ r n k, ∀ z ∈ (world.uniform r n k).1, z.length = k ∧ ∀ v ∈ z, 0 ≤ v ∧ v < 1
  resampler_ok : ∀ valid r w l w' l', IsProb w → l.length = w.length →
    (world.resampler valid r w l).1 = .ok (w', l') → IsProb w' ∧ l'.length = w'.length

/-- Rows of a data table: counts, time, shots. -/
def precTable (rows : List (Nat × ℝ × Nat)) : List (List ℝ) :=
  rows.map fun r => [(r.1 : ℝ), r.2.1, (r.2.2 : ℝ)]

theorem trunc_natCast (n : Nat) : trunc (n : ℝ) = n := by
  rw [trunc, if_pos (Nat.cast_nonneg n), Int.floor_natCast]

/-- The experiment described by a row. -/
noncomputable def precExp (r : Nat × ℝ × Nat) : ExpVal ℝ :=
  .record [("x", some r.2.1), ("n_meas", some (r.2.2 : ℝ))]

theorem prec_data (rows : List (Nat × ℝ × Nat)) (l : Layout)
    (h : l = .plain 3 ∨ l = .record ["counts", "t", "n_shots"]) :
    dataToParams ⟨l, .vec (precTable rows)⟩ (.fields precFields) (0, "counts")
      (.dict [("x", (1, "t")), ("n_meas", (2, "n_shots"))]) =
    .ok (.vec (rows.map fun r => (r.1 : ℤ)), .vec (rows.map precExp)) := by
  have c0 : colIdx l (0, "counts") = .ok 0 := by rcases h with rfl | rfl <;> rfl
  have c1 : colIdx l (1, "t") = .ok 1 := by rcases h with rfl | rfl <;> rfl
  have c2 : colIdx l (2, "n_shots") = .ok 2 := by rcases h with rfl | rfl <;> rfl
  have l1 : precFields.lookup "x" = some .flt := rfl
  have l2 : precFields.lookup "n_meas" = some .int := rfl
  rw [dataToParams]
  simp only [c0, bind, Except.bind, fillFields, c1, c2, l1, l2, column, Arr01.map, Arr01.setField,
    pure, Except.pure, Except.ok.injEq, Prod.mk.injEq, Arr01.vec.injEq]
  constructor
  · simp only [precTable, List.map_map]
    apply List.map_congr_left
    intro r _
    exact trunc_natCast r.1
  · simp only [precTable, List.map_map, List.zipWith_map]
    rw [List.zipWith_self, List.zipWith_map_right, List.zipWith_map_left, List.zipWith_self]
    apply List.map_congr_left
    intro r _
    simp only [Function.comp, precFields, List.map_cons, List.map_nil, ExpVal.setField, precExp,
      FieldTy.cast, List.getD_cons_zero, List.getD_cons_succ, trunc_natCast]
    simp

/-- Likelihood of the rows at frequency `x`: each row is a binomial experiment in which a single shot
gives a count with probability `sin² (x t / 2)`. -/
noncomputable def Spec.precLike (rows : List (Nat × ℝ × Nat)) (x : ℝ) : ℝ :=
  (rows.map fun r => ((r.2.2).choose r.1 : ℝ) * (Real.sin (x * r.2.1 / 2) ^ 2) ^ r.1 *
    (Real.cos (x * r.2.1 / 2) ^ 2) ^ (r.2.2 - r.1)).prod

theorem prec_pr1 (x t : ℝ) : twoOutcome (precessionPr0 x t) 1 = Real.sin (x * t / 2) ^ 2 := by
  rw [twoOutcome, if_neg one_ne_zero, precessionPr0, inversionPr0, sub_zero, mul_comm t x,
    ← Real.sin_sq_add_cos_sq (x * t / 2)]
  ring

theorem prec_likelihood (world : EstWorld ω) (f0 f1 : ℝ) (r : Nat × ℝ × Nat) (x : List ℝ) :
    (precEnv world f0 f1).likelihood (r.1 : ℤ) x (precExp r) =
      ((r.2.2).choose r.1 : ℝ) * (Real.sin (x.getD 0 0 * r.2.1 / 2) ^ 2) ^ r.1 *
        (Real.cos (x.getD 0 0 * r.2.1 / 2) ^ 2) ^ (r.2.2 - r.1) := by
  have h1 : (precExp r).get "n_meas" = (r.2.2 : ℝ) := rfl
  have h2 : (precExp r).get "x" = r.2.1 := rfl
  simp only [precEnv, h1, h2, trunc_natCast, prec_pr1, Int.toNat_natCast]
  rw [binomialPdf_some _ _ _ ⟨sq_nonneg _, Real.sin_sq_le_one _⟩, Option.getD_some,
    ← Real.cos_sq']
  split
  · rfl
  · rename_i h
    rw [Nat.choose_eq_zero_of_lt (by omega)]
    simp

theorem prec_dataLike (world : EstWorld ω) (f0 f1 : ℝ) (rows : List (Nat × ℝ × Nat)) (x : List ℝ) :
    dataLike (precEnv world f0 f1).likelihood
      ((rows.map fun r => (r.1 : ℤ)).zip (rows.map precExp)) x = precLike rows (x.getD 0 0) := by
  rw [dataLike, precLike, List.zip_map', List.map_map]
  congr 1
  apply List.map_congr_left
  intro r _
  exact prec_likelihood world f0 f1 r x

theorem prec_good (world : EstWorld ω) (hw : GoodWorld world) (f0 f1 : ℝ) :
    GoodEnv (precEnv world f0 f1) where
  like_nonneg o x e := by
    simp only [precEnv, prec_pr1, binomialPdf]
    split
    · rename_i h
      rw [Option.getD_some]
      split
      · have : 0 ≤ 1 - Real.sin (x.getD 0 0 * e.get "x" / 2) ^ 2 := sub_nonneg.2 h.2
        have := h.1
        positivity
      · exact le_rfl
    · exact le_rfl
  prior_len r n := by
    simp only [precEnv, boxInit, RangesArg.table]
    simp [BoxDist.uniform, hw.uniform_len]
  canon_len l := rfl
  timestep_len r l e := rfl
  resampler_ok r w l w' l' := hw.resampler_ok _ r w l w' l'

theorem prec_static (world : EstWorld ω) (f0 f1 : ℝ) : Static (precEnv world f0 f1) :=
  fun _ _ _ => rfl

theorem default_thresh : eps ≤ defaultCfg.zeroThresh ∧ defaultCfg.zeroThresh < 1 := by
  constructor <;> norm_num [defaultCfg, zeroThreshOf, eps]

/-- The frequencies drawn from the prior of `simple_est_prec`. -/
noncomputable def precDraws (world : EstWorld ω) (freqMax : ℝ) (n : Nat) (seed : ω) : List ℝ :=
  (world.uniform seed n 1).1.map fun z => z.getD 0 0 * freqMax

theorem prec_locs (world : EstWorld ω) (hw : GoodWorld world) (f0 f1 : ℝ) (n : Nat) (seed : ω) :
    (construct defaultCfg (precEnv world f0 f1) n false seed).1.locs =
      (precDraws world f1 n seed).map fun x => [x] := by
  have : (construct defaultCfg (precEnv world f0 f1) n false seed).1.locs =
      ((precEnv world f0 f1).prior seed n).1 := rfl
  have h2 : ((precEnv world f0 f1).prior seed n).1 =
      (⟨[0], [f1 - 0]⟩ : BoxDist ℝ).uniform (world.uniform seed n 1).1 := rfl
  rw [this, h2]
  simp only [BoxDist.uniform, precDraws, List.map_map]
  apply List.map_congr_left
  intro z hz
  obtain ⟨hl, -⟩ := hw.uniform_row seed n 1 z hz
  obtain ⟨v, rfl⟩ := List.length_eq_one_iff.1 hl
  simp

/-- C82, part: from a table of counts, times and shots, `simple_est_prec` gives (as long as the updater has
not resampled) the posterior mean and variance of the frequency, where a count has probability
`sin² (x t / 2)` and the prior is the cloud of `n` draws, uniform between **zero** and `freq_max`.  A
plain table, a record array and a text file of at least two lines give the same.  Missing: the prior
should be uniform between `freq_min` and `freq_max`, see `C82_freq_min_ignored`, `C82_below_freq_min`. -/
theorem C82_precession_partial (world : EstWorld ω) (hw : GoodWorld world) (rows : List (Nat × ℝ × Nat))
    (data : DataArg ℝ) (hd : data = .array ⟨.plain 3, .vec (precTable rows)⟩ ∨
      data = .array ⟨.record ["counts", "t", "n_shots"], .vec (precTable rows)⟩ ∨
      (data = .text (precTable rows) ∧ rows.length ≠ 1))
    (freqMin freqMax : ℝ) (n : Nat) (hn : 0 < n) (seed : ω) (r : EstRet ℝ ℤ ω)
    (h : simpleEstPrec world data freqMin freqMax n true seed = .ok r) :
    ∃ mean var s, r = .scalar mean var (some s) ∧
      s.dataRecord = (rows.map fun q => (q.1 : ℤ)) ∧
      (s.resampleCount = 0 →
        let xs := precDraws world freqMax n seed;
        let L := precLike rows;
        mean = (xs.map fun x => L x * x).sum / (xs.map L).sum ∧
        var = (xs.map fun x => L x * (x * x)).sum / (xs.map L).sum - mean * mean) := by
  have hdata : simpleEstPrec world data freqMin freqMax n true seed =
      doUpdate defaultCfg (precEnv world freqMin freqMax) 1 n seed
        (.vec (rows.map fun r => (r.1 : ℤ))) (.vec (rows.map precExp)) true := by
    rcases hd with rfl | rfl | ⟨rfl, hne⟩
    · simp only [simpleEstPrec, loadData, bind, Except.bind, prec_data rows _ (Or.inl rfl)]
    · simp only [simpleEstPrec, loadData, bind, Except.bind, prec_data rows _ (Or.inr rfl)]
    · have hall : ((precTable rows).all fun l => l.length == ["counts", "t", "n_shots"].length) = true := by
        rw [List.all_eq_true]
        intro l hl
        obtain ⟨q, -, rfl⟩ := List.mem_map.1 hl
        rfl
      have hm : loadData (.text (precTable rows)) ["counts", "t", "n_shots"] =
          .ok ⟨.record ["counts", "t", "n_shots"], .vec (precTable rows)⟩ := by
        unfold loadData
        simp only [if_pos hall]
        clear hall h
        have : (precTable rows).length ≠ 1 := by simpa [precTable] using hne
        generalize precTable rows = ls at this ⊢
        rcases ls with _ | ⟨a, _ | ⟨b, ls⟩⟩
        · rfl
        · exact absurd rfl this
        · rfl
      simp only [simpleEstPrec, hm, bind, Except.bind, prec_data rows _ (Or.inr rfl)]
  rw [hdata] at h
  have hl : (rows.map precExp).length = (rows.map fun r => (r.1 : ℤ)).length := by simp
  obtain ⟨s, hf, h1, h2, h3⟩ := C82_estimates_are_posterior defaultCfg (precEnv world freqMin freqMax)
    (prec_good world hw _ _) (prec_static world _ _) rfl default_thresh.1 default_thresh.2 1 n hn seed
    _ _ hl true r h
  rcases r with ⟨mean, var, u⟩ | ⟨mean, cov, u⟩
  rotate_left
  · simp [EstRet.isScalar] at h1
  simp only [EstRet.extra, if_true] at h2
  subst h2
  refine ⟨mean, var, s, rfl, ?_, fun hc => ?_⟩
  · have hrec : ∀ (ds : List (ℤ × ExpVal ℝ)) (s t : Smc ℝ ℤ ω),
        feed defaultCfg (precEnv world freqMin freqMax) true ds s = (t, .ok ()) →
        t.dataRecord = s.dataRecord ++ ds.map Prod.fst := by
      intro ds
      induction ds with
      | nil => intro s t h; cases h; simp
      | cons d ds ih =>
        intro s t h
        rw [feed] at h
        rcases heq : update defaultCfg (precEnv world freqMin freqMax) s d.1 d.2 true with
          ⟨u, err | ⟨⟨⟩⟩⟩
        · rw [heq] at h; cases h
        rw [heq] at h
        have hu := update_data defaultCfg (precEnv world freqMin freqMax) s d.1 d.2 true
        rw [heq] at hu
        rw [ih u t h, hu]
        simp
    have := hrec _ _ _ hf
    rw [this, show (construct defaultCfg (precEnv world freqMin freqMax) n false seed).1.dataRecord = []
      from rfl, List.nil_append, List.map_fst_zip (by simp)]
  · obtain ⟨a, b⟩ := h3 hc
    have hpm : ∀ f : List ℝ → ℝ, Spec.postMean (precEnv world freqMin freqMax).likelihood
        (construct defaultCfg (precEnv world freqMin freqMax) n false seed).1.locs
        ((rows.map fun r => (r.1 : ℤ)).zip (rows.map precExp)) f =
        ((precDraws world freqMax n seed).map fun x => precLike rows x * f [x]).sum /
          ((precDraws world freqMax n seed).map (precLike rows)).sum := by
      intro f
      rw [Spec.postMean, prec_locs world hw, List.map_map, List.map_map]
      simp only [Function.comp_def, prec_dataLike]
      rfl
    have a0 := a 0 (by norm_num)
    have b0 := b 0 (by norm_num) 0 (by norm_num)
    rw [hpm] at a0
    rw [hpm, hpm] at b0
    simp only [EstRet.meanAt, EstRet.covAt, List.getD_cons_zero] at a0 b0
    exact ⟨a0, by rw [b0, ← a0]⟩

/-- C82: without resampling the estimate lies between zero and `freq_max`. -/
theorem C82_precession_range (world : EstWorld ω) (hw : GoodWorld world) (freqMax : ℝ)
    (hf : 0 < freqMax) (n : Nat) (seed : ω) :
    (precDraws world freqMax n seed).length = n ∧
    ∀ x ∈ precDraws world freqMax n seed, 0 ≤ x ∧ x < freqMax := by
  refine ⟨by simp [precDraws, hw.uniform_len], fun x hx => ?_⟩
  obtain ⟨z, hz, rfl⟩ := List.mem_map.1 hx
  obtain ⟨hl, hv⟩ := hw.uniform_row seed n 1 z hz
  obtain ⟨v, rfl⟩ := List.length_eq_one_iff.1 hl
  have := hv v (by simp)
  simp only [List.getD_cons_zero]
  exact ⟨mul_nonneg this.1 hf.le, by nlinarith [this.2]⟩

/-- C82, finding: `freq_min` enters neither the prior nor the likelihood.  As long as the updater does
not resample, the result is the same for every `freq_min`. -/
theorem C82_freq_min_ignored (world : EstWorld ω) (data : DataArg ℝ) (f f' freqMax : ℝ) (n : Nat)
    (seed : ω) (mean var : ℝ) (s : Smc ℝ ℤ ω) (hs : s.resampleCount = 0)
    (h : simpleEstPrec world data f freqMax n true seed = .ok (.scalar mean var (some s))) :
    simpleEstPrec world data f' freqMax n true seed = .ok (.scalar mean var (some s)) := by
  rw [simpleEstPrec] at h ⊢
  rcases hl : loadData data ["counts", "t", "n_shots"] with err | d
  · rw [hl] at h; cases h
  rw [hl] at h
  simp only [bind, Except.bind] at h ⊢
  rcases hp : dataToParams d (.fields precFields) (0, "counts")
    (.dict [("x", (1, "t")), ("n_meas", (2, "n_shots"))]) with err | ⟨os, es⟩
  · rw [hp] at h; cases h
  rw [hp] at h
  simp only at h ⊢
  have hc : construct defaultCfg (precEnv world f' freqMax) n false seed =
    construct defaultCfg (precEnv world f freqMax) n false seed := rfl
  have henv : precEnv world f' freqMax = { precEnv world f freqMax with
    resampler := (precEnv world f' freqMax).resampler } := rfl
  rcases os with o | os
  · rw [doUpdate, show construct defaultCfg (precEnv world f freqMax) n false seed =
      ((construct defaultCfg (precEnv world f freqMax) n false seed).1, .ok ()) from rfl] at h
    cases h
  rcases es with e | es
  · rw [doUpdate, show construct defaultCfg (precEnv world f freqMax) n false seed =
      ((construct defaultCfg (precEnv world f freqMax) n false seed).1, .ok ()) from rfl] at h
    cases h
  by_cases hlen : es.length = os.length
  · rw [doUpdate_eq defaultCfg _ (by decide) 1 n seed os es hlen true] at h ⊢
    rw [hc]
    rcases hf : feed defaultCfg (precEnv world f freqMax) true (os.zip es)
      (construct defaultCfg (precEnv world f freqMax) n false seed).1 with ⟨t, err | ⟨⟨⟩⟩⟩
    · rw [hf] at h; cases h
    rw [hf] at h
    simp only [if_true, Except.ok.injEq, EstRet.scalar.injEq, Option.some.injEq] at h
    have hts : t = s := h.2.2
    rw [henv, feed_resampler_irrelevant defaultCfg (precEnv world f freqMax) _ (by decide) _ _ t hf
      (by rw [hts, hs]; rfl)]
    simp only [if_true]
    rw [h.1, h.2.1, hts]
  · have := (C82_shape_errors defaultCfg (precEnv world f freqMax) 1 n seed true os es hlen
      (0 : ℤ) (.num none)).1
    rw [this] at h; cases h

/-- A world whose uniform variates all vanish. -/
noncomputable def zeroWorld : EstWorld Unit where
  uniform r n k := (List.replicate n (List.replicate k 0), r)
  resampler _ r w l := (.ok (w, l), r)
  kl _ _ _ _ := 0

theorem zeroWorld_good : GoodWorld zeroWorld where
  uniform_len r n k := by simp [zeroWorld]
  uniform_row r n k z hz := by
    have := List.eq_of_mem_replicate hz
    subst this
    refine ⟨by simp, fun v hv => ?_⟩
    rw [List.eq_of_mem_replicate hv]
    norm_num
  resampler_ok valid r w l w' l' hw hl h := by
    simp only [zeroWorld, Except.ok.injEq, Prod.mk.injEq] at h
    obtain ⟨rfl, rfl⟩ := h
    exact ⟨hw, hl⟩

/-- C82, finding: the estimate can be below `freq_min`, whatever `freq_min > 0` is. -/
theorem C82_below_freq_min (freqMin freqMax : ℝ) (h0 : 0 < freqMin) (n : Nat) (hn : 0 < n) :
    ∃ (mean var : ℝ) (s : Smc ℝ ℤ Unit), s.resampleCount = 0 ∧ mean < freqMin ∧
      simpleEstPrec zeroWorld (.array ⟨.plain 3, .vec (precTable [(0, 1, 1)])⟩) freqMin freqMax n true ()
        = .ok (.scalar mean var (some s)) := by
  set env := precEnv zeroWorld freqMin freqMax with henv
  set s0 := (construct defaultCfg env n false ()).1 with hs0
  have hinit : s0.weights = List.replicate n (1 / (n : ℝ)) := by
    have : s0.weights = List.replicate (List.replicate n (0 : Nat)).length (1 / (n : ℝ)) := by
      simp only [List.length_replicate]; rfl
    simpa using this
  have hlocs : s0.locs = List.replicate n [0] := by
    rw [hs0, prec_locs zeroWorld zeroWorld_good]
    simp [precDraws, zeroWorld]
  obtain ⟨o, ho⟩ : ∃ o : ℤ, o = ((0 : Nat) : ℤ) := ⟨_, rfl⟩
  obtain ⟨e, he⟩ : ∃ e : ExpVal ℝ, e = precExp (0, 1, 1) := ⟨_, rfl⟩
  have hlike : env.likelihood o [0] e = 1 := by
    rw [henv, ho, he, prec_likelihood zeroWorld freqMin freqMax (0, 1, 1) [0]]
    simp
  have hlen : s0.locs.length = s0.weights.length := by simp [hlocs, hinit]
  have hn' : (n : ℝ) ≠ 0 := by positivity
  have hw0 : ∀ x ∈ s0.weights, 0 ≤ x := by
    intro x hx
    rw [hinit] at hx
    rw [List.eq_of_mem_replicate hx]; positivity
  have hev : evidence env.likelihood s0.weights s0.locs o e = 1 := by
    simp [evidence, hinit, hlocs, hn', hlike]
  have hpost : posterior env.likelihood s0.weights s0.locs o e =
      s0.weights := by
    rw [posterior, hev, hinit, hlocs]
    simp [hlike]
  have heps : (eps : ℝ) ≤ evidence env.likelihood s0.weights s0.locs o
      e := by rw [hev]; norm_num [eps]
  have hg := prec_good zeroWorld zeroWorld_good freqMin freqMax
  obtain ⟨-, hno⟩ := C08_resample_iff defaultCfg env hg default_thresh.2 s0 hlen hw0 o e true heps
  have hess : ((posterior env.likelihood s0.weights s0.locs o
      e).map fun x => x ^ 2).sum = (1 / n : ℝ) := by
    rw [hpost, hinit]
    simp
    field_simp
  have hnlow : ¬ (true = true ∧ 1 / ((posterior env.likelihood s0.weights s0.locs o
      e).map fun x => x ^ 2).sum < (s0.locs.length : ℝ) * defaultCfg.resampleThresh) := by
    rw [hess, hlocs]
    simp only [defaultCfg, List.length_replicate]
    have : (0 : ℝ) < n := by positivity
    rw [one_div_one_div]
    intro h
    linarith [h.2]
  obtain ⟨hc, -, hwt⟩ := hno hnlow
  have hd := datum_normal defaultCfg env s0 o e hlen hw0 (fun x => hg.like_nonneg o x e)
    default_thresh.2 heps
  have hup := update_normal defaultCfg env s0 o e true hlen hw0 (fun x => hg.like_nonneg o x e)
    default_thresh.2 heps
  have hup' := update_normal defaultCfg env s0 o e false hlen hw0 (fun x => hg.like_nonneg o x e)
    default_thresh.2 heps
  rw [finishUpdate_true _ _ _ _ _ _ (by rw [hpost]; rfl), ← hup'] at hup
  obtain ⟨-, hd2, hd3, -, -, -, hd7, -, -, -⟩ := hd
  have hm := maybeResample_count defaultCfg env (update defaultCfg env s0 o
    e false).1
  rw [← hup] at hm
  rcases hm with ⟨-, hm, -⟩ | ⟨-, -, -, hmw, hml, -, hok⟩
  · rw [hc, hd7] at hm; omega
  set t := update defaultCfg env s0 o e true with ht
  have htl : t.1.locs = List.replicate n [0] := by rw [hml, hd3]; exact hlocs
  have htw : t.1.weights = List.replicate n (1 / (n : ℝ)) := by rw [hwt, hpost, hinit]
  refine ⟨0, ((smcCov 1 t.1.weights t.1.locs).getD 0 []).getD 0 0, t.1, ?_, h0, ?_⟩
  · rw [hc]; rfl
  · have hf : feed defaultCfg env true ([o].zip [e]) s0 = (t.1, .ok ()) := by
      simp only [List.zip_cons_cons, List.zip_nil_right, feed, ← ht]
      have : t = (t.1, .ok ()) := Prod.ext rfl hok
      rw [this]
    have hpd := prec_data [(0, 1, 1)] (.plain 3) (Or.inl rfl)
    simp only [List.map_cons, List.map_nil, ← ho, ← he] at hpd
    rw [simpleEstPrec]
    simp only [loadData, bind, Except.bind]
    rw [hpd]
    simp only
    rw [doUpdate_eq defaultCfg _ (by decide) 1 n () _ _ (by simp) true, ← henv, ← hs0, hf]
    have hmean : (smcMean 1 t.1.weights t.1.locs).getD 0 0 = 0 := by
      simp [smcMean, htl, htw, List.zipWith_replicate]
    simp only [if_true, hmean]

/-- C82, finding: a text file with a single line cannot be used: `np.loadtxt` returns an array without
an axis, and `batch_update` raises `IndexError`. -/
theorem C82_one_line (world : EstWorld ω) (line : List ℝ) (hl : line.length = 3)
    (freqMin freqMax : ℝ) (n : Nat) (ra : Bool) (seed : ω) :
    simpleEstPrec world (.text [line]) freqMin freqMax n ra seed = .error .indexError := by
  have c0 : colIdx (.record ["counts", "t", "n_shots"]) (0, "counts") = .ok 0 := rfl
  have c1 : colIdx (.record ["counts", "t", "n_shots"]) (1, "t") = .ok 1 := rfl
  have c2 : colIdx (.record ["counts", "t", "n_shots"]) (2, "n_shots") = .ok 2 := rfl
  have l1 : precFields.lookup "x" = some .flt := rfl
  have l2 : precFields.lookup "n_meas" = some .int := rfl
  rw [simpleEstPrec, loadData]
  simp only [List.all_cons, hl, List.length_cons, List.length_nil, List.all_nil, bind, Except.bind]
  rw [if_pos (by decide)]
  simp only [dataToParams, c0, bind, Except.bind, fillFields, c1, c2, l1, l2, column, Arr01.map,
    Arr01.setField, pure, Except.pure]
  exact (C82_shape_errors defaultCfg (precEnv world freqMin freqMax) 1 n seed ra [] [.num none]
    (by simp) _ _).2

/-- C82: text in which some line does not have three entries, and anything that is neither an array nor
text, is rejected and nothing is estimated. -/
theorem C82_malformed_data (world : EstWorld ω) (lines : List (List ℝ)) (l : List ℝ) (hm : l ∈ lines)
    (hl : l.length ≠ 3) (freqMin freqMax : ℝ) (n : Nat) (ra : Bool) (seed : ω) :
    simpleEstPrec world (.text lines) freqMin freqMax n ra seed = .error .valueError ∧
    simpleEstPrec world .other freqMin freqMax n ra seed = .error .typeError := by
  refine ⟨?_, rfl⟩
  have h : ¬ (lines.all fun l => l.length == ["counts", "t", "n_shots"].length) = true := by
    intro h
    have := List.all_eq_true.1 h l hm
    simp at this
    exact hl this
  have hld : loadData (.text lines) ["counts", "t", "n_shots"] = .error .valueError := if_neg h
  rw [simpleEstPrec, hld]
  rfl

/-- C82: every particle that the prior of `simple_est_rb` yields is a valid model whose decay
parameters lie in the range given, and whose `A`, `B` lie in `[0, 1)`. -/
theorem C82_rb_prior (world : EstWorld ω) (hw : GoodWorld world) (il : Bool) (pMin pMax : ℝ)
    (hp : pMin < pMax) (maxiters n : Nat) (seed : ω) (rows : List (Option (List ℝ)))
    (h : (rbPrior world il pMin pMax maxiters seed n).1 = .ok rows) :
    ∃ xs : List (List ℝ), rows = xs.map some ∧ xs.length = n ∧ ∀ x ∈ xs,
      x.length = (if il then 4 else 3) ∧ (pMin ≤ x.getD 0 0 ∧ x.getD 0 0 < pMax) ∧
      (if il then (pMin ≤ x.getD 1 0 ∧ x.getD 1 0 < pMax) ∧
          rbValidIl (x.getD 0 0) (x.getD 1 0) (x.getD 2 0) (x.getD 3 0) = true
        else rbValid (x.getD 0 0) (x.getD 1 0) (x.getD 2 0) = true) := by
  have hbox : ∀ (z : List ℝ), ∀ r ∈ z, True := fun _ _ _ => trivial
  have haff : ∀ v : ℝ, 0 ≤ v → v < 1 → pMin ≤ pMin + v * (pMax - pMin) ∧
      pMin + v * (pMax - pMin) < pMax := by
    intro v h0 h1
    constructor <;> nlinarith
  cases il with
  | false =>
    have hb : boxInit (.mat 2 [[pMin, pMax], [0, 1], [0, 1]]) =
        .ok (⟨[pMin, 0, 0], [pMax - pMin, 1 - 0, 1 - 0]⟩ : BoxDist ℝ) := rfl
    simp only [rbPrior, Bool.false_eq_true, if_false, hb] at h
    obtain ⟨xs, h1, h2, h3⟩ := C21_samples_valid _ _ (by
      intro r m; simp [BoxDist.uniform, hw.uniform_len]) maxiters n seed rows h
    refine ⟨xs, h1, h2, fun x hx => ?_⟩
    obtain ⟨hv, r, m, hm⟩ := h3 x hx
    simp only [BoxDist.uniform, List.mem_map] at hm
    obtain ⟨z, hz, rfl⟩ := hm
    obtain ⟨hl, hz1⟩ := hw.uniform_row _ _ _ z hz
    obtain ⟨a, b, c, rfl⟩ := List.length_eq_three.1 hl
    have ha := hz1 a (by simp)
    refine ⟨by simp, ?_, ?_⟩
    · simpa using haff a ha.1 ha.2
    · simpa using hv
  | true =>
    have hb : boxInit (.mat 2 [[pMin, pMax], [pMin, pMax], [0, 1], [0, 1]]) =
        .ok (⟨[pMin, pMin, 0, 0], [pMax - pMin, pMax - pMin, 1 - 0, 1 - 0]⟩ : BoxDist ℝ) := rfl
    simp only [rbPrior, if_true, hb] at h
    obtain ⟨xs, h1, h2, h3⟩ := C21_samples_valid _ _ (by
      intro r m; simp [BoxDist.uniform, hw.uniform_len]) maxiters n seed rows h
    refine ⟨xs, h1, h2, fun x hx => ?_⟩
    obtain ⟨hv, r, m, hm⟩ := h3 x hx
    simp only [BoxDist.uniform, List.mem_map] at hm
    obtain ⟨z, hz, rfl⟩ := hm
    obtain ⟨hl, hz1⟩ := hw.uniform_row _ _ _ z hz
    rcases z with _ | ⟨a, _ | ⟨b, _ | ⟨c, _ | ⟨d, _ | ⟨e, z⟩⟩⟩⟩⟩ <;> simp at hl
    have ha := hz1 a (by simp)
    have hb := hz1 b (by simp)
    refine ⟨by simp, ?_, ?_⟩
    · simpa using haff a ha.1 ha.2
    · simp only [if_true]
      exact ⟨by simpa using haff b hb.1 hb.2, by simpa using hv⟩

end QInfer
