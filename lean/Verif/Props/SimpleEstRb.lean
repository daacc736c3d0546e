import Verif.Props.EstResample

/-!
# C126: `simple_est_rb` from the table to the estimate
-/

set_option linter.unusedSectionVars false

namespace QInfer

open Spec

variable {ω : Type}

/-- A row of benchmarking data: surviving sequences, sequence length, number of sequences, and whether
the sequences are reference sequences. -/
structure Spec.RbRow where
  counts : Nat
  m : Nat
  shots : Nat
  reference : Bool

/-- The table of the rows; the last column is left out without interleaving. -/
def Spec.rbTable (il : Bool) (rows : List RbRow) : List (List ℝ) :=
  rows.map fun r => [(r.counts : ℝ), r.m, r.shots] ++
    if il then [if r.reference then 1 else 0] else []

/-- Names of the columns. -/
def Spec.rbColumns (il : Bool) : List String :=
  ["counts", "m", "n_shots"] ++ if il then ["reference"] else []

/-- Probability that a sequence of the row survives under the model vector `x`: `A p ^ m + B` with
`x = (p, A, B)`; with interleaving `x = (p̃, p, A, B)` and sequences that are not reference sequences
decay with `p̃ p`. -/
noncomputable def Spec.survival (il : Bool) (x : List ℝ) (r : RbRow) : ℝ :=
  match il, x with
  | false, [p, A, B] => A * p ^ r.m + B
  | true, [pt, p, A, B] => A * (if r.reference then p else pt * p) ^ r.m + B
  | _, _ => 0

/-- Likelihood of all rows: independent binomial experiments. -/
noncomputable def Spec.rbLike (il : Bool) (rows : List RbRow) (x : List ℝ) : ℝ :=
  (rows.map fun r => (r.shots.choose r.counts : ℝ) * survival il x r ^ r.counts *
    (1 - survival il x r) ^ (r.shots - r.counts)).prod

/-- Valid model vectors. -/
def Spec.RbValid (il : Bool) (x : List ℝ) : Prop :=
  match il, x with
  | false, [p, A, B] => 0 ≤ p ∧ p ≤ 1 ∧ 0 ≤ A ∧ 0 ≤ B ∧ A + B ≤ 1
  | true, [pt, p, A, B] => 0 ≤ pt ∧ pt ≤ 1 ∧ 0 ≤ p ∧ p ≤ 1 ∧ 0 ≤ A ∧ 0 ≤ B ∧ A + B ≤ 1
  | _, _ => False

/-- The experiment described by a row. -/
noncomputable def rbExp (il : Bool) (r : RbRow) : ExpVal ℝ :=
  .record ([("m", some (r.m : ℝ))] ++
    (if il then [("reference", some (if r.reference then 1 else 0))] else []) ++
    [("n_meas", some (r.shots : ℝ))])

theorem rb_data (il : Bool) (rows : List RbRow) (l : Layout)
    (h : l = .plain (if il then 4 else 3) ∨ l = .record (rbColumns il)) :
    dataToParams ⟨l, .vec (rbTable il rows)⟩ (.fields (rbFields il)) (0, "counts")
      (.dict ([("m", (1, "m")), ("n_meas", (2, "n_shots"))] ++
        if il then [("reference", (3, "reference"))] else [])) =
    .ok (.vec (rows.map fun r => (r.counts : ℤ)), .vec (rows.map (rbExp il))) := by
  have c0 : colIdx l (0, "counts") = .ok 0 := by cases il <;> rcases h with rfl | rfl <;> rfl
  have c1 : colIdx l (1, "m") = .ok 1 := by cases il <;> rcases h with rfl | rfl <;> rfl
  have c2 : colIdx l (2, "n_shots") = .ok 2 := by cases il <;> rcases h with rfl | rfl <;> rfl
  have l1 : (rbFields il).lookup "m" = some .int := by cases il <;> rfl
  have l2 : (rbFields il).lookup "n_meas" = some .int := by cases il <;> rfl
  cases il with
  | false =>
    rw [dataToParams]
    simp only [c0, bind, Except.bind, Bool.false_eq_true, if_false, List.append_nil, fillFields, c1, c2, l1, l2,
      column, Arr01.map, Arr01.setField,
      pure, Except.pure, Except.ok.injEq, Prod.mk.injEq, Arr01.vec.injEq]
    constructor
    · simp only [rbTable, List.map_map]
      apply List.map_congr_left
      intro r _
      exact trunc_natCast r.counts
    · simp only [rbTable, List.map_map, List.zipWith_map]
      rw [List.zipWith_self, List.zipWith_map_right, List.zipWith_map_left, List.zipWith_self]
      apply List.map_congr_left
      intro r _
      simp [Function.comp, rbFields, ExpVal.setField, rbExp, FieldTy.cast, trunc_natCast]
  | true =>
    have c3 : colIdx l (3, "reference") = .ok 3 := by rcases h with rfl | rfl <;> rfl
    have l3 : (rbFields true).lookup "reference" = some .bool := rfl
    rw [dataToParams]
    simp only [c0, bind, Except.bind, if_true, List.cons_append, List.nil_append, fillFields, c1, c2, c3, l1, l2,
      l3, column, Arr01.map, Arr01.setField,
      pure, Except.pure, Except.ok.injEq, Prod.mk.injEq, Arr01.vec.injEq]
    constructor
    · simp only [rbTable, List.map_map]
      apply List.map_congr_left
      intro r _
      exact trunc_natCast r.counts
    · simp only [rbTable, List.map_map, List.zipWith_map]
      simp only [List.zipWith_self, List.zipWith_map_right, List.zipWith_map_left]
      apply List.map_congr_left
      intro r _
      obtain ⟨c, m, s, b⟩ := r
      simp only [Function.comp, rbFields, ExpVal.setField, rbExp, FieldTy.cast, trunc_natCast]
      cases b <;> simp [trunc_natCast]

/-- What `are_models_valid` tests. -/
theorem rbValid_iff (p A B : ℝ) : rbValid p A B = true ↔ RbValid false [p, A, B] := by
  simp only [rbValid, RbValid, Bool.and_eq_true, decide_eq_true_eq]
  constructor
  · rintro ⟨⟨⟨⟨⟨⟨⟨h1, h2⟩, h3⟩, h4⟩, h5⟩, h6⟩, h7⟩, h8⟩
    exact ⟨h1, h2, h3, h5, h7⟩
  · rintro ⟨h1, h2, h3, h4, h5⟩
    exact ⟨⟨⟨⟨⟨⟨⟨h1, h2⟩, h3⟩, by linarith⟩, h4⟩, by linarith⟩, h5⟩, by nlinarith⟩

theorem rbValidIl_iff (pt p A B : ℝ) : rbValidIl pt p A B = true ↔ RbValid true [pt, p, A, B] := by
  simp only [rbValidIl, RbValid, Bool.and_eq_true, decide_eq_true_eq]
  constructor
  · rintro ⟨⟨⟨⟨⟨⟨⟨⟨⟨⟨h1, h2⟩, h1'⟩, h2'⟩, h3⟩, h4⟩, h5⟩, h6⟩, h7⟩, h8⟩, h9⟩
    exact ⟨h1', h2', h1, h2, h3, h5, h7⟩
  · rintro ⟨h1', h2', h1, h2, h3, h5, h7⟩
    exact ⟨⟨⟨⟨⟨⟨⟨⟨⟨⟨h1, h2⟩, h1'⟩, h2'⟩, h3⟩, by linarith⟩, h5⟩, by linarith⟩, h7⟩, by nlinarith⟩,
      by nlinarith⟩

theorem survival_mem (il : Bool) (x : List ℝ) (hx : RbValid il x) (r : RbRow) :
    0 ≤ survival il x r ∧ survival il x r ≤ 1 := by
  have key : ∀ q A B : ℝ, 0 ≤ q → q ≤ 1 → 0 ≤ A → 0 ≤ B → A + B ≤ 1 →
      0 ≤ A * q ^ r.m + B ∧ A * q ^ r.m + B ≤ 1 := by
    intro q A B h1 h2 h3 h4 h5
    have a := pow_nonneg h1 r.m
    have b := pow_le_one₀ (n := r.m) h1 h2
    constructor
    · positivity
    · nlinarith
  cases il with
  | false =>
    rcases x with _ | ⟨p, _ | ⟨A, _ | ⟨B, _ | ⟨c, x⟩⟩⟩⟩ <;> try exact hx.elim
    obtain ⟨h1, h2, h3, h4, h5⟩ := hx
    exact key p A B h1 h2 h3 h4 h5
  | true =>
    rcases x with _ | ⟨pt, _ | ⟨p, _ | ⟨A, _ | ⟨B, _ | ⟨c, x⟩⟩⟩⟩⟩ <;> try exact hx.elim
    obtain ⟨h1, h2, h1', h2', h3, h4, h5⟩ := hx
    refine key _ A B ?_ ?_ h3 h4 h5 <;> split
    · exact h1'
    · positivity
    · exact h2'
    · exact mul_le_one₀ h2 h1' h2'

theorem rb_pr1 (il : Bool) (x : List ℝ) (hx : RbValid il x) (r : RbRow) :
    rbPr1 il x (rbExp il r) = survival il x r := by
  cases il with
  | false =>
    rcases x with _ | ⟨p, _ | ⟨A, _ | ⟨B, _ | ⟨c, x⟩⟩⟩⟩ <;> try exact hx.elim
    have h1 : (rbExp false r).get "m" = (r.m : ℝ) := rfl
    simp only [rbPr1, h1, trunc_natCast, Int.toNat_natCast, survival]
    simp [twoOutcome, rbPr0]
  | true =>
    rcases x with _ | ⟨pt, _ | ⟨p, _ | ⟨A, _ | ⟨B, _ | ⟨c, x⟩⟩⟩⟩⟩ <;> try exact hx.elim
    have h1 : (rbExp true r).get "m" = (r.m : ℝ) := rfl
    have h2 : (rbExp true r).get "reference" = if r.reference then 1 else 0 := rfl
    simp only [rbPr1, h1, h2, trunc_natCast, Int.toNat_natCast, survival]
    cases r.reference <;> simp [twoOutcome, rbPr0Il]

theorem rb_likelihood (world : EstWorld ω) (il : Bool) (draws : List (List ℝ)) (x : List ℝ)
    (hx : RbValid il x) (r : RbRow) :
    (rbEnv world il draws).likelihood (r.counts : ℤ) x (rbExp il r) =
      (r.shots.choose r.counts : ℝ) * survival il x r ^ r.counts *
        (1 - survival il x r) ^ (r.shots - r.counts) := by
  have h1 : (rbExp il r).get "n_meas" = (r.shots : ℝ) := by cases il <;> rfl
  simp only [rbEnv, h1, trunc_natCast, rb_pr1 il x hx, Int.toNat_natCast]
  rw [binomialPdf_some _ _ _ (survival_mem il x hx r), Option.getD_some]
  split
  · rfl
  · rename_i h
    rw [Nat.choose_eq_zero_of_lt (by omega)]
    simp

theorem rb_dataLike (world : EstWorld ω) (il : Bool) (draws : List (List ℝ)) (rows : List RbRow)
    (x : List ℝ) (hx : RbValid il x) :
    dataLike (rbEnv world il draws).likelihood
      ((rows.map fun r => (r.counts : ℤ)).zip (rows.map (rbExp il))) x = rbLike il rows x := by
  rw [dataLike, rbLike, List.zip_map', List.map_map]
  congr 1
  apply List.map_congr_left
  intro r _
  exact rb_likelihood world il draws x hx r

theorem rb_good (world : EstWorld ω) (hw : GoodWorld world) (il : Bool) (draws : List (List ℝ)) :
    GoodEnv (rbEnv world il draws) where
  like_nonneg o x e := by
    simp only [rbEnv, binomialPdf]
    split
    · rename_i h
      rw [Option.getD_some]
      split
      · have := h.1
        have := sub_nonneg.2 h.2
        positivity
      · exact le_rfl
    · exact le_rfl
  prior_len r n := by
    simp only [rbEnv]
    split
    · assumption
    · simp
  canon_len l := rfl
  timestep_len r l e := rfl
  resampler_ok r w l w' l' := hw.resampler_ok _ r w l w' l'

theorem rb_static (world : EstWorld ω) (il : Bool) (draws : List (List ℝ)) :
    Static (rbEnv world il draws) := fun _ _ _ => rfl

/-- What may be passed as data: a table, a record array, or a text file of other than one line. -/
def Spec.RbData (il : Bool) (rows : List RbRow) (data : DataArg ℝ) : Prop :=
  data = .array ⟨.plain (if il then 4 else 3), .vec (rbTable il rows)⟩ ∨
  data = .array ⟨.record (rbColumns il), .vec (rbTable il rows)⟩ ∨
  (data = .text (rbTable il rows) ∧ rows.length ≠ 1)

theorem rb_eq (world : EstWorld ω) (il : Bool) (rows : List RbRow) (data : DataArg ℝ)
    (hd : RbData il rows data) (pMin pMax : ℝ) (n : Nat) (ra : Bool) (seed : ω) :
    simpleEstRb world data il pMin pMax n ra seed =
      match rbPrior world il pMin pMax 100 seed n with
      | (.error err, _) => .error err
      | (.ok draws, seed) => doUpdate defaultCfg (rbEnv world il (draws.map fun x => x.getD []))
          (if il then 4 else 3) n seed (.vec (rows.map fun r => (r.counts : ℤ)))
          (.vec (rows.map (rbExp il))) ra := by
  have hload : ∃ l, loadData data (rbColumns il) = .ok ⟨l, .vec (rbTable il rows)⟩ ∧
      (l = .plain (if il then 4 else 3) ∨ l = .record (rbColumns il)) := by
    rcases hd with rfl | rfl | ⟨rfl, hne⟩
    · exact ⟨_, rfl, Or.inl rfl⟩
    · exact ⟨_, rfl, Or.inr rfl⟩
    · refine ⟨_, ?_, Or.inr rfl⟩
      have hall : ((rbTable il rows).all fun l => l.length == (rbColumns il).length) = true := by
        rw [List.all_eq_true]
        intro l hl
        obtain ⟨q, -, rfl⟩ := List.mem_map.1 hl
        cases il <;> rfl
      unfold loadData
      simp only [if_pos hall]
      have : (rbTable il rows).length ≠ 1 := by simpa [rbTable] using hne
      clear hall
      generalize rbTable il rows = ls at this ⊢
      rcases ls with _ | ⟨a, _ | ⟨b, ls⟩⟩
      · rfl
      · exact absurd rfl this
      · rfl
  obtain ⟨l, h1, h2⟩ := hload
  rw [rbColumns] at h1
  simp only [simpleEstRb, bind, Except.bind]
  rw [h1]
  simp only
  rw [rb_data il rows l h2]
  rfl

/-- What a run of `simple_est_rb` that succeeds consists of. -/
theorem rb_run (world : EstWorld ω) (hw : GoodWorld world) (il : Bool) (rows : List RbRow)
    (data : DataArg ℝ) (hd : RbData il rows data) (pMin pMax : ℝ) (hp : pMin < pMax) (n : Nat)
    (hn : 0 < n) (seed : ω) (r : EstRet ℝ ℤ ω)
    (h : simpleEstRb world data il pMin pMax n true seed = .ok r) :
    ∃ xs : List (List ℝ), ∃ seed',
      rbPrior world il pMin pMax 100 seed n = (.ok (xs.map some), seed') ∧
      xs.length = n ∧ (∀ x ∈ xs, RbValid il x ∧ (pMin ≤ x.getD 0 0 ∧ x.getD 0 0 < pMax) ∧
        (il = true → pMin ≤ x.getD 1 0 ∧ x.getD 1 0 < pMax)) ∧
      doUpdate defaultCfg (rbEnv world il xs) (if il then 4 else 3) n seed'
        (.vec (rows.map fun r => (r.counts : ℤ))) (.vec (rows.map (rbExp il))) true = .ok r := by
  rw [rb_eq world il rows data hd] at h
  rcases hpr : rbPrior world il pMin pMax 100 seed n with ⟨err | draws, seed'⟩
  · rw [hpr] at h; cases h
  rw [hpr] at h
  obtain ⟨xs, h1, h2, h3⟩ := C82_rb_prior world hw il pMin pMax hp 100 n seed draws (by rw [hpr])
  subst h1
  refine ⟨xs, seed', rfl, h2, fun x hx => ?_, ?_⟩
  · obtain ⟨a, b, c⟩ := h3 x hx
    cases il with
    | false =>
      obtain ⟨p, A, B, rfl⟩ := List.length_eq_three.1 a
      exact ⟨(rbValid_iff p A B).1 c, b, by simp⟩
    | true =>
      rcases x with _ | ⟨pt, _ | ⟨p, _ | ⟨A, _ | ⟨B, _ | ⟨e, z⟩⟩⟩⟩⟩ <;> simp at a
      exact ⟨(rbValidIl_iff pt p A B).1 c.2, b, fun _ => c.1⟩
  · have : (xs.map some).map (fun x => x.getD []) = xs := by simp [List.map_map, Function.comp_def]
    dsimp only at h
    rwa [this] at h

/-- Every datum adds one entry to the record. -/
theorem feed_record {O E : Type} (cfg : SmcConfig ℝ) (env : Env ℝ O E ω) :
    ∀ (ds : List (O × E)) (s t : Smc ℝ O ω), feed cfg env true ds s = (t, .ok ()) →
      t.dataRecord = s.dataRecord ++ ds.map Prod.fst := by
  intro ds
  induction ds with
  | nil => intro s t h; cases h; simp
  | cons d ds ih =>
    intro s t h
    rw [feed] at h
    rcases heq : update cfg env s d.1 d.2 true with ⟨u, err | ⟨⟨⟩⟩⟩
    · rw [heq] at h; cases h
    rw [heq] at h
    have hu := update_data cfg env s d.1 d.2 true
    rw [heq] at hu
    rw [ih u t h, hu]
    simp

theorem rb_zip (xs : List (List ℝ)) (n : Nat) (h : xs.length = n) (f : ℝ × List ℝ → ℝ) :
    ((List.replicate n (1 / (n : ℝ))).zip xs).map f = xs.map fun x => f (1 / n, x) := by
  subst h
  have : List.replicate xs.length (1 / (xs.length : ℝ)) = xs.map fun _ => 1 / (xs.length : ℝ) := by
    rw [List.map_const']
  rw [this]
  generalize 1 / (xs.length : ℝ) = c
  clear this
  induction xs with
  | nil => rfl
  | cons x xs ih => simp only [List.map_cons, List.zip_cons_cons, ih]

/-- **C126.**  From a table of benchmarking data (plain, record array or text file), `simple_est_rb`
returns a vector and a matrix.  The prior cloud consists of `n` valid model vectors in the range that was
asked for; every row is used, once and in order.  As long as the updater has not resampled, the vector
is the posterior mean and the matrix the posterior covariance, where each row is a binomial experiment
with survival probability `A p ^ m + B` (`A (p̃ p) ^ m + B` for interleaved rows).  The updater
has resampled exactly if after some number of rows the effective sample size was below `n / 2`. -/
theorem C126_posterior (world : EstWorld ω) (hw : GoodWorld world) (il : Bool) (rows : List RbRow)
    (data : DataArg ℝ) (hd : RbData il rows data) (pMin pMax : ℝ) (hp : pMin < pMax) (n : Nat)
    (hn : 0 < n) (seed : ω) (r : EstRet ℝ ℤ ω)
    (h : simpleEstRb world data il pMin pMax n true seed = .ok r) :
    ∃ (mean : List ℝ) (cov : List (List ℝ)) (s : Smc ℝ ℤ ω) (xs : List (List ℝ)),
      r = .vector mean cov (some s) ∧
      s.dataRecord = (rows.map fun q => (q.counts : ℤ)) ∧
      xs.length = n ∧ (∀ x ∈ xs, RbValid il x ∧ (pMin ≤ x.getD 0 0 ∧ x.getD 0 0 < pMax) ∧
        (il = true → pMin ≤ x.getD 1 0 ∧ x.getD 1 0 < pMax)) ∧
      (0 < s.resampleCount ↔ ∃ k, 0 < k ∧ k ≤ rows.length ∧
        let L := xs.map (rbLike il (rows.take k));
        2 * L.sum ^ 2 < n * (L.map fun v => v ^ 2).sum) ∧
      (s.resampleCount = 0 →
        let E : (List ℝ → ℝ) → ℝ := fun f =>
          (xs.map fun x => rbLike il rows x * f x).sum / (xs.map (rbLike il rows)).sum;
        let d := if il then 4 else 3;
        (∀ j < d, mean.getD j 0 = E fun x => x.getD j 0) ∧
        ∀ a < d, ∀ b < d, (cov.getD a []).getD b 0 =
          E (fun x => x.getD a 0 * x.getD b 0) - E (fun x => x.getD a 0) * E fun x => x.getD b 0) := by
  obtain ⟨xs, seed', -, hlen, hxs, hdo⟩ := rb_run world hw il rows data hd pMin pMax hp n hn seed r h
  have hl : (rows.map (rbExp il)).length = (rows.map fun r => (r.counts : ℤ)).length := by simp
  have hg := rb_good world hw il xs
  obtain ⟨s, hf, h1, h2, h3⟩ := C82_estimates_are_posterior defaultCfg (rbEnv world il xs)
    hg (rb_static world _ _) rfl default_thresh.1 default_thresh.2 (if il then 4 else 3) n hn seed'
    _ _ hl true r hdo
  rcases r with ⟨mean, var, u⟩ | ⟨mean, cov, u⟩
  · cases il <;> simp [EstRet.isScalar] at h1
  simp only [EstRet.extra, if_true] at h2
  subst h2
  have hlocs : (construct defaultCfg (rbEnv world il xs) n false seed').1.locs = xs := by
    have : (construct defaultCfg (rbEnv world il xs) n false seed').1.locs =
      if xs.length = n then xs else List.replicate n [] := rfl
    rw [this, if_pos hlen]
  have hwts : (construct defaultCfg (rbEnv world il xs) n false seed').1.weights =
      List.replicate n (1 / (n : ℝ)) := rfl
  refine ⟨mean, cov, s, xs, rfl, ?_, hlen, hxs, ?_, fun hc => ?_⟩
  · rw [feed_record _ _ _ _ _ hf, show (construct defaultCfg (rbEnv world il xs) n false
      seed').1.dataRecord = [] from rfl, List.nil_append, List.map_fst_zip (by simp)]
  · have hs0 := construct_winv defaultCfg (rbEnv world il xs) hg n hn false seed'
    have key := feed_count_iff defaultCfg (rbEnv world il xs) hg (rb_static world _ _) rfl
      default_thresh.1 default_thresh.2 _ _ hs0 (by rw [hf])
    rw [hf, show (construct defaultCfg (rbEnv world il xs) n false seed').1.resampleCount = 0
      from rfl, hlocs, hwts] at key
    have hn' : (0 : ℝ) < n := by exact_mod_cast hn
    have htake : ∀ k, ((rows.map fun r => (r.counts : ℤ)).zip (rows.map (rbExp il))).take k =
        ((rows.take k).map fun r => (r.counts : ℤ)).zip ((rows.take k).map (rbExp il)) := fun k => by
      rw [List.zip_map', List.zip_map', List.map_take]
    have hE : ∀ k, dataEvidence (rbEnv world il xs).likelihood (List.replicate n (1 / (n : ℝ))) xs
        (((rows.map fun r => (r.counts : ℤ)).zip (rows.map (rbExp il))).take k) =
        1 / n * (xs.map (rbLike il (rows.take k))).sum := by
      intro k
      rw [dataEvidence, rb_zip xs n hlen, htake, ← List.sum_map_mul_left]
      congr 1
      exact List.map_congr_left fun x hx => by rw [rb_dataLike world il xs _ x (hxs x hx).1]
    have hQ : ∀ k, evidenceSq (rbEnv world il xs).likelihood (List.replicate n (1 / (n : ℝ))) xs
        (((rows.map fun r => (r.counts : ℤ)).zip (rows.map (rbExp il))).take k) =
        (1 / n) ^ 2 * ((xs.map (rbLike il (rows.take k))).map fun x => x ^ 2).sum := by
      intro k
      rw [evidenceSq, rb_zip xs n hlen, htake, List.map_map, ← List.sum_map_mul_left]
      congr 1
      exact List.map_congr_left fun x hx => by
        rw [rb_dataLike world il xs _ x (hxs x hx).1, mul_pow]; rfl
    rw [Nat.pos_iff_ne_zero, Ne, key]
    push Not
    simp only [List.length_zip, List.length_map, min_self, hE, hQ, hlen]
    refine exists_congr fun k => and_congr_right fun _ => and_congr_right fun _ => ?_
    rw [show defaultCfg.resampleThresh = 1 / 2 from rfl, mul_pow]
    have e1 : ∀ q : ℝ, (n : ℝ) * (1 / 2) * ((1 / n) ^ 2 * q) = (1 / n) ^ 2 / 2 * (n * q) := fun q => by ring
    have e2 : ∀ q : ℝ, (1 / (n : ℝ)) ^ 2 * q = (1 / n) ^ 2 / 2 * (2 * q) := fun q => by ring
    rw [e1, e2]
    exact mul_lt_mul_iff_right₀ (by positivity)
  · obtain ⟨a, b⟩ := h3 hc
    have hpm : ∀ f : List ℝ → ℝ, Spec.postMean (rbEnv world il xs).likelihood xs
        ((rows.map fun r => (r.counts : ℤ)).zip (rows.map (rbExp il))) f =
        (xs.map fun x => rbLike il rows x * f x).sum / (xs.map (rbLike il rows)).sum := by
      intro f
      rw [Spec.postMean]
      congr 2
      · exact List.map_congr_left fun x hx => by rw [rb_dataLike world il xs _ x (hxs x hx).1]
      · exact List.map_congr_left fun x hx => by rw [rb_dataLike world il xs _ x (hxs x hx).1]
    dsimp only
    rw [hlocs] at a b
    simp only [hpm, EstRet.meanAt, EstRet.covAt] at a b
    exact ⟨a, b⟩

/-- **C126, the estimate is a model.**  Whatever happened during the run: if the particles that the updater
ends with are valid model vectors, so is the estimate that is returned. -/
theorem C126_estimate_valid (world : EstWorld ω) (hw : GoodWorld world) (il : Bool) (rows : List RbRow)
    (data : DataArg ℝ) (hd : RbData il rows data) (pMin pMax : ℝ) (hp : pMin < pMax) (n : Nat)
    (hn : 0 < n) (seed : ω) (mean : List ℝ) (cov : List (List ℝ)) (s : Smc ℝ ℤ ω)
    (h : simpleEstRb world data il pMin pMax n true seed = .ok (.vector mean cov (some s)))
    (hs : ∀ x ∈ s.locs, RbValid il x) : RbValid il mean := by
  obtain ⟨xs, seed', -, hlen, hxs, hdo⟩ := rb_run world hw il rows data hd pMin pMax hp n hn seed _ h
  have hl : (rows.map (rbExp il)).length = (rows.map fun r => (r.counts : ℤ)).length := by simp
  have hg := rb_good world hw il xs
  have hs0 := construct_winv defaultCfg (rbEnv world il xs) hg n hn false seed'
  rw [doUpdate_eq defaultCfg _ (by decide) _ n seed' _ _ hl true] at hdo
  rcases hf : feed defaultCfg (rbEnv world il xs) true
    ((rows.map fun r => (r.counts : ℤ)).zip (rows.map (rbExp il)))
    (construct defaultCfg (rbEnv world il xs) n false seed').1 with ⟨t, err | ⟨⟨⟩⟩⟩
  · rw [hf] at hdo; cases hdo
  rw [hf] at hdo
  obtain ⟨hinv, -, -⟩ := feed_checked defaultCfg (rbEnv world il xs) hg (rb_static world _ _) rfl
    default_thresh.1 default_thresh.2 _ _ hs0 (by rw [hf])
  rw [hf] at hinv
  have hmean : mean = smcMean (if il then 4 else 3) t.weights t.locs ∧ s = t := by
    cases il <;> simp at hdo <;> exact ⟨hdo.1.symm, hdo.2.2.symm⟩
  obtain ⟨hm, rfl⟩ := hmean
  obtain ⟨⟨hw0, hw1⟩, hlen2⟩ := hinv
  have hlow : ∀ f : List ℝ → ℝ, (∀ x ∈ s.locs, 0 ≤ f x) →
      0 ≤ (List.zipWith (fun a x => a * f x) s.weights s.locs).sum := by
    intro f hf
    apply List.sum_nonneg
    intro v hv
    rw [← List.map_uncurry_zip_eq_zipWith] at hv
    obtain ⟨q, hq, rfl⟩ := List.mem_map.1 hv
    exact mul_nonneg (hw0 _ (List.of_mem_zip hq).1) (hf _ (List.of_mem_zip hq).2)
  have hadd : ∀ f g : List ℝ → ℝ, (List.zipWith (fun a x => a * (f x + g x)) s.weights s.locs).sum =
      (List.zipWith (fun a x => a * f x) s.weights s.locs).sum +
      (List.zipWith (fun a x => a * g x) s.weights s.locs).sum := by
    intro f g
    rw [zipWith_sum_map, zipWith_sum_map, zipWith_sum_map, ← List.sum_map_add]
    simp only [mul_add]
  have hneg : ∀ f : List ℝ → ℝ, (List.zipWith (fun a x => a * - f x) s.weights s.locs).sum =
      - (List.zipWith (fun a x => a * f x) s.weights s.locs).sum := by
    intro f
    have := hadd f fun x => - f x
    simp only [add_neg_cancel, mul_zero] at this
    have h0 : ∀ (a : List ℝ) (b : List (List ℝ)), (List.zipWith (fun _ _ => (0 : ℝ)) a b).sum = 0 := by
      intro a
      induction a with
      | nil => intro b; simp
      | cons _ _ ih => intro b; cases b <;> simp [ih]
    rw [h0] at this
    linarith
  have hone : (List.zipWith (fun a _ => a * 1) s.weights s.locs).sum = 1 := by
    rw [zipWith_sum_map s.weights s.locs fun _ => 1]
    simp only [mul_one]
    rw [← hw1]
    congr 1
    exact List.map_fst_zip hlen2.ge
  have hge : ∀ f : List ℝ → ℝ, (∀ x ∈ s.locs, 0 ≤ f x) →
      0 ≤ (List.zipWith (fun a x => a * f x) s.weights s.locs).sum := hlow
  have hle : ∀ f : List ℝ → ℝ, (∀ x ∈ s.locs, f x ≤ 1) →
      (List.zipWith (fun a x => a * f x) s.weights s.locs).sum ≤ 1 := by
    intro f hf
    have h1 := hlow (fun x => 1 + - f x) fun x hx => by linarith [hf x hx]
    rw [hadd, hneg, hone] at h1
    linarith
  cases il with
  | false =>
    have hc : ∀ x ∈ s.locs, ∃ p A B, x = [p, A, B] ∧ 0 ≤ p ∧ p ≤ 1 ∧ 0 ≤ A ∧ 0 ≤ B ∧ A + B ≤ 1 := by
      intro x hx
      have := hs x hx
      rcases x with _ | ⟨p, _ | ⟨A, _ | ⟨B, _ | ⟨c, x⟩⟩⟩⟩ <;> try exact this.elim
      exact ⟨p, A, B, rfl, this⟩
    rw [hm]
    show RbValid false [_, _, _]
    refine ⟨hge (fun x => x.getD 0 0) ?_, hle (fun x => x.getD 0 0) ?_, hge (fun x => x.getD 1 0) ?_,
      hge (fun x => x.getD 2 0) ?_, ?_⟩
    on_goal 5 => rw [← hadd (fun x => x.getD 1 0) fun x => x.getD 2 0]; apply hle
    all_goals
      intro x hx
      obtain ⟨p, A, B, rfl, h1, h2, h3, h4, h5⟩ := hc x hx
      simpa
  | true =>
    have hc : ∀ x ∈ s.locs, ∃ pt p A B, x = [pt, p, A, B] ∧ 0 ≤ pt ∧ pt ≤ 1 ∧ 0 ≤ p ∧ p ≤ 1 ∧ 0 ≤ A ∧
        0 ≤ B ∧ A + B ≤ 1 := by
      intro x hx
      have := hs x hx
      rcases x with _ | ⟨pt, _ | ⟨p, _ | ⟨A, _ | ⟨B, _ | ⟨c, x⟩⟩⟩⟩⟩ <;> try exact this.elim
      exact ⟨pt, p, A, B, rfl, this⟩
    rw [hm]
    show RbValid true [_, _, _, _]
    refine ⟨hge (fun x => x.getD 0 0) ?_, hle (fun x => x.getD 0 0) ?_, hge (fun x => x.getD 1 0) ?_,
      hle (fun x => x.getD 1 0) ?_, hge (fun x => x.getD 2 0) ?_,
      hge (fun x => x.getD 3 0) ?_, ?_⟩
    on_goal 7 => rw [← hadd (fun x => x.getD 2 0) fun x => x.getD 3 0]; apply hle
    all_goals
      intro x hx
      obtain ⟨pt, p, A, B, rfl, h1, h2, h3, h4, h5, h6, h7⟩ := hc x hx
      simpa

theorem rbPrior_error (world : EstWorld ω) (il : Bool) (pMin pMax : ℝ) (k : Nat) (seed : ω) (n : Nat)
    (e : PyErr) (h : (rbPrior world il pMin pMax k seed n).1 = .error e) : e = .runtimeError := by
  cases il with
  | false =>
    have hb : boxInit (.mat 2 [[pMin, pMax], [0, 1], [0, 1]]) =
        .ok (⟨[pMin, 0, 0], [pMax - pMin, 1 - 0, 1 - 0]⟩ : BoxDist ℝ) := rfl
    simp only [rbPrior, Bool.false_eq_true, if_false, hb, postSample] at h
    split at h
    · cases h
    · cases h; rfl
  | true =>
    have hb : boxInit (.mat 2 [[pMin, pMax], [pMin, pMax], [0, 1], [0, 1]]) =
        .ok (⟨[pMin, pMin, 0, 0], [pMax - pMin, pMax - pMin, 1 - 0, 1 - 0]⟩ : BoxDist ℝ) := rfl
    simp only [rbPrior, if_true, hb, postSample] at h
    split at h
    · cases h
    · cases h; rfl

/-- **C126, impossible ranges.**  If the range for `p` contains no valid value, `simple_est_rb` raises
`RuntimeError`, whatever the data. -/
theorem C126_empty_range (world : EstWorld ω) (hw : GoodWorld world) (il : Bool) (rows : List RbRow)
    (data : DataArg ℝ) (hd : RbData il rows data) (pMin pMax : ℝ) (hp : pMin < pMax)
    (hout : 1 < pMin ∨ pMax ≤ 0) (n : Nat) (hn : 0 < n) (ra : Bool) (seed : ω) :
    simpleEstRb world data il pMin pMax n ra seed = .error .runtimeError := by
  rw [rb_eq world il rows data hd]
  rcases hpr : rbPrior world il pMin pMax 100 seed n with ⟨err | draws, seed'⟩
  · have := rbPrior_error world il pMin pMax 100 seed n err (by rw [hpr])
    subst this
    rfl
  · obtain ⟨xs, -, h2, h3⟩ := C82_rb_prior world hw il pMin pMax hp 100 n seed draws (by rw [hpr])
    obtain ⟨x, hx⟩ := List.exists_mem_of_length_pos (h2 ▸ hn : 0 < xs.length)
    obtain ⟨a, b, c⟩ := h3 x hx
    exfalso
    have : 0 ≤ x.getD 0 0 ∧ x.getD 0 0 ≤ 1 := by
      cases il with
      | false =>
        obtain ⟨p, A, B, rfl⟩ := List.length_eq_three.1 a
        have := (rbValid_iff p A B).1 c
        exact ⟨this.1, this.2.1⟩
      | true =>
        rcases x with _ | ⟨pt, _ | ⟨p, _ | ⟨A, _ | ⟨B, _ | ⟨e, z⟩⟩⟩⟩⟩ <;> simp at a
        have := (rbValidIl_iff pt p A B).1 c.2
        exact ⟨this.1, this.2.1⟩
    rcases hout with h | h <;> linarith [this.1, this.2, b.1, b.2]

/-- **C126, finding.**  A text file with a single line is never accepted. -/
theorem C126_one_line (world : EstWorld ω) (il : Bool) (line : List ℝ)
    (hl : line.length = if il then 4 else 3) (pMin pMax : ℝ) (n : Nat) (ra : Bool) (seed : ω) :
    simpleEstRb world (.text [line]) il pMin pMax n ra seed = .error .indexError ∨
    simpleEstRb world (.text [line]) il pMin pMax n ra seed = .error .runtimeError := by
  have hload : loadData (.text [line]) (["counts", "m", "n_shots"] ++ if il then ["reference"] else []) =
      .ok ⟨.record (rbColumns il), .cell line⟩ := by
    cases il <;> simp [loadData, hl, rbColumns]
  have hparams : ∃ o e, dataToParams ⟨.record (rbColumns il), .cell line⟩ (.fields (rbFields il)) (0, "counts")
      (.dict ([("m", (1, "m")), ("n_meas", (2, "n_shots"))] ++
        if il then [("reference", (3, "reference"))] else [])) = .ok (.cell o, .cell e) := by
    cases il
    · exact ⟨_, _, rfl⟩
    · exact ⟨_, _, rfl⟩
  obtain ⟨o, e, hparams⟩ := hparams
  simp only [simpleEstRb, bind, Except.bind]
  rw [hload]
  simp only
  rw [hparams]
  simp only
  rcases hpr : rbPrior world il pMin pMax 100 seed n with ⟨err | draws, seed'⟩
  · have := rbPrior_error world il pMin pMax 100 seed n err (by rw [hpr])
    subst this
    exact Or.inr rfl
  · exact Or.inl (C82_shape_errors defaultCfg _ _ n seed' ra [] [.num none] (by simp) o e).2

/-- **C126, success.**  If the rejection loop delivers the prior cloud, no row is next to impossible given
the rows before it, and the effective sample size stays at `n / 2` or above, then `simple_est_rb` succeeds
without resampling; so the formulas of `C126_posterior` apply. -/
theorem C126_succeeds (world : EstWorld ω) (hw : GoodWorld world) (il : Bool) (rows : List RbRow)
    (data : DataArg ℝ) (hd : RbData il rows data) (pMin pMax : ℝ) (hp : pMin < pMax) (n : Nat)
    (hn : 0 < n) (seed seed' : ω) (xs : List (List ℝ))
    (hprior : rbPrior world il pMin pMax 100 seed n = (.ok (xs.map some), seed'))
    (hpos : ∀ k < rows.length, 0 < (xs.map (rbLike il (rows.take k))).sum ∧
      eps * (xs.map (rbLike il (rows.take k))).sum ≤ (xs.map (rbLike il (rows.take (k + 1)))).sum)
    (hess : ∀ k, 0 < k → k ≤ rows.length → let L := xs.map (rbLike il (rows.take k));
      n * (L.map fun v => v ^ 2).sum ≤ 2 * L.sum ^ 2) :
    ∃ (mean : List ℝ) (cov : List (List ℝ)) (s : Smc ℝ ℤ ω), s.resampleCount = 0 ∧
      simpleEstRb world data il pMin pMax n true seed = .ok (.vector mean cov (some s)) := by
  obtain ⟨xs', h1, hlen, h3⟩ := C82_rb_prior world hw il pMin pMax hp 100 n seed _ (by rw [hprior])
  obtain rfl : xs = xs' := List.map_injective_iff.2 (Option.some_injective _) h1
  have hxs : ∀ x ∈ xs, RbValid il x := by
    intro x hx
    obtain ⟨a, b, c⟩ := h3 x hx
    cases il with
    | false =>
      obtain ⟨p, A, B, rfl⟩ := List.length_eq_three.1 a
      exact (rbValid_iff p A B).1 c
    | true =>
      rcases x with _ | ⟨pt, _ | ⟨p, _ | ⟨A, _ | ⟨B, _ | ⟨e, z⟩⟩⟩⟩⟩ <;> simp at a
      exact (rbValidIl_iff pt p A B).1 c.2
  have hl : (rows.map (rbExp il)).length = (rows.map fun r => (r.counts : ℤ)).length := by simp
  have hg := rb_good world hw il xs
  have hs0 := construct_winv defaultCfg (rbEnv world il xs) hg n hn false seed'
  have hlocs : (construct defaultCfg (rbEnv world il xs) n false seed').1.locs = xs := by
    have : (construct defaultCfg (rbEnv world il xs) n false seed').1.locs =
      if xs.length = n then xs else List.replicate n [] := rfl
    rw [this, if_pos hlen]
  have hwts : (construct defaultCfg (rbEnv world il xs) n false seed').1.weights =
      List.replicate n (1 / (n : ℝ)) := rfl
  have hn' : (0 : ℝ) < n := by exact_mod_cast hn
  have htake : ∀ k, ((rows.map fun r => (r.counts : ℤ)).zip (rows.map (rbExp il))).take k =
      ((rows.take k).map fun r => (r.counts : ℤ)).zip ((rows.take k).map (rbExp il)) := fun k => by
    rw [List.zip_map', List.zip_map', List.map_take]
  have hE : ∀ k, dataEvidence (rbEnv world il xs).likelihood (List.replicate n (1 / (n : ℝ))) xs
      (((rows.map fun r => (r.counts : ℤ)).zip (rows.map (rbExp il))).take k) =
      1 / n * (xs.map (rbLike il (rows.take k))).sum := by
    intro k
    rw [dataEvidence, rb_zip xs n hlen, htake, ← List.sum_map_mul_left]
    congr 1
    exact List.map_congr_left fun x hx => by rw [rb_dataLike world il xs _ x (hxs x hx)]
  have hQ : ∀ k, evidenceSq (rbEnv world il xs).likelihood (List.replicate n (1 / (n : ℝ))) xs
      (((rows.map fun r => (r.counts : ℤ)).zip (rows.map (rbExp il))).take k) =
      (1 / n) ^ 2 * ((xs.map (rbLike il (rows.take k))).map fun x => x ^ 2).sum := by
    intro k
    rw [evidenceSq, rb_zip xs n hlen, htake, List.map_map, ← List.sum_map_mul_left]
    congr 1
    exact List.map_congr_left fun x hx => by
      rw [rb_dataLike world il xs _ x (hxs x hx), mul_pow]; rfl
  obtain ⟨hok, hcount⟩ := feed_succeeds defaultCfg (rbEnv world il xs) hg (rb_static world _ _)
    default_thresh.2 ((rows.map fun r => (r.counts : ℤ)).zip (rows.map (rbExp il))) _ hs0
    (by
      rw [hlocs, hwts]
      intro k hk
      simp only [List.length_zip, List.length_map, min_self] at hk
      obtain ⟨a, b⟩ := hpos k hk
      rw [hE, hE]
      refine ⟨by positivity, ?_⟩
      rw [mul_left_comm]
      exact mul_le_mul_of_nonneg_left b (by positivity))
    (by
      rw [hlocs, hwts]
      intro k h0 hk
      simp only [List.length_zip, List.length_map, min_self] at hk
      have := hess k h0 hk
      dsimp only at this
      rw [hE, hQ, hlen, show defaultCfg.resampleThresh = 1 / 2 from rfl, mul_pow]
      have e1 : ∀ q : ℝ, (n : ℝ) * (1 / 2) * ((1 / n) ^ 2 * q) = (1 / n) ^ 2 / 2 * (n * q) :=
        fun q => by ring
      have e2 : ∀ q : ℝ, (1 / (n : ℝ)) ^ 2 * q = (1 / n) ^ 2 / 2 * (2 * q) := fun q => by ring
      rw [e1, e2]
      exact mul_le_mul_of_nonneg_left this (by positivity))
  rw [rb_eq world il rows data hd, hprior]
  have hmap : (xs.map some).map (fun x => x.getD []) = xs := by simp [List.map_map, Function.comp_def]
  dsimp only
  rw [hmap, doUpdate_eq defaultCfg _ (by decide) _ n seed' _ _ hl true]
  rcases hf : feed defaultCfg (rbEnv world il xs) true
    ((rows.map fun r => (r.counts : ℤ)).zip (rows.map (rbExp il)))
    (construct defaultCfg (rbEnv world il xs) n false seed').1 with ⟨t, err | ⟨⟨⟩⟩⟩
  · rw [hf] at hok; cases hok
  rw [hf] at hcount
  refine ⟨smcMean (if il then 4 else 3) t.weights t.locs, smcCov (if il then 4 else 3) t.weights t.locs,
    t, hcount.trans rfl, ?_⟩
  cases il <;> simp [hf]

/-- A world whose uniform variates are all `1 / 4`. -/
noncomputable def quarterWorld : EstWorld Unit where
  uniform r n k := (List.replicate n (List.replicate k (1 / 4)), r)
  resampler _ r w l := (.ok (w, l), r)
  kl _ _ _ _ := 0

theorem quarterWorld_good : GoodWorld quarterWorld where
  uniform_len r n k := by simp [quarterWorld]
  uniform_row r n k z hz := by
    have := List.eq_of_mem_replicate hz
    subst this
    refine ⟨by simp, fun v hv => ?_⟩
    rw [List.eq_of_mem_replicate hv]
    norm_num
  resampler_ok valid r w l w' l' hw hl h := by
    simp only [quarterWorld, Except.ok.injEq, Prod.mk.injEq] at h
    obtain ⟨rfl, rfl⟩ := h
    exact ⟨hw, hl⟩

/-- A reference row and an interleaved row, two particles: the hypotheses of the theorems are met. -/
example : ∃ (mean : List ℝ) (cov : List (List ℝ)) (s : Smc ℝ ℤ Unit), s.resampleCount = 0 ∧
    simpleEstRb quarterWorld (.array ⟨.plain 4, .vec (rbTable true [⟨1, 0, 1, true⟩, ⟨0, 1, 1, false⟩])⟩)
      true 0 1 2 true () = .ok (.vector mean cov (some s)) := by
  refine C126_succeeds quarterWorld quarterWorld_good true [⟨1, 0, 1, true⟩, ⟨0, 1, 1, false⟩] _ (Or.inl rfl) 0 1
    one_pos 2 two_pos () () [[1 / 4, 1 / 4, 1 / 4, 1 / 4], [1 / 4, 1 / 4, 1 / 4, 1 / 4]] ?_ ?_ ?_
  · have hb : boxInit (.mat 2 [[0, 1], [0, 1], [0, 1], [0, 1]]) =
        .ok (⟨[0, 0, 0, 0], [1 - 0, 1 - 0, 1 - 0, 1 - 0]⟩ : BoxDist ℝ) := rfl
    have hv : rbValidIl (4⁻¹ : ℝ) 4⁻¹ 4⁻¹ 4⁻¹ = true := by
      rw [rbValidIl_iff]; norm_num [RbValid]
    have hnil : ∀ (dist : Unit → Nat → List (List ℝ) × Unit) valid s,
        postLoop dist valid 99 s [] () = (s, [], ()) := fun _ _ _ => rfl
    simp only [rbPrior, if_true, hb, postSample, quarterWorld]
    rw [show (100 : Nat) = 99 + 1 from rfl, postLoop]
    have hsel : select (List.range 2) [false, false] = [] := rfl
    have hass : ∀ a : List ℝ, assignAt [none, none] (List.range 2) [some a, some a] = [some a, some a] :=
      fun _ => rfl
    simp [BoxDist.uniform, List.replicate, hv, hnil, hsel, hass]
  · intro k hk
    have : k = 0 ∨ k = 1 := by simp at hk; omega
    rcases this with rfl | rfl <;> norm_num [rbLike, survival, eps]
  · intro k h0 hk
    have : k = 1 ∨ k = 2 := by simp at hk; omega
    rcases this with rfl | rfl <;> norm_num [rbLike, survival]

end QInfer
