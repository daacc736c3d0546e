import Verif.Lemmas.Resample
import Verif.Props.Particle
import Mathlib.MeasureTheory.Measure.Dirac
import Mathlib.MeasureTheory.Integral.DominatedConvergence

/-!
# Properties of the Liu-West resampler and of postselection: C18, C19, C20, C21
-/

set_option linter.unusedSectionVars false

namespace QInfer

variable {ρ Z ω : Type*}

/-! ## The loop -/

/-- What `are_models_valid` and `kernel` are documented to do: one flag per row, depending on that
row only; the requested number of columns. -/
structure GoodLw (env : LwEnv ρ Z ω) (valid : ρ → Bool) : Prop where
  valid_rows : ∀ rows, env.valid rows = rows.map valid
  kernel_len : ∀ r m, (env.kernel r m).1.length = m

/-- The predicate the loop filters by. -/
def effValid (env : LwEnv ρ Z ω) (valid : ρ → Bool) (x : ρ) : Bool :=
  if env.postselect then valid x else true

theorem lwBody_eq (env : LwEnv ρ Z ω) (valid : ρ → Bool) (hg : GoodLw env valid) (s : LwState ρ ω) :
    let rows := List.zipWith env.disp s.mus (env.kernel s.seed s.mus.length).1
    let idxs := select s.idxs ((rows.map (effValid env valid)).map not)
    lwBody env s = .ok
      { newLocs := assignAt s.newLocs s.idxs (rows.map some)
        idxs := idxs
        js := select s.js ((rows.map (effValid env valid)).map not)
        mus := s.mus.take idxs.length
        nIters := s.nIters + 1
        seed := (env.kernel s.seed s.mus.length).2 } := by
  intro rows idxs
  have hmask : (if env.postselect then env.valid rows else List.replicate rows.length true) =
      rows.map (effValid env valid) := by
    unfold effValid
    split
    · rename_i h; rw [hg.valid_rows]
    · rename_i h
      induction rows with
      | nil => rfl
      | cons a l ih => simp [List.replicate_succ]
  unfold lwBody
  dsimp only
  rw [hmask, if_neg (by simp [rows])]

structure LwInv (env : LwEnv ρ Z ω) (valid : ρ → Bool) (n : Nat) (mus0 : List ρ) (st : Prop)
    (s : LwState ρ ω) : Prop where
  rej : RejInv n (fun x => effValid env valid x = true) st s.newLocs s.idxs
  mus : s.mus = mus0.take s.idxs.length
  muslen : s.mus.length = s.idxs.length

theorem LwInv.body {env : LwEnv ρ Z ω} {valid : ρ → Bool} (hg : GoodLw env valid) {n : Nat}
    {mus0 : List ρ} {st : Prop} {s : LwState ρ ω} (h : LwInv env valid n mus0 st s) :
    ∃ s', lwBody env s = .ok s' ∧ LwInv env valid n mus0 True s' ∧ s'.nIters = s.nIters + 1 ∧
      s'.idxs.Sublist s.idxs := by
  have hb := lwBody_eq env valid hg s
  refine ⟨_, hb, ?_, rfl, select_sublist _ _⟩
  have hrows : (List.zipWith env.disp s.mus (env.kernel s.seed s.mus.length).1).length =
      s.idxs.length := by
    rw [List.length_zipWith, hg.kernel_len, h.muslen]; simp
  have hle : ∀ m : List Bool, (select s.idxs m).length ≤ s.idxs.length := select_length_le _
  refine ⟨h.rej.round _ hrows, ?_, ?_⟩
  · dsimp only
    rw [h.mus, List.take_take, Nat.min_eq_left (hle _)]
  · dsimp only
    rw [List.length_take, h.muslen, Nat.min_eq_left (hle _)]

theorem LwInv.loop {env : LwEnv ρ Z ω} {valid : ρ → Bool} (hg : GoodLw env valid) {n : Nat}
    {mus0 : List ρ} (fuel : Nat) {st : Prop} {s : LwState ρ ω} (h : LwInv env valid n mus0 st s) :
    ∃ s', lwLoop env fuel s = .ok s' ∧ LwInv env valid n mus0 (st ∨ 0 < fuel) s' ∧
      s'.nIters ≤ s.nIters + fuel ∧ (s'.idxs ≠ [] → s'.nIters = s.nIters + fuel) := by
  induction fuel generalizing st s with
  | zero =>
    exact ⟨s, rfl, ⟨⟨h.rej.len, h.rej.sub, h.rej.done, fun hs => h.rej.pending (by simpa using hs)⟩,
      h.mus, h.muslen⟩, le_rfl, fun _ => rfl⟩
  | succ fuel ih =>
    by_cases hi : s.idxs = []
    · refine ⟨s, by simp [lwLoop, hi], ⟨⟨h.rej.len, h.rej.sub, h.rej.done, ?_⟩, h.mus, h.muslen⟩,
        by omega, fun hc => absurd hi hc⟩
      intro _ i hmem; rw [hi] at hmem; simp at hmem
    · obtain ⟨t, ht, hinv, hit, -⟩ := h.body hg
      obtain ⟨s', h1, h2, h3, h4⟩ := ih hinv
      refine ⟨s', by simp [lwLoop, hi, ht, h1], ?_, by omega, fun hc => by rw [h4 hc]; omega⟩
      exact ⟨⟨h2.rej.len, h2.rej.sub, h2.rej.done, fun _ => h2.rej.pending (Or.inl trivial)⟩,
        h2.mus, h2.muslen⟩

theorem RejInv.count {n : Nat} {ok : ρ → Bool} {st : Prop} {locs : List (Option ρ)}
    {idxs : List Nat} (h : RejInv n (fun x => ok x = true) st locs idxs)
    (hst : st ∨ locs = List.replicate n none) :
    locs.countP (fun x => !(x.any ok)) = idxs.length := by
  have hbad : ∀ i < n, ∀ x, locs[i]? = some x → ((!(x.any ok)) = true ↔ i ∈ idxs) := by
    intro i hi x hx
    by_cases hmem : i ∈ idxs
    · rcases hst with hst | hst
      · obtain ⟨y, hy, hv⟩ := h.pending hst i hmem
        rw [hx] at hy
        have : x = some y := Option.some.inj hy
        subst this
        simpa [hmem] using hv
      · rw [hst] at hx
        have : x = none := by
          have := List.mem_of_getElem? hx
          exact (List.mem_replicate.1 this).2
        subst this; simp [hmem]
    · obtain ⟨y, hy, hv⟩ := h.done i hi hmem
      rw [hx] at hy
      have : x = some y := Option.some.inj hy
      subst this
      simp [hmem, hv]
  have hl : locs = (List.range n).map fun i => (locs[i]?).getD none := by
    apply List.ext_getElem
    · simp [h.len]
    · intro i h1 h2
      simp only [List.getElem_map, List.getElem_range]
      simp [h1]
  have hperm : ((List.range n).filter fun i => decide (i ∈ idxs)).Perm idxs := by
    rw [List.perm_ext_iff_of_nodup (List.nodup_range.filter _) h.nodup]
    intro i
    simp only [List.mem_filter, List.mem_range, decide_eq_true_eq]
    exact ⟨fun x => x.2, fun x => ⟨h.lt i x, x⟩⟩
  rw [← hperm.length_eq, ← List.countP_eq_length_filter]
  conv_lhs => rw [hl]
  rw [List.countP_map]
  refine List.countP_congr fun i hi => ?_
  have hi' : i < n := List.mem_range.1 hi
  have hlt : i < locs.length := by rw [h.len]; exact hi'
  have := hbad i hi' locs[i] (by simp [hlt])
  simpa [hlt] using this

section
variable {K : Type*} [Field K] [LinearOrder K] [IsStrictOrderedRing K]

theorem lwParents_ok (w : List K) (l : List ρ) (centre : ρ → ρ) (us : List K)
    (hlen : l.length = w.length) (hw : ∀ x ∈ w, 0 ≤ x)
    (hu : ∀ u ∈ us, 0 ≤ u ∧ u < w.sum) :
    ∃ js mus, lwParents w l centre us = .ok (js, mus) ∧ js = us.map (sampleIdx w) ∧
      mus.map some = js.map (fun j => (l[j]?).map centre) ∧ mus.length = us.length := by
  have hj : ∀ u ∈ us, searchsortedRight (cumsum w) u < w.length ∧
      sampleIdx w u = searchsortedRight (cumsum w) u := by
    intro u hu'
    obtain ⟨h0, h1⟩ := hu u hu'
    obtain ⟨a, b, -⟩ := takeWhile_shape 0 w u h0
    have hk : searchsortedRight (cumsum w) u =
        ((cumsumFrom 0 w).takeWhile fun x => decide (x ≤ u)).length := by
      unfold searchsortedRight; rw [cumsum_eq]
    rw [← hk] at a b
    have : searchsortedRight (cumsum w) u < w.length := by
      rcases lt_or_eq_of_le a with h | h
      · exact h
      · exfalso; rw [h, List.take_length] at b; linarith
    exact ⟨this, by unfold sampleIdx; omega⟩
  refine ⟨us.map (searchsortedRight (cumsum w)),
    (us.map (searchsortedRight (cumsum w))).filterMap fun j => (l[j]?).map centre,
    ?_, ?_, ?_, ?_⟩
  · unfold lwParents
    dsimp only
    rw [if_pos]
    rw [List.all_eq_true]
    intro j hj'
    obtain ⟨u, hu', rfl⟩ := List.mem_map.1 hj'
    simpa [hlen] using (hj u hu').1
  · exact List.map_congr_left fun u hu' => (hj u hu').2.symm
  · have : ∀ js : List Nat, (∀ j ∈ js, j < l.length) →
        (js.filterMap fun j => (l[j]?).map centre).map some = js.map fun j => (l[j]?).map centre := by
      intro js hjs
      induction js with
      | nil => rfl
      | cons j js ih =>
        have := ih fun i hi => hjs i (by simp [hi])
        simp [hjs j (by simp), this]
    apply this
    intro j hj'
    obtain ⟨u, hu', rfl⟩ := List.mem_map.1 hj'
    rw [hlen]; exact (hj u hu').1
  · have : ∀ us : List K, (∀ u ∈ us, searchsortedRight (cumsum w) u < l.length) →
        ((us.map (searchsortedRight (cumsum w))).filterMap fun j => (l[j]?).map centre).length =
          us.length := by
      intro us hjs
      induction us with
      | nil => rfl
      | cons j js ih =>
        have := ih fun i hi => hjs i (by simp [hi])
        rw [List.map_cons, List.filterMap_cons, List.getElem?_eq_getElem (hjs j (by simp))]
        exact congrArg (· + 1) this
    exact this us fun u hu' => by rw [hlen]; exact (hj u hu').1

theorem uniform_weights (n : Nat) :
    (List.replicate n (1 / (n : K))).map
      (fun x => npDiv |x| ((List.replicate n (1 / (n : K))).map fun x => |x|).sum) =
      List.replicate n (some (1 / (n : K))) := by
  cases n with
  | zero => rfl
  | succ m =>
    have hpos : (0 : K) < ((m + 1 : Nat) : K) := by exact_mod_cast Nat.succ_pos m
    have hsum : ((List.replicate (m + 1) (1 / ((m + 1 : Nat) : K))).map fun x => |x|).sum = 1 := by
      rw [List.map_replicate, List.sum_replicate, abs_of_pos (by positivity), nsmul_eq_mul]
      field_simp
    rw [hsum, List.map_replicate]
    simp only [npDiv, one_ne_zero, if_false, div_one]
    rw [abs_of_pos (by positivity)]

/-! ## C18 -/

/-- **C18.**  With postselection, weights that form a probability vector, `n` variates in `[0, 1)`
and a square root of the covariance, the resampler returns `n` rows of equal weight after at most
`maxiter` rounds.  It warns with the exact number of returned rows that are not valid (or were never
drawn), and does not warn if there are none; it gives up only after exactly `maxiter` rounds. -/
theorem C18_valid_or_warns (env : LwEnv ρ Z ω) (valid : ρ → Bool) (hg : GoodLw env valid)
    (hpost : env.postselect = true) (maxiter : Nat) (covZero : Bool) (w : List K) (hw : IsProb w)
    (l : List ρ) (hlen : l.length = w.length) (centre : ρ → ρ) (us : List K)
    (hu : ∀ u ∈ us, 0 ≤ u ∧ u < 1) (seed : ω) :
    ∃ locs warns iters seed',
      liuWest env maxiter covZero true w l centre us.length us seed =
        .ok (locs, List.replicate us.length (some (1 / (us.length : K))), warns, iters, seed') ∧
      locs.length = us.length ∧ iters ≤ maxiter ∧
      let bad := locs.countP fun x => !(x.any valid)
      warns = (if covZero then [LwWarn.zeroCov] else []) ++
        (if bad = 0 then [] else [LwWarn.notAllValid bad maxiter]) ∧
      (bad ≠ 0 → iters = maxiter) := by
  obtain ⟨js, mus, hp, -, -, hml⟩ := lwParents_ok w l centre us hlen hw.1
    (fun u hu' => by rw [hw.2]; exact hu u hu')
  have heff : ∀ x, effValid env valid x = valid x := fun x => by simp [effValid, hpost]
  have hinit : LwInv env valid us.length mus False (lwStart us.length js mus seed) :=
    ⟨RejInv.init _ _, by simp [lwStart, ← hml], by simp [lwStart, hml]⟩
  obtain ⟨s', h1, h2, h3, h4⟩ := hinit.loop hg maxiter
  have hcount : s'.newLocs.countP (fun x => !(x.any valid)) = s'.idxs.length := by
    have hr := h2.rej
    simp only [heff] at hr
    apply hr.count
    rcases Nat.eq_zero_or_pos maxiter with h0 | h0
    · right
      subst h0
      simp only [lwLoop, Except.ok.injEq] at h1
      rw [← h1]; rfl
    · exact Or.inl (Or.inr h0)
  refine ⟨s'.newLocs, (if s'.idxs = [] then (if covZero then [LwWarn.zeroCov] else [])
    else (if covZero then [LwWarn.zeroCov] else []) ++
      [LwWarn.notAllValid s'.idxs.length maxiter]), s'.nIters, s'.seed, ?_, h2.rej.len, by simpa [lwStart] using h3, ?_, ?_⟩
  · unfold liuWest
    simp only [Bool.true_eq_false, if_false, hp, h1, uniform_weights]
  · rw [hcount]
    by_cases hi : s'.idxs = []
    · simp [hi]
    · simp [hi]
  · rw [hcount]
    intro hb
    have := h4 (by intro hc; exact hb (by simp [hc]))
    simpa [lwStart] using this

/-- **C18, accepted rows are final.**  Whatever state the loop is in, a row that is no longer pending
is the same at the end, and stays not pending. -/
theorem C18_accepted_unchanged (env : LwEnv ρ Z ω) (fuel : Nat) (s s' : LwState ρ ω)
    (h : lwLoop env fuel s = .ok s') (i : Nat) (hi : i ∉ s.idxs) :
    s'.newLocs[i]? = s.newLocs[i]? ∧ i ∉ s'.idxs := by
  induction fuel generalizing s with
  | zero => simp only [lwLoop, Except.ok.injEq] at h; subst h; exact ⟨rfl, hi⟩
  | succ fuel ih =>
    unfold lwLoop at h
    split at h
    · simp only [Except.ok.injEq] at h; subst h; exact ⟨rfl, hi⟩
    · split at h
      · simp at h
      · rename_i t ht
        unfold lwBody at ht
        dsimp only at ht
        generalize (if env.postselect = true then _ else _ : List Bool) = mask at ht
        split at ht
        · cases ht
        · simp only [Except.ok.injEq] at ht
          subst ht
          obtain ⟨a, b⟩ := ih _ h (fun hc => hi ((select_sublist _ _).subset hc))
          exact ⟨a.trans (assignAt_not_mem _ _ _ _ hi), b⟩

/-- **C18, no postselection.**  Exactly one round is used (if there is anything to do), and every row
is the displacement of its own centre. -/
theorem C18_no_postselect (env : LwEnv ρ Z ω) (valid : ρ → Bool) (hg : GoodLw env valid)
    (hpost : env.postselect = false) (maxiter : Nat) (hm : 0 < maxiter) (covZero : Bool)
    (w : List K) (hw : IsProb w) (l : List ρ) (hlen : l.length = w.length) (centre : ρ → ρ)
    (us : List K) (hus : us ≠ []) (hu : ∀ u ∈ us, 0 ≤ u ∧ u < 1) (seed : ω) :
    ∃ locs mus seed', mus.map some = us.map (fun u => (l[sampleIdx w u]?).map centre) ∧
      liuWest env maxiter covZero true w l centre us.length us seed =
        .ok (locs, List.replicate us.length (some (1 / (us.length : K))),
          (if covZero then [LwWarn.zeroCov] else []), 1, seed') ∧
      locs = (List.zipWith env.disp mus (env.kernel seed us.length).1).map some := by
  obtain ⟨js, mus, hp, hjs, hmus, hml⟩ := lwParents_ok w l centre us hlen hw.1
    (fun u hu' => by rw [hw.2]; exact hu u hu')
  have heff : ∀ x, effValid env valid x = true := fun x => by simp [effValid, hpost]
  have hrows : (List.zipWith env.disp mus (env.kernel seed us.length).1).length = us.length := by
    rw [List.length_zipWith, hg.kernel_len, hml]; simp
  have hloop : lwLoop env maxiter (lwStart us.length js mus seed) = .ok
      { newLocs := assignAt (List.replicate us.length none) (List.range us.length)
          ((List.zipWith env.disp mus (env.kernel seed us.length).1).map some)
        idxs := []
        js := select js (((List.zipWith env.disp mus (env.kernel seed us.length).1).map
          (effValid env valid)).map not)
        mus := [], nIters := 1, seed := (env.kernel seed us.length).2 } := by
    obtain ⟨f, rfl⟩ : ∃ f, maxiter = f + 1 := ⟨maxiter - 1, by omega⟩
    have hne : List.range us.length ≠ [] := by
      simpa [List.range_eq_nil] using hus
    unfold lwLoop
    rw [if_neg (show (lwStart us.length js mus seed).idxs ≠ [] from hne), lwBody_eq env valid hg]
    dsimp only [lwStart]
    rw [hml]
    have hsel : ∀ (L : List Nat) (rows : List ρ),
        select L ((rows.map (effValid env valid)).map not) = [] := by
      intro L rows
      rw [List.eq_nil_iff_forall_not_mem]
      intro i hi
      rw [mem_select, List.map_map, mem_zip_map] at hi
      obtain ⟨x, -, hx⟩ := hi
      simp [heff] at hx
    rw [hsel]
    cases f <;> simp [lwLoop]
  have hlocs : assignAt (List.replicate us.length none) (List.range us.length)
      ((List.zipWith env.disp mus (env.kernel seed us.length).1).map some) =
      (List.zipWith env.disp mus (env.kernel seed us.length).1).map some := by
    set rows := List.zipWith env.disp mus (env.kernel seed us.length).1 with hr
    apply List.ext_getElem?
    intro i
    by_cases hi : i < us.length
    · have hi' : i < rows.length := by omega
      have := assignAt_mem (List.replicate us.length none) (List.range us.length) (rows.map some)
        List.nodup_range (by simp) (i, some rows[i]) (by
          rw [List.mem_iff_getElem]
          exact ⟨i, by simp; omega, by simp⟩)
      rw [this]; simp [hi']
    · rw [List.getElem?_eq_none (by rw [assignAt_length]; simp; omega),
        List.getElem?_eq_none (by simp only [List.length_map]; omega)]
  refine ⟨_, mus, (env.kernel seed us.length).2, ?_, ?_, hlocs⟩
  · rw [hmus, hjs, List.map_map]; rfl
  · unfold liuWest
    simp only [Bool.true_eq_false, if_false, hp, hloop, uniform_weights]
    rfl

/-- **C18, exceptions.**  A square root with non-finite error raises `ResamplerError`; a variate at or
above the total weight (possible only when rounding leaves the total below one) raises
`IndexError`. -/
theorem C18_exceptions (env : LwEnv ρ Z ω) (maxiter : Nat) (covZero : Bool) (w : List K)
    (hw : ∀ x ∈ w, 0 ≤ x) (l : List ρ) (hlen : l.length = w.length) (centre : ρ → ρ) (n : Nat)
    (us : List K) (seed : ω) :
    liuWest env maxiter covZero false w l centre n us seed = .error .resamplerError ∧
    ((∃ u ∈ us, w.sum ≤ u) →
      liuWest env maxiter covZero true w l centre n us seed = .error .indexError) := by
  refine ⟨by simp [liuWest], ?_⟩
  rintro ⟨u, hu, hle⟩
  have hj : searchsortedRight (cumsum w) u = w.length := by
    have h0 : 0 ≤ u := (List.sum_nonneg hw).trans hle
    obtain ⟨a, b, c⟩ := takeWhile_shape 0 w u h0
    unfold searchsortedRight
    rw [cumsum_eq]
    rcases lt_or_eq_of_le a with h | h
    · exfalso
      have h1 := c h
      have h2 := take_sum_mono w hw h
      rw [List.take_length] at h2
      rw [zero_add] at h1
      exact absurd h1 (not_lt.2 (h2.trans hle))
    · exact h
  have : lwParents w l centre us = .error .indexError := by
    unfold lwParents
    dsimp only
    rw [if_neg]
    rw [List.all_eq_true]
    intro hall
    have := hall (searchsortedRight (cumsum w) u) (List.mem_map.2 ⟨u, hu, rfl⟩)
    simp [hj, hlen] at this
  simp [liuWest, this]

end

/-- A resampler environment for the cases: rows are numbers, the kernel shifts all of them by the
round number, the value 10 is invalid. -/
def demoLw : LwEnv ℚ ℚ Nat where
  kernel r m := (List.replicate m (r : ℚ), r + 1)
  disp mu z := mu + z
  valid rows := rows.map fun x => decide (x ≠ 10)
  postselect := true

theorem demoLw_good : GoodLw demoLw (fun x => decide (x ≠ 10)) :=
  ⟨fun _ => rfl, fun r m => by simp [demoLw]⟩

/-- Case for C18: `maxiter = 1` leaves one invalid row and says so; `maxiter = 5` none. -/
example : liuWest demoLw 1 false true ([1/2, 1/2] : List ℚ) [0, 10] id 2 [0, 1/2] 0 =
      .ok ([some 0, some 10], [some (1/2), some (1/2)], [.notAllValid 1 1], 1, 1) ∧
    liuWest demoLw 5 false true ([1/2, 1/2] : List ℚ) [0, 10] id 2 [0, 1/2] 0 =
      .ok ([some 0, some 1], [some (1/2), some (1/2)], [], 2, 2) := by
  refine ⟨?_, ?_⟩ <;> decide +kernel

/-! ## C19 -/

/-- **C19, violated.**  In this run (valid environment, `a = 1`, two particles at 0 and 10, equal
weights) the second new particle has parent 10, its first draw 10 is rejected, and its second draw
with displacement 1 is returned as `0 + 1`, around the parent of the *first* particle, instead of
`10 + 1`. -/
theorem C19_redraw_uses_wrong_parent :
    ∃ (env : LwEnv ℚ ℚ Nat) (valid : ℚ → Bool), GoodLw env valid ∧ env.postselect = true ∧
      [(0 : ℚ), 1/2].map (sampleIdx ([1/2, 1/2] : List ℚ)) = [0, 1] ∧
      (env.kernel 0 2).1 = [0, 0] ∧ valid (env.disp 10 0) = false ∧
      (env.kernel 1 1).1 = [1] ∧
      liuWest env 1000 false true ([1/2, 1/2] : List ℚ) [0, 10] id 2 [0, 1/2] 0 =
        .ok ([some (env.disp 0 0), some (env.disp 0 1)], [some (1/2), some (1/2)], [], 2, 2) ∧
      env.disp 0 1 ≠ env.disp 10 1 := by
  refine ⟨demoLw, _, demoLw_good, rfl, ?_, ?_, ?_, ?_, ?_, ?_⟩ <;> decide +kernel

/-- **C19, what the code does.**  After any number of rounds from the start, the `r`-th row still
pending is redrawn around the `r`-th of the original centres, whichever row it is. -/
theorem C19_actual_centre (env : LwEnv ρ Z ω) (valid : ρ → Bool) (hg : GoodLw env valid)
    (n : Nat) (js : List Nat) (mus0 : List ρ) (hmus : mus0.length = n) (seed : ω) (rounds : Nat)
    (s s' : LwState ρ ω)
    (hs : lwLoop env rounds (lwStart n js mus0 seed) = .ok s)
    (hs' : lwBody env s = .ok s') (r : Nat) (hr : r < s.idxs.length) :
    ∃ z mu, mus0[r]? = some mu ∧ (env.kernel s.seed s.idxs.length).1[r]? = some z ∧
      s'.newLocs[s.idxs[r]]? = some (some (env.disp mu z)) := by
  have hinit : LwInv env valid n mus0 False (lwStart n js mus0 seed) :=
    ⟨RejInv.init _ _, by simp [lwStart, ← hmus], by simp [lwStart, hmus]⟩
  obtain ⟨t, h1, h2, -, -⟩ := hinit.loop hg rounds
  rw [hs] at h1
  have : s = t := by simpa using h1
  subst this
  rw [lwBody_eq env valid hg] at hs'
  simp only [Except.ok.injEq] at hs'
  have hlenmu : r < s.mus.length := by rw [h2.muslen]; exact hr
  have hlen0 : r < mus0.length := by
    have := hlenmu; rw [h2.mus, List.length_take] at this; omega
  have hkl : r < (env.kernel s.seed s.idxs.length).1.length := by rw [hg.kernel_len]; exact hr
  refine ⟨(env.kernel s.seed s.idxs.length).1[r], mus0[r], by simp [hlen0], by simp [hkl], ?_⟩
  rw [← hs']
  dsimp only
  have hmur : s.mus[r] = mus0[r] := by
    have := h2.mus
    simp only [this, List.getElem_take]
  refine assignAt_mem _ _ _ h2.rej.nodup (fun i hi => by rw [h2.rej.len]; exact h2.rej.lt i hi)
    (s.idxs[r], some (env.disp mus0[r] (env.kernel s.seed s.idxs.length).1[r])) ?_
  rw [List.mem_iff_getElem]
  refine ⟨r, ?_, ?_⟩
  · simp [h2.muslen, hg.kernel_len]; exact hr
  · simp [h2.muslen, hmur]

/-- **C19, partial.**  A particle accepted in the first round is a draw around its own centre, and
this is what is returned.  Missing, because false: the same for later rounds. -/
theorem C19_first_round_own_parent_partial (env : LwEnv ρ Z ω) (valid : ρ → Bool)
    (hg : GoodLw env valid) (n : Nat) (js : List Nat) (mus0 : List ρ) (hmus : mus0.length = n)
    (seed : ω) (fuel : Nat) (hf : 0 < fuel) (s : LwState ρ ω)
    (hs : lwLoop env fuel (lwStart n js mus0 seed) = .ok s)
    (i : Nat) (hi : i < n) (z : Z) (hz : (env.kernel seed n).1[i]? = some z) (mu : ρ)
    (hmu : mus0[i]? = some mu) (hok : valid (env.disp mu z) = true) :
    s.newLocs[i]? = some (some (env.disp mu z)) := by
  obtain ⟨f, rfl⟩ : ∃ f, fuel = f + 1 := ⟨fuel - 1, by omega⟩
  have hne : List.range n ≠ [] := by simp; omega
  unfold lwLoop at hs
  rw [if_neg (show (lwStart n js mus0 seed).idxs ≠ [] from hne), lwBody_eq env valid hg] at hs
  dsimp only [lwStart] at hs
  have hkl : (env.kernel seed n).1.length = n := hg.kernel_len seed n
  have hmem : (i, env.disp mu z) ∈ (List.range n).zip
      (List.zipWith env.disp mus0 (env.kernel seed mus0.length).1) := by
    rw [List.mem_iff_getElem]
    have a : i < mus0.length := by omega
    have b : i < (env.kernel seed mus0.length).1.length := by rw [hg.kernel_len]; omega
    refine ⟨i, by simp [hg.kernel_len]; omega, ?_⟩
    simp only [List.getElem_zip, List.getElem_range, List.getElem_zipWith, Prod.mk.injEq, true_and]
    have h1 : mus0[i] = mu := by rw [List.getElem?_eq_getElem a] at hmu; simpa using hmu
    have h2 : (env.kernel seed mus0.length).1[i] = z := by
      rw [← hmus, List.getElem?_eq_getElem b] at hz; simpa using hz
    rw [h1, h2]
  have hnot : i ∉ select (List.range n) (((List.zipWith env.disp mus0
      (env.kernel seed mus0.length).1).map (effValid env valid)).map not) := by
    rw [mem_select, List.map_map, mem_zip_map]
    rintro ⟨x, hx, hv⟩
    have := zip_unique List.nodup_range hx hmem
    subst this
    simp [effValid, hok] at hv
  have := (C18_accepted_unchanged env f _ s hs i hnot).1
  rw [this]
  exact assignAt_mem _ _ _ List.nodup_range (by simp) (i, some (env.disp mu z))
    (mem_zip_map.2 ⟨_, hmem, rfl⟩)

/-- **C19, partial.**  Every particle returned is a draw around the centre of *some* chosen parent. -/
theorem C19_some_parent_partial (env : LwEnv ρ Z ω) (valid : ρ → Bool) (hg : GoodLw env valid)
    (n : Nat) (js : List Nat) (mus0 : List ρ) (hmus : mus0.length = n) (seed : ω) (fuel : Nat)
    (s : LwState ρ ω)
    (hs : lwLoop env fuel (lwStart n js mus0 seed) = .ok s) (x : ρ) (hx : some x ∈ s.newLocs) :
    ∃ mu ∈ mus0, ∃ z, x = env.disp mu z := by
  have key : ∀ (fuel : Nat) (st : Prop) (t : LwState ρ ω), LwInv env valid n mus0 st t →
      (∀ x, some x ∈ t.newLocs → ∃ mu ∈ mus0, ∃ z, x = env.disp mu z) →
      ∀ s, lwLoop env fuel t = .ok s →
        ∀ x, some x ∈ s.newLocs → ∃ mu ∈ mus0, ∃ z, x = env.disp mu z := by
    intro fuel
    induction fuel with
    | zero =>
      intro st t _ ht s hs
      simp only [lwLoop, Except.ok.injEq] at hs; subst hs; exact ht
    | succ fuel ih =>
      intro st t hinv ht s hs
      unfold lwLoop at hs
      split at hs
      · simp only [Except.ok.injEq] at hs; subst hs; exact ht
      · obtain ⟨t', hb, hinv', -⟩ := hinv.body hg
        rw [hb] at hs
        refine ih True t' hinv' ?_ s hs
        rw [lwBody_eq env valid hg] at hb
        simp only [Except.ok.injEq] at hb
        subst hb
        intro x hx
        dsimp only at hx
        obtain ⟨i, hi, hix⟩ := List.getElem_of_mem hx
        by_cases hmem : i ∈ t.idxs
        · have hrows : (List.zipWith env.disp t.mus (env.kernel t.seed t.mus.length).1).length =
              t.idxs.length := by
            rw [List.length_zipWith, hg.kernel_len, hinv.muslen]; simp
          obtain ⟨y, hy⟩ := exists_zip hrows hmem
          have := assignAt_mem t.newLocs t.idxs _ hinv.rej.nodup
            (fun i hi => by rw [hinv.rej.len]; exact hinv.rej.lt i hi) (i, some y)
            (mem_zip_map.2 ⟨y, hy, rfl⟩)
          rw [List.getElem?_eq_getElem hi, hix] at this
          have hxy : x = y := by simpa using this
          subst hxy
          have hmem2 := (List.of_mem_zip hy).2
          obtain ⟨k, hk, hkx⟩ := List.getElem_of_mem hmem2
          rw [List.getElem_zipWith] at hkx
          have hsub : ∀ m ∈ t.mus, m ∈ mus0 := by
            rw [hinv.mus]; exact fun m hm => List.mem_of_mem_take hm
          exact ⟨_, hsub _ (List.getElem_mem _), _, hkx.symm⟩
        · have := assignAt_not_mem t.newLocs t.idxs
            ((List.zipWith env.disp t.mus (env.kernel t.seed t.mus.length).1).map some) i hmem
          rw [List.getElem?_eq_getElem hi, hix] at this
          exact ht x (List.mem_of_getElem? this.symm)
  refine key fuel False _ ⟨RejInv.init _ _, by simp [lwStart, ← hmus], by simp [lwStart, hmus]⟩ ?_ s hs x hx
  intro x hx; simp [lwStart] at hx

/-! ## C20 -/

/-- **C20, `h` follows `a`.**  Without an explicit `h`, after any sequence of assignments to `a` the
parameters satisfy `a² + h² = 1` with `h ≥ 0` if the last value has `|a| ≤ 1`, and `h` is NaN
otherwise. -/
theorem C20_h_consistent (a : ℝ) (as : List ℝ) :
    let p := as.foldl LwParams.setA (LwParams.init a none)
    p.a = (a :: as).getLast (by simp) ∧
    (|p.a| ≤ 1 → ∃ h, p.h = some h ∧ 0 ≤ h ∧ p.a ^ 2 + h ^ 2 = 1) ∧ (1 < |p.a| → p.h = none) := by
  have key : ∀ (as : List ℝ) (p : LwParams), p.overrideH = false → p.h = npSqrt (1 - p.a ^ 2) →
      (as.foldl LwParams.setA p).a = (p.a :: as).getLast (by simp) ∧
      (as.foldl LwParams.setA p).h = npSqrt (1 - (as.foldl LwParams.setA p).a ^ 2) := by
    intro as
    induction as with
    | nil => intro p _ h; exact ⟨rfl, h⟩
    | cons b as ih =>
      intro p ho _
      obtain ⟨h1, h2⟩ := ih (p.setA b) (by simpa [LwParams.setA] using ho)
        (by simp [LwParams.setA, ho])
      refine ⟨?_, h2⟩
      rw [List.foldl_cons, h1, List.getLast_cons (by simp : b :: as ≠ [])]
      rfl
  obtain ⟨h1, h2⟩ := key as (LwParams.init a none) rfl (by simp [LwParams.init, LwParams.setA])
  refine ⟨h1, ?_, ?_⟩
  · intro ha
    rw [h2]
    have : (as.foldl LwParams.setA (LwParams.init a none)).a ^ 2 ≤ 1 := (sq_le_one_iff_abs_le_one _).2 ha
    refine ⟨_, if_neg (by linarith), Real.sqrt_nonneg _, ?_⟩
    rw [Real.sq_sqrt (by linarith)]; ring
  · intro ha
    rw [h2]
    have : 1 < (as.foldl LwParams.setA (LwParams.init a none)).a ^ 2 := (one_lt_sq_iff_one_lt_abs _).2 ha
    exact if_pos (by linarith)

/-- **C20, override.**  An explicit `h` survives every later assignment to `a`. -/
theorem C20_override_kept (a h : ℝ) (as : List ℝ) :
    let p := as.foldl LwParams.setA (LwParams.init a (some h))
    p.a = (a :: as).getLast (by simp) ∧ p.h = some h := by
  have key : ∀ (as : List ℝ) (p : LwParams), p.overrideH = true →
      (as.foldl LwParams.setA p).a = (p.a :: as).getLast (by simp) ∧
      (as.foldl LwParams.setA p).h = p.h := by
    intro as
    induction as with
    | nil => intro p _; exact ⟨rfl, rfl⟩
    | cons b as ih =>
      intro p ho
      obtain ⟨h1, h2⟩ := ih (p.setA b) (by simpa [LwParams.setA] using ho)
      refine ⟨?_, ?_⟩
      · rw [List.foldl_cons, h1, List.getLast_cons (by simp : b :: as ≠ [])]; rfl
      · rw [List.foldl_cons, h2]; simp [LwParams.setA, ho]
  exact key as (LwParams.init a (some h)) rfl

open MeasureTheory in
/-- A kernel law with mean zero and unit covariance. -/
structure UnitKernel {d : Nat} (κ : Measure (Fin d → ℝ)) : Prop where
  prob : IsProbabilityMeasure κ
  int1 : ∀ r, Integrable (fun z => z r) κ
  int2 : ∀ r s, Integrable (fun z => z r * z s) κ
  mean : ∀ r, ∫ z, z r ∂κ = 0
  cov : ∀ r s, ∫ z, z r * z s ∂κ = if r = s then 1 else 0

open MeasureTheory in
/-- Expectation over the parent (probabilities `w`) and an independent kernel draw. -/
noncomputable def expect {n d : Nat} (w : Fin n → ℝ) (κ : Measure (Fin d → ℝ))
    (f : Fin n → (Fin d → ℝ) → ℝ) : ℝ := ∑ j, w j * ∫ z, f j z ∂κ

section
open MeasureTheory
variable {n d : Nat}

/-- **C20, mean.** -/
theorem C20_mean_preserved (w : Fin n → ℝ) (hw : ∑ i, w i = 1) (x : Fin n → Fin d → ℝ) (a h : ℝ)
    (S : Matrix (Fin d) (Fin d) ℝ) (κ : Measure (Fin d → ℝ)) (hκ : UnitKernel κ) (m : Fin d) :
    expect w κ (fun j z => lwLocation a h (pmean w x) S x j z m) = pmean w x m := by
  have := hκ.prob
  have hlin : ∫ z : Fin d → ℝ, ∑ r, (h * S m r) * z r ∂κ = 0 := by
    rw [integral_finset_sum _ fun r _ => (hκ.int1 r).const_mul _]
    refine Finset.sum_eq_zero fun r _ => ?_
    rw [integral_const_mul, hκ.mean, mul_zero]
  have hint : Integrable (fun z : Fin d → ℝ => ∑ r, (h * S m r) * z r) κ :=
    integrable_finset_sum _ fun r _ => (hκ.int1 r).const_mul _
  have hj : ∀ j, ∫ z, lwLocation a h (pmean w x) S x j z m ∂κ =
      a * x j m + (1 - a) * pmean w x m := by
    intro j
    unfold lwLocation
    rw [integral_add (integrable_const _) hint, hlin, integral_const]
    simp
  unfold expect
  simp only [hj, mul_add, Finset.sum_add_distrib]
  rw [← Finset.sum_mul, hw]
  have : ∑ i, w i * (a * x i m) = a * pmean w x m := by
    unfold pmean; rw [Finset.mul_sum]; exact Finset.sum_congr rfl fun i _ => by ring
  rw [this]; ring

/-- **C20, covariance.**  About the mean of the cloud, the covariance of a new particle is
`a² cov + h² S Sᵀ`. -/
theorem C20_cov_formula (w : Fin n → ℝ) (hw : ∑ i, w i = 1) (x : Fin n → Fin d → ℝ) (a h : ℝ)
    (S : Matrix (Fin d) (Fin d) ℝ) (κ : Measure (Fin d → ℝ)) (hκ : UnitKernel κ) (m k : Fin d) :
    expect w κ (fun j z => (lwLocation a h (pmean w x) S x j z m - pmean w x m) *
      (lwLocation a h (pmean w x) S x j z k - pmean w x k)) =
    a ^ 2 * pcov w x m k + h ^ 2 * (S * S.transpose) m k := by
  have := hκ.prob
  have hlin : ∀ m, ∫ z : Fin d → ℝ, ∑ r, (h * S m r) * z r ∂κ = 0 := by
    intro m
    rw [integral_finset_sum _ fun r _ => (hκ.int1 r).const_mul _]
    refine Finset.sum_eq_zero fun r _ => ?_
    rw [integral_const_mul, hκ.mean, mul_zero]
  have hint : ∀ m, Integrable (fun z : Fin d → ℝ => ∑ r, (h * S m r) * z r) κ := fun m =>
    integrable_finset_sum _ fun r _ => (hκ.int1 r).const_mul _
  have hprod : ∀ z : Fin d → ℝ, (∑ r, (h * S m r) * z r) * (∑ r, (h * S k r) * z r) =
      ∑ r, ∑ s, (h * S m r * (h * S k s)) * (z r * z s) := by
    intro z
    rw [Finset.sum_mul_sum]
    exact Finset.sum_congr rfl fun r _ => Finset.sum_congr rfl fun s _ => by ring
  have hint2 : Integrable (fun z : Fin d → ℝ =>
      (∑ r, (h * S m r) * z r) * (∑ r, (h * S k r) * z r)) κ := by
    simp only [hprod]
    exact integrable_finset_sum _ fun r _ => integrable_finset_sum _ fun s _ =>
      (hκ.int2 r s).const_mul _
  have hquad : ∫ z : Fin d → ℝ, (∑ r, (h * S m r) * z r) * (∑ r, (h * S k r) * z r) ∂κ =
      h ^ 2 * (S * S.transpose) m k := by
    simp only [hprod]
    rw [integral_finset_sum _ fun r _ => integrable_finset_sum _ fun s _ =>
      (hκ.int2 r s).const_mul _, Matrix.mul_apply, Finset.mul_sum]
    refine Finset.sum_congr rfl fun r _ => ?_
    rw [integral_finset_sum _ fun s _ => (hκ.int2 r s).const_mul _]
    simp only [integral_const_mul, hκ.cov]
    simp [Matrix.transpose_apply]
    ring
  have hj : ∀ j, ∫ z, (lwLocation a h (pmean w x) S x j z m - pmean w x m) *
      (lwLocation a h (pmean w x) S x j z k - pmean w x k) ∂κ =
      a ^ 2 * ((x j m - pmean w x m) * (x j k - pmean w x k)) +
        h ^ 2 * (S * S.transpose) m k := by
    intro j
    set A := a * (x j m - pmean w x m) with hA
    set B := a * (x j k - pmean w x k) with hB
    have heq : ∀ z, (lwLocation a h (pmean w x) S x j z m - pmean w x m) *
        (lwLocation a h (pmean w x) S x j z k - pmean w x k) =
        (A * B + A * (∑ r, (h * S k r) * z r) + B * (∑ r, (h * S m r) * z r)) +
          (∑ r, (h * S m r) * z r) * (∑ r, (h * S k r) * z r) := by
      intro z
      unfold lwLocation
      rw [hA, hB]; ring
    simp only [heq]
    rw [integral_add _ hint2, integral_add _ ((hint m).const_mul _),
      integral_add (integrable_const _) ((hint k).const_mul _), integral_const,
      integral_const_mul A, integral_const_mul B, hlin, hlin, hquad]
    · simp [hA, hB]; ring
    · exact (integrable_const _).add ((hint k).const_mul _)
    · exact ((integrable_const _).add ((hint k).const_mul _)).add ((hint m).const_mul _)
  unfold expect
  simp only [hj, mul_add, Finset.sum_add_distrib]
  rw [← Finset.sum_mul, hw, one_mul]
  congr 1
  unfold pcov
  have h1 : ∀ i, w i * (a ^ 2 * ((x i m - pmean w x m) * (x i k - pmean w x k))) =
      a ^ 2 * (w i * x i m * x i k) - (a ^ 2 * pmean w x k) * (w i * x i m) -
        (a ^ 2 * pmean w x m) * (w i * x i k) + (a ^ 2 * (pmean w x m * pmean w x k)) * w i := by
    intro i; ring
  simp only [h1, Finset.sum_add_distrib, Finset.sum_sub_distrib, ← Finset.mul_sum, hw]
  have hm : ∀ m, ∑ i, w i * x i m = pmean w x m := fun _ => rfl
  rw [hm, hm]; ring

/-- **C20.**  When `S` is a square root of the covariance of the cloud (what `sqrtm_psd` returns), a
new particle has `a² + h²` times that covariance; equal to it when `a² + h² = 1`. -/
theorem C20_cov_scaled (w : Fin n → ℝ) (hw : ∑ i, w i = 1) (x : Fin n → Fin d → ℝ) (a h : ℝ)
    (S : Matrix (Fin d) (Fin d) ℝ) (hS : S * S.transpose = pcov w x)
    (κ : Measure (Fin d → ℝ)) (hκ : UnitKernel κ) (m k : Fin d) :
    expect w κ (fun j z => (lwLocation a h (pmean w x) S x j z m - pmean w x m) *
      (lwLocation a h (pmean w x) S x j z k - pmean w x k)) = (a ^ 2 + h ^ 2) * pcov w x m k ∧
    (a ^ 2 + h ^ 2 = 1 →
      expect w κ (fun j z => (lwLocation a h (pmean w x) S x j z m - pmean w x m) *
        (lwLocation a h (pmean w x) S x j z k - pmean w x k)) = pcov w x m k) := by
  have := C20_cov_formula w hw x a h S κ hκ m k
  rw [hS] at this
  constructor
  · rw [this]; ring
  · intro hah; rw [this, ← add_mul, hah, one_mul]

/-- Case for C20: the law of a fair sign is a unit kernel in one dimension. -/
theorem sign_unitKernel : UnitKernel (d := 1)
    ((2 : ENNReal)⁻¹ • (Measure.dirac (fun _ => (1 : ℝ)) + Measure.dirac fun _ => (-1 : ℝ))) := by
  have hi : ∀ f : (Fin 1 → ℝ) → ℝ, Measurable f → Integrable f
      ((2 : ENNReal)⁻¹ • (Measure.dirac (fun _ => (1 : ℝ)) + Measure.dirac fun _ => (-1 : ℝ))) := by
    intro f hf
    refine Integrable.smul_measure ?_ (by simp)
    rw [integrable_add_measure]
    exact ⟨integrable_dirac (by simp), integrable_dirac (by simp)⟩
  have hv : ∀ f : (Fin 1 → ℝ) → ℝ, Measurable f → ∫ z, f z
      ∂((2 : ENNReal)⁻¹ • (Measure.dirac (fun _ => (1 : ℝ)) + Measure.dirac fun _ => (-1 : ℝ))) =
      (f (fun _ => 1) + f (fun _ => -1)) / 2 := by
    intro f hf
    rw [integral_smul_measure, integral_add_measure (integrable_dirac (by simp))
      (integrable_dirac (by simp)), integral_dirac, integral_dirac]
    simp; ring
  refine ⟨⟨?_⟩, ?_, ?_, ?_, ?_⟩
  · simp only [Measure.smul_apply, Measure.add_apply, measure_univ, smul_eq_mul]
    rw [one_add_one_eq_two]
    exact ENNReal.inv_mul_cancel (by simp) (by simp)
  · exact fun r => hi _ (measurable_pi_apply r)
  · exact fun r s => hi _ ((measurable_pi_apply r).mul (measurable_pi_apply s))
  · intro r; rw [hv _ (measurable_pi_apply r)]; norm_num
  · intro r s
    rw [hv (fun z => z r * z s) ((measurable_pi_apply r).mul (measurable_pi_apply s)), if_pos (Subsingleton.elim r s)]
    norm_num

/-- Case: the cloud `{-1, 1}` has covariance 1, with square root 1. -/
example : (1 : Matrix (Fin 1) (Fin 1) ℝ) * (1 : Matrix (Fin 1) (Fin 1) ℝ).transpose =
    pcov (fun _ : Fin 2 => (1/2 : ℝ)) (fun i _ => if i = 0 then -1 else 1) := by
  ext i j
  have : i = j := Subsingleton.elim i j
  subst this
  simp [pcov, pmean, Fin.sum_univ_two]
  norm_num

end

/-! ## C21 -/

theorem RejInv.postLoop {dist : ω → Nat → List ρ × ω} {valid : ρ → Bool}
    (hd : ∀ r m, (dist r m).1.length = m) {n : Nat} (fuel : Nat) {st : Prop}
    {samples : List (Option ρ)} {idxs : List Nat} (seed : ω)
    (h : RejInv n (fun x => valid x = true) st samples idxs) :
    ∃ st', RejInv n (fun x => valid x = true) st'
      (QInfer.postLoop dist valid fuel samples idxs seed).1
      (QInfer.postLoop dist valid fuel samples idxs seed).2.1 := by
  induction fuel generalizing st samples idxs seed with
  | zero => exact ⟨st, h⟩
  | succ fuel ih =>
    unfold QInfer.postLoop
    split
    · exact ⟨st, h⟩
    · exact ih _ (h.round _ (hd seed idxs.length))

/-- **C21.**  When `sample(n)` returns, it returns `n` rows, all drawn and all valid; whatever holds
for every row the underlying distribution can produce holds for them. -/
theorem C21_samples_valid (dist : ω → Nat → List ρ × ω) (valid : ρ → Bool)
    (hd : ∀ r m, (dist r m).1.length = m) (maxiters n : Nat) (seed : ω) (rows : List (Option ρ))
    (h : (postSample dist valid maxiters n seed).1 = .ok rows) :
    ∃ xs : List ρ, rows = xs.map some ∧ xs.length = n ∧
      ∀ x ∈ xs, valid x = true ∧ ∃ r m, x ∈ (dist r m).1 := by
  have hprod : ∀ (fuel : Nat) (s : List (Option ρ)) (idxs : List Nat) (seed : ω),
      (∀ x, some x ∈ s → ∃ r m, x ∈ (dist r m).1) →
      ∀ x, some x ∈ (postLoop dist valid fuel s idxs seed).1 → ∃ r m, x ∈ (dist r m).1 := by
    intro fuel
    induction fuel with
    | zero => intro s idxs seed hs x hx; exact hs x hx
    | succ fuel ih =>
      intro s idxs seed hs x hx
      unfold postLoop at hx
      split at hx
      · exact hs x hx
      · refine ih _ _ _ ?_ x hx
        have : ∀ (ps : List (Nat × Option ρ)) (a : List (Option ρ)),
            (∀ p ∈ ps, ∀ y, p.2 = some y → ∃ r m, y ∈ (dist r m).1) →
            (∀ x, some x ∈ a → ∃ r m, x ∈ (dist r m).1) →
            ∀ x, some x ∈ ps.foldl (fun a p => a.set p.1 p.2) a → ∃ r m, x ∈ (dist r m).1 := by
          intro ps
          induction ps with
          | nil => intro a _ ha x hx; exact ha x hx
          | cons p ps ihp =>
            intro a hps ha x hx
            refine ihp (a.set p.1 p.2) (fun q hq => hps q (by simp [hq])) ?_ x hx
            intro y hy
            rcases List.mem_or_eq_of_mem_set hy with hy | hy
            · exact ha y hy
            · exact hps p (by simp) y hy.symm
        refine this _ s ?_ hs
        intro p hp y hy
        have := (List.of_mem_zip hp).2
        rw [hy] at this
        obtain ⟨z, hz, hzy⟩ := List.mem_map.1 this
        have : z = y := by simpa using hzy
        subst this
        exact ⟨_, _, hz⟩
  obtain ⟨st', hinv⟩ := (RejInv.init (ρ := ρ) n (fun x => valid x = true)).postLoop hd maxiters seed
  unfold postSample at h
  dsimp only at h
  split at h
  · rename_i hi
    simp only [Except.ok.injEq] at h
    rw [h, hi] at hinv
    have hsome : ∀ o ∈ rows, ∃ x, o = some x ∧ valid x = true := by
      intro o ho
      obtain ⟨i, hi', rfl⟩ := List.getElem_of_mem ho
      obtain ⟨x, hx, hv⟩ := hinv.done i (by rw [← hinv.len]; exact hi') (by simp)
      rw [List.getElem?_eq_getElem hi'] at hx
      exact ⟨x, by simpa using hx, hv⟩
    have hmap : rows = (rows.filterMap id).map some := by
      clear hinv h hprod
      induction rows with
      | nil => rfl
      | cons o rows ih =>
        obtain ⟨x, rfl, -⟩ := hsome o (by simp)
        exact congrArg (some x :: ·) (ih fun o ho => hsome o (by simp [ho]))
    refine ⟨rows.filterMap id, hmap, ?_, ?_⟩
    · have := hinv.len
      rw [hmap, List.length_map] at this
      exact this
    · intro x hx
      have hx' : some x ∈ rows := by
        rw [hmap]; exact List.mem_map.2 ⟨x, hx, rfl⟩
      obtain ⟨y, hy, hv⟩ := hsome _ hx'
      have : x = y := by simpa using hy
      subst this
      refine ⟨hv, hprod maxiters (List.replicate n none) (List.range n) seed (by simp) x ?_⟩
      rw [h]; exact hx'
  · cases h

/-- The underlying distribution with a count of its calls. -/
def counted (dist : ω → Nat → List ρ × ω) : ω × Nat → Nat → List ρ × (ω × Nat) :=
  fun r m => ((dist r.1 m).1, ((dist r.1 m).2, r.2 + 1))

/-- **C21, bounded.**  The only exception is `RuntimeError`.  The underlying distribution is asked at
most `maxiters` times, exactly `maxiters` times before the exception; so `maxiters = 0` and `n > 0`
always raises. -/
theorem C21_runtime_error (dist : ω → Nat → List ρ × ω) (valid : ρ → Bool) (maxiters n : Nat)
    (seed : ω) :
    let r := postSample (counted dist) valid maxiters n (seed, 0)
    r.2.2 ≤ maxiters ∧ (∀ e, r.1 = .error e → e = .runtimeError ∧ r.2.2 = maxiters) ∧
    (maxiters = 0 → 0 < n → r.1 = .error .runtimeError) ∧ (n = 0 → r.1 = .ok [] ∧ r.2.2 = 0) := by
  have key : ∀ (fuel : Nat) (s : List (Option ρ)) (idxs : List Nat) (seed : ω × Nat),
      (postLoop (counted dist) valid fuel s idxs seed).2.2.2 ≤ seed.2 + fuel ∧
      ((postLoop (counted dist) valid fuel s idxs seed).2.1 ≠ [] →
        (postLoop (counted dist) valid fuel s idxs seed).2.2.2 = seed.2 + fuel) := by
    intro fuel
    induction fuel with
    | zero => intro s idxs seed; exact ⟨le_rfl, fun _ => rfl⟩
    | succ fuel ih =>
      intro s idxs seed
      unfold postLoop
      split
      · rename_i hi; exact ⟨by dsimp only; omega, fun hc => absurd hi hc⟩
      · obtain ⟨a, b⟩ := ih (assignAt s idxs ((counted dist seed idxs.length).1.map some))
          (select idxs (((counted dist seed idxs.length).1.map valid).map not))
          (counted dist seed idxs.length).2
        have hc : (counted dist seed idxs.length).2.2 = seed.2 + 1 := rfl
        exact ⟨by dsimp only; omega, fun h => by have := b h; dsimp only; omega⟩
  obtain ⟨a, b⟩ := key maxiters (List.replicate n none) (List.range n) (seed, 0)
  rw [Nat.zero_add] at a b
  unfold postSample
  dsimp only
  refine ⟨?_, ?_, ?_, ?_⟩
  · split <;> exact a
  · intro e he
    split at he
    · cases he
    · rename_i hi
      rw [if_neg hi]
      simp only [Except.error.injEq] at he
      exact ⟨he.symm, b hi⟩
  · rintro rfl hn
    rw [if_neg]
    simp [postLoop]; omega
  · rintro rfl
    cases maxiters <;> simp [postLoop]

/-- **C21, valid samples are not redrawn.** -/
theorem C21_accepted_unchanged (dist : ω → Nat → List ρ × ω) (valid : ρ → Bool) (fuel : Nat)
    (samples : List (Option ρ)) (idxs : List Nat) (seed : ω) (i : Nat) (hi : i ∉ idxs) :
    (postLoop dist valid fuel samples idxs seed).1[i]? = samples[i]? ∧
      i ∉ (postLoop dist valid fuel samples idxs seed).2.1 := by
  induction fuel generalizing samples idxs seed with
  | zero => exact ⟨rfl, hi⟩
  | succ fuel ih =>
    unfold postLoop
    split
    · exact ⟨rfl, hi⟩
    · obtain ⟨a, b⟩ := ih _ _ _ (fun hc => hi ((select_sublist _ _).subset hc))
      exact ⟨a.trans (assignAt_not_mem _ _ _ _ hi), b⟩

/-- **C21, first draw kept.**  A row that is valid in the first block is the row returned. -/
theorem C21_first_valid_kept (dist : ω → Nat → List ρ × ω) (valid : ρ → Bool)
    (maxiters n : Nat) (hm : 0 < maxiters) (seed : ω) (rows : List (Option ρ))
    (h : (postSample dist valid maxiters n seed).1 = .ok rows) (i : Nat) (hi : i < n) (x : ρ)
    (hx : (dist seed n).1[i]? = some x) (hv : valid x = true) : rows[i]? = some (some x) := by
  obtain ⟨f, rfl⟩ : ∃ f, maxiters = f + 1 := ⟨maxiters - 1, by omega⟩
  have hne : List.range n ≠ [] := by simp; omega
  have hmem : (i, x) ∈ (List.range n).zip (dist seed n).1 := by
    obtain ⟨hlt, he⟩ := List.getElem?_eq_some_iff.1 hx
    rw [List.mem_iff_getElem]
    exact ⟨i, by simp; omega, by simp [he]⟩
  have hnot : i ∉ select (List.range n) (((dist seed n).1.map valid).map not) := by
    rw [mem_select, List.map_map, mem_zip_map]
    rintro ⟨y, hy, hv'⟩
    have := zip_unique List.nodup_range hy hmem
    subst this
    simp [hv] at hv'
  have hfin := (C21_accepted_unchanged dist valid f
    (assignAt (List.replicate n none) (List.range n) ((dist seed n).1.map some))
    (select (List.range n) (((dist seed n).1.map valid).map not)) (dist seed n).2 i hnot).1
  rw [assignAt_mem _ _ _ List.nodup_range (by simp) (i, some x)
    (mem_zip_map.2 ⟨_, hmem, rfl⟩)] at hfin
  unfold postSample at h
  dsimp only at h
  split at h
  · simp only [Except.ok.injEq] at h
    rw [← h]
    unfold postLoop
    rw [if_neg hne]
    simpa using hfin
  · cases h

/-- Case for C21: a sampler counting upwards, odd numbers valid. -/
example : postSample (fun (r : Nat) m => ((List.range m).map (r + ·), r + m))
      (fun x => x % 2 == 1) 5 3 0 = (.ok [some 3, some 1, some 5], 6) ∧
    postSample (fun (r : Nat) m => ((List.range m).map (r + ·), r + m))
      (fun x => x % 2 == 1) 2 3 0 = (.error .runtimeError, 5) := by
  refine ⟨?_, ?_⟩ <;> decide +kernel

end QInfer
