import Verif.Model.RoundDraw
import Verif.Props.RoundEst
import Verif.Lemmas.Particle

/-!
# C155: draws in rounded arithmetic
-/

namespace QInfer

/-! ## Rounding to binary digits is monotone -/

theorem round_le_round {x y : ℝ} (h : x ≤ y) : round x ≤ round y := by
  rw [round_eq, round_eq]
  exact Int.floor_le_floor (by linarith)

theorem nearest_rep (p : ℕ) (e m : ℤ) (h1 : 2 ^ ((p : ℤ) - 1) ≤ (m : ℝ)) (h2 : (m : ℝ) < 2 ^ (p : ℤ)) :
    Spec.nearest p (m * 2 ^ e) = m * 2 ^ e := by
  have he : (0 : ℝ) < 2 ^ e := zpow_pos two_pos e
  have hk : e + (p - 1 : ℤ) - (p - 1 : ℤ) = e := by ring
  have hq : (m * 2 ^ e / 2 ^ (e + (p - 1 : ℤ) - (p - 1 : ℤ)) : ℝ) = m := by
    rw [hk, mul_div_assoc, div_self he.ne', mul_one]
  have := nearest_eq p (e + (p - 1 : ℤ)) m (m * 2 ^ e)
    (by rw [zpow_add₀ two_ne_zero, mul_comm]; exact mul_le_mul_of_nonneg_right h1 he.le)
    (by
      rw [show e + (p - 1 : ℤ) + 1 = p + e by ring, zpow_add₀ two_ne_zero]
      exact mul_lt_mul_of_pos_right h2 he)
    (by rw [hq]; linarith) (by rw [hq]; linarith)
  rw [this, hk]

/-- The value between the powers of two around it. -/
theorem nearest_between (p : ℕ) {x : ℝ} (hx : 0 < x) : ∃ e m : ℤ, Spec.nearest p x = m * 2 ^ e ∧
    e = Int.log 2 x - (p - 1 : ℤ) ∧ m = round (x / 2 ^ e) ∧ (2 : ℝ) ^ (Int.log 2 x) ≤ x ∧
      x < 2 ^ (Int.log 2 x + 1) := by
  refine ⟨Int.log 2 x - (p - 1 : ℤ), round (x / 2 ^ (Int.log 2 x - (p - 1 : ℤ))), ?_, rfl, rfl,
    Int.zpow_log_le_self (b := 2) one_lt_two hx, Int.lt_zpow_succ_log_self (b := 2) one_lt_two x⟩
  unfold Spec.nearest
  rw [if_neg hx.ne', abs_of_pos hx]

theorem nearest_bounds (p : ℕ) (hp : 0 < p) {x : ℝ} (hx : 0 < x) : ∃ m : ℤ,
    Spec.nearest p x = m * 2 ^ (Int.log 2 x - (p - 1 : ℤ)) ∧ (2 : ℝ) ^ ((p : ℤ) - 1) ≤ m ∧ (m : ℝ) ≤ 2 ^ (p : ℤ) := by
  obtain ⟨e, m, h1, he, hm, h2, h3⟩ := nearest_between p hx
  have he0 : (0 : ℝ) < 2 ^ e := zpow_pos two_pos e
  have hlog : Int.log 2 x = (p - 1 : ℤ) + e := by rw [he]; ring
  refine ⟨m, by rw [h1, he], ?_, ?_⟩
  · have hq : (2 : ℝ) ^ ((p : ℤ) - 1) ≤ x / 2 ^ e := by
      rw [le_div_iff₀ he0, ← zpow_add₀ two_ne_zero, ← hlog]; exact h2
    have hi : ((2 ^ (p - 1) : ℤ) : ℝ) = 2 ^ ((p : ℤ) - 1) := by
      push_cast
      rw [← zpow_natCast]
      congr 1
      omega
    have := round_le_round (hi ▸ hq : ((2 ^ (p - 1) : ℤ) : ℝ) ≤ x / 2 ^ e)
    rw [round_intCast, ← hm] at this
    rw [← hi]
    exact_mod_cast this
  · have hq : x / 2 ^ e ≤ (2 : ℝ) ^ (p : ℤ) := by
      rw [div_le_iff₀ he0, ← zpow_add₀ two_ne_zero]
      refine h3.le.trans (le_of_eq ?_)
      rw [hlog]
      congr 1
      ring
    have hi : ((2 ^ p : ℤ) : ℝ) = 2 ^ (p : ℤ) := by push_cast; rw [zpow_natCast]
    have := round_le_round (hi ▸ hq : x / 2 ^ e ≤ ((2 ^ p : ℤ) : ℝ))
    rw [round_intCast, ← hm] at this
    rw [← hi]
    exact_mod_cast this

theorem nearest_idem (p : ℕ) (hp : 0 < p) {x : ℝ} (hx : 0 ≤ x) :
    Spec.nearest p (Spec.nearest p x) = Spec.nearest p x := by
  rcases hx.eq_or_lt with rfl | hx
  · simp [Spec.nearest]
  obtain ⟨m, h1, h2, h3⟩ := nearest_bounds p hp hx
  rw [h1]
  rcases h3.eq_or_lt with h3 | h3
  · obtain ⟨e, he⟩ : ∃ e, e = Int.log 2 x - (p - 1 : ℤ) := ⟨_, rfl⟩
    rw [← he, h3]
    have e1 : ((2 : ℝ) ^ (p : ℤ) * 2 ^ e) = ((2 ^ (p - 1) : ℤ) : ℝ) * 2 ^ (e + 1) := by
      push_cast
      rw [← zpow_natCast, ← zpow_add₀ two_ne_zero, ← zpow_add₀ two_ne_zero]
      congr 1
      omega
    rw [e1]
    have e2 : ((2 ^ (p - 1) : ℤ) : ℝ) = 2 ^ ((p : ℤ) - 1) := by
      push_cast
      rw [← zpow_natCast]
      congr 1
      omega
    refine nearest_rep p _ _ (le_of_eq e2.symm) ?_
    rw [e2]
    exact zpow_lt_zpow_right₀ one_lt_two (by omega)
  · exact nearest_rep p _ m h2 h3

theorem nearest_mono (p : ℕ) (hp : 0 < p) {x y : ℝ} (hx : 0 ≤ x) (hxy : x ≤ y) :
    Spec.nearest p x ≤ Spec.nearest p y := by
  rcases hx.eq_or_lt with rfl | hx
  · rcases hxy.eq_or_lt with rfl | hy
    · exact le_rfl
    · obtain ⟨m, h1, h2, -⟩ := nearest_bounds p hp hy
      have h0 : Spec.nearest p 0 = 0 := by simp [Spec.nearest]
      rw [h1, h0]
      exact mul_nonneg (le_trans (zpow_pos two_pos _).le h2) (zpow_pos two_pos _).le
  have hy := lt_of_lt_of_le hx hxy
  have hlog : Int.log 2 x ≤ Int.log 2 y := Int.log_mono_right hx hxy
  rcases hlog.eq_or_lt with hl | hl
  · obtain ⟨e, m, h1, he, hm, -⟩ := nearest_between p hx
    obtain ⟨e', m', h1', he', hm', -⟩ := nearest_between p hy
    have hee : e' = e := by rw [he, he', hl]
    subst hee
    have he0 : (0 : ℝ) < 2 ^ e' := zpow_pos two_pos e'
    rw [h1, h1']
    refine mul_le_mul_of_nonneg_right ?_ he0.le
    rw [hm, hm']
    exact_mod_cast round_le_round (div_le_div_of_nonneg_right hxy he0.le)
  · obtain ⟨m, h1, -, h3⟩ := nearest_bounds p hp hx
    obtain ⟨m', h1', h2', -⟩ := nearest_bounds p hp hy
    rw [h1, h1']
    calc (m : ℝ) * 2 ^ (Int.log 2 x - (p - 1 : ℤ)) ≤ 2 ^ (p : ℤ) * 2 ^ (Int.log 2 x - (p - 1 : ℤ)) :=
          mul_le_mul_of_nonneg_right h3 (zpow_pos two_pos _).le
      _ = 2 ^ (Int.log 2 x + 1) := by
          rw [← zpow_add₀ two_ne_zero]; congr 1; ring
      _ ≤ 2 ^ (Int.log 2 y) := zpow_le_zpow_right₀ one_le_two (by omega)
      _ = 2 ^ ((p : ℤ) - 1) * 2 ^ (Int.log 2 y - (p - 1 : ℤ)) := by
          rw [← zpow_add₀ two_ne_zero]; congr 1; ring
      _ ≤ _ := mul_le_mul_of_nonneg_right h2' (zpow_pos two_pos _).le

theorem nearest_nonneg (p : ℕ) (hp : 0 < p) {x : ℝ} (hx : 0 ≤ x) : 0 ≤ Spec.nearest p x := by
  have := nearest_mono p hp le_rfl hx
  have h0 : Spec.nearest p 0 = 0 := by simp [Spec.nearest]
  rwa [h0] at this

/-! ## Cumulative sums -/

theorem cumRound_length (radd : ℝ → ℝ → ℝ) (w : List ℝ) : (cumRound radd w).length = w.length := by
  cases w with
  | nil => rfl
  | cons a l => simp [cumRound]

theorem cumRound_zero (radd : ℝ → ℝ → ℝ) (a : ℝ) (l : List ℝ) (h : 0 < (cumRound radd (a :: l)).length) :
    (cumRound radd (a :: l))[0] = a := by
  simp [cumRound]

theorem cumRound_succ (radd : ℝ → ℝ → ℝ) (w : List ℝ) (i : ℕ) (h : i + 1 < (cumRound radd w).length) :
    (cumRound radd w)[i + 1] =
      radd ((cumRound radd w)[i]) (w[i + 1]'(by rw [cumRound_length] at h; exact h)) := by
  cases w with
  | nil => simp [cumRound] at h
  | cons a l =>
    simp only [cumRound, List.getElem_cons_succ]
    rw [List.getElem_succ_scanl]

/-- Sorted lists: `searchsorted` from the right. -/
theorem searchsorted_iff {c : List ℝ} (hc : c.Pairwise (· ≤ ·)) (v : ℝ) (i : ℕ) (hi : i ≤ c.length) :
    searchsortedRight c v = i ↔ (∀ j (hj : j < c.length), j < i → c[j] ≤ v) ∧ ∀ (h : i < c.length), v < c[i] := by
  unfold searchsortedRight
  induction c generalizing i with
  | nil => simp at hi; simp [hi]
  | cons a l ih =>
    rw [List.pairwise_cons] at hc
    rw [List.takeWhile_cons]
    by_cases ha : a ≤ v
    · simp only [ha, decide_true, if_true, List.length_cons]
      cases i with
      | zero => simp [ha]
      | succ i =>
        rw [Nat.add_right_cancel_iff, ih hc.2 i (by simpa using hi)]
        constructor
        · rintro ⟨h1, h2⟩
          refine ⟨fun j hj hji => ?_, fun h => h2 (by simpa using h)⟩
          cases j with
          | zero => exact ha
          | succ j => exact h1 j (by simpa using hj) (by omega)
        · rintro ⟨h1, h2⟩
          exact ⟨fun j hj hji => h1 (j + 1) (by simpa using hj) (by omega), fun h => h2 (by simpa using h)⟩
    · simp only [ha, decide_false, Bool.false_eq_true, if_false, List.length_nil]
      cases i with
      | zero => simpa using ha
      | succ i =>
        constructor
        · intro h; omega
        · rintro ⟨h1, -⟩
          exact absurd (h1 0 (by simp) (by omega)) ha

theorem searchsorted_le (c : List ℝ) (v : ℝ) : searchsortedRight c v ≤ c.length := by
  unfold searchsortedRight
  exact (List.takeWhile_prefix _).length_le

/-! ## The properties -/

/-- **C155, exact arithmetic.**  With exact addition the draws are those of the exact model. -/
theorem C155_exact : (∀ w : List ℝ, cumRound (· + ·) w = cumsum w) ∧
    (∀ (w : List ℝ) (v : ℝ), sampleIdxRound (· + ·) w v = sampleIdx w v) ∧
    (∀ {ρ : Type} (w : List ℝ) (l : List ρ) (centre : ρ → ρ) (us : List ℝ),
      lwParentsRound (· + ·) w l centre us = lwParents w l centre us) ∧
    (∀ (os : List ℤ) (w : List ℝ) (v : ℝ), simCellRound (· + ·) os w v = simCell os w v) := by
  have h : ∀ w : List ℝ, cumRound (· + ·) w = cumsum w := by
    intro w
    cases w with
    | nil => simp [cumRound, cumsum]
    | cons a l => simp [cumRound, cumsum]
  refine ⟨h, fun w v => ?_, fun w l centre us => ?_, fun os w v => ?_⟩
  · simp only [sampleIdxRound, sampleIdx, h]
  · simp only [lwParentsRound, lwParents, h]
  · simp only [simCellRound, simCell, h]

/-- **C155, cumulative sums.**  Let additions have relative error at most `u`, and weights be non-negative.  The
first cumulative sum is the first weight.  Each later one differs from the one before by the particle's weight, up to
`u` times the exact sum of the two; all are within the factors `(1 - u)ⁱ` and `(1 + u)ⁱ` of the exact sum of the first
weights. -/
theorem C155_lengths {u : ℝ} {rnd : ℝ → ℝ} {radd : ℝ → ℝ → ℝ} (hr : Spec.Relative u rnd radd) (w : List ℝ)
    (hw : ∀ x ∈ w, 0 ≤ x) (i : ℕ) (hi : i < w.length) :
    (1 - u) ^ i * (w.take (i + 1)).sum ≤ (cumRound radd w)[i]'(by rwa [cumRound_length]) ∧
      (cumRound radd w)[i]'(by rwa [cumRound_length]) ≤ (1 + u) ^ i * (w.take (i + 1)).sum ∧
      ∀ h : i + 1 < w.length,
        |(cumRound radd w)[i + 1]'(by rwa [cumRound_length]) - (cumRound radd w)[i]'(by rwa [cumRound_length]) -
            w[i + 1]| ≤ u * ((cumRound radd w)[i]'(by rwa [cumRound_length]) + w[i + 1]) := by
  have hu := hr.nonneg
  have hu1 := hr.small
  have main : ∀ i (hi : i < w.length), (1 - u) ^ i * (w.take (i + 1)).sum ≤ (cumRound radd w)[i]'(by rwa [cumRound_length]) ∧
      (cumRound radd w)[i]'(by rwa [cumRound_length]) ≤ (1 + u) ^ i * (w.take (i + 1)).sum := by
    intro i
    induction i with
    | zero =>
      intro hi
      cases w with
      | nil => simp at hi
      | cons a l => simp [cumRound]
    | succ i ih =>
      intro hi
      obtain ⟨h1, h2⟩ := ih (by omega)
      have hs := cumRound_succ radd w i (by rwa [cumRound_length])
      have hx : 0 ≤ w[i + 1] := hw _ (List.getElem_mem _)
      have hsum : 0 ≤ (w.take (i + 1)).sum := List.sum_nonneg fun x h => hw x (List.mem_of_mem_take h)
      obtain ⟨c, hc⟩ : ∃ c, c = (cumRound radd w)[i]'(by rw [cumRound_length]; omega) := ⟨_, rfl⟩
      rw [← hc] at h1 h2 hs
      have hc0 : 0 ≤ c := le_trans (mul_nonneg (pow_nonneg (by linarith) _) hsum) h1
      have ha := hr.add c w[i + 1]
      rw [abs_of_nonneg (add_nonneg hc0 hx), abs_le] at ha
      have hta : (w.take (i + 1 + 1)).sum = (w.take (i + 1)).sum + w[i + 1] := List.sum_take_succ w (i + 1) hi
      have hp1 : (1 - u) ^ i ≤ 1 := pow_le_one₀ (by linarith) (by linarith)
      have hp2 : 1 ≤ (1 + u) ^ i := one_le_pow₀ (by linarith)
      rw [hs, hta, pow_succ, pow_succ]
      constructor
      · have : (1 - u) ^ i * ((w.take (i + 1)).sum + w[i + 1]) ≤ c + w[i + 1] := by
          nlinarith
        nlinarith [mul_le_mul_of_nonneg_right this (by linarith : (0 : ℝ) ≤ 1 - u)]
      · have : c + w[i + 1] ≤ (1 + u) ^ i * ((w.take (i + 1)).sum + w[i + 1]) := by
          nlinarith
        nlinarith [mul_le_mul_of_nonneg_right this (by linarith : (0 : ℝ) ≤ 1 + u)]
  refine ⟨(main i hi).1, (main i hi).2, fun h => ?_⟩
  have hx : 0 ≤ w[i + 1] := hw _ (List.getElem_mem _)
  have hsum : 0 ≤ (w.take (i + 1)).sum := List.sum_nonneg fun x h => hw x (List.mem_of_mem_take h)
  have hc0 := le_trans (mul_nonneg (pow_nonneg (by linarith) _) hsum) (main i hi).1
  rw [cumRound_succ radd w i (by rwa [cumRound_length])]
  have := hr.add ((cumRound radd w)[i]'(by rwa [cumRound_length])) w[i + 1]
  rw [abs_of_nonneg (add_nonneg hc0 hx)] at this
  rw [sub_sub]
  exact this

/-- **C155, sorted.**  Let additions round to the nearest number with `p` binary digits, and the weights be
non-negative numbers with `p` digits.  Then the cumulative sums do not decrease, as `searchsorted` requires. -/
theorem C155_sorted (p : ℕ) (hp : 0 < p) (w : List ℝ) (hw : ∀ x ∈ w, 0 ≤ x)
    (hd : ∀ x ∈ w, Spec.nearest p x = x) :
    (cumRound (fun x y => Spec.nearest p (x + y)) w).Pairwise (· ≤ ·) := by
  obtain ⟨radd, hr⟩ : ∃ radd, radd = fun x y : ℝ => Spec.nearest p (x + y) := ⟨_, rfl⟩
  rw [← hr]
  have hra : ∀ x y, radd x y = Spec.nearest p (x + y) := fun x y => by rw [hr]
  have hfix : ∀ i (hi : i < (cumRound radd w).length), 0 ≤ (cumRound radd w)[i] ∧
      Spec.nearest p (cumRound radd w)[i] = (cumRound radd w)[i] := by
    intro i
    induction i with
    | zero =>
      intro hi
      cases w with
      | nil => simp [cumRound] at hi
      | cons a l =>
        rw [cumRound_zero]
        exact ⟨hw a (by simp), hd a (by simp)⟩
    | succ i ih =>
      intro hi
      obtain ⟨h1, h2⟩ := ih (by omega)
      rw [cumRound_succ radd w i hi, hra]
      have h0 : 0 ≤ (cumRound radd w)[i] + w[i + 1]'(by rw [cumRound_length] at hi; exact hi) :=
        add_nonneg h1 (hw _ (List.getElem_mem _))
      exact ⟨nearest_nonneg p hp h0, nearest_idem p hp h0⟩
  rw [← List.isChain_iff_pairwise, List.isChain_iff_getElem]
  intro i hi
  have h1 := hfix i (by omega)
  rw [cumRound_succ radd w i hi]
  have hx : 0 ≤ w[i + 1]'(by rw [cumRound_length] at hi; exact hi) := hw _ (List.getElem_mem _)
  calc (cumRound radd w)[i] = Spec.nearest p (cumRound radd w)[i] := h1.2.symm
    _ ≤ Spec.nearest p ((cumRound radd w)[i] + w[i + 1]'(by rw [cumRound_length] at hi; exact hi)) :=
        nearest_mono p hp h1.1 (by linarith)
    _ = _ := by rw [hra]

/-- **C155, samples.**  Let the cumulative sums not decrease.  The index chosen for a variate is always one of the
particles, and it is particle `i` exactly if the variate is at least the cumulative sum before and below that at `i`;
the last particle also takes all variates above. -/
theorem C155_sample (radd : ℝ → ℝ → ℝ) (w : List ℝ) (hs : (cumRound radd w).Pairwise (· ≤ ·)) (v : ℝ) (hn : 0 < w.length) :
    sampleIdxRound radd w v < w.length ∧ ∀ i (hi : i < w.length),
      sampleIdxRound radd w v = i ↔
        (∀ j (hj : j < w.length), j + 1 = i → (cumRound radd w)[j]'(by rwa [cumRound_length]) ≤ v) ∧
          (i + 1 < w.length → v < (cumRound radd w)[i]'(by rwa [cumRound_length])) := by
  have hlen := cumRound_length radd w
  refine ⟨by unfold sampleIdxRound; omega, fun i hi => ?_⟩
  have hle := searchsorted_le (cumRound radd w) v
  have key := fun k (hk : k ≤ (cumRound radd w).length) => searchsorted_iff hs v k hk
  have mono : ∀ a b (ha : a < (cumRound radd w).length) (hb : b < (cumRound radd w).length), a ≤ b →
      (cumRound radd w)[a] ≤ (cumRound radd w)[b] := by
    intro a b ha hb hab
    rcases hab.eq_or_lt with rfl | hab
    · exact le_rfl
    · exact List.pairwise_iff_getElem.1 hs a b ha hb hab
  unfold sampleIdxRound
  constructor
  · intro h
    rcases Nat.lt_or_ge (i + 1) w.length with h1 | h1
    · have he : searchsortedRight (cumRound radd w) v = i := by omega
      obtain ⟨ha, hb⟩ := (key i (by omega)).1 he
      exact ⟨fun j hj hji => ha j (by omega) (by omega), fun _ => hb (by omega)⟩
    · obtain ⟨k, hk⟩ : ∃ k, k = searchsortedRight (cumRound radd w) v := ⟨_, rfl⟩
      obtain ⟨ha, -⟩ := (key k (by omega)).1 hk.symm
      exact ⟨fun j hj hji => ha j (by omega) (by omega), fun h' => by omega⟩
  · rintro ⟨ha, hb⟩
    have hall : ∀ j (hj : j < (cumRound radd w).length), j < i → (cumRound radd w)[j] ≤ v := by
      intro j hj hji
      exact (mono j (i - 1) hj (by omega) (by omega)).trans (ha (i - 1) (by omega) (by omega))
    rcases Nat.lt_or_ge (i + 1) w.length with h1 | h1
    · have := (key i (by omega)).2 ⟨hall, fun _ => hb h1⟩
      omega
    · by_cases hv : v < (cumRound radd w)[i]'(by omega)
      · have := (key i (by omega)).2 ⟨hall, fun _ => hv⟩
        omega
      · have := (key (i + 1) (by omega)).2 ⟨fun j hj hji => by
          rcases Nat.lt_succ_iff_lt_or_eq.1 hji with h2 | rfl
          · exact hall j hj h2
          · exact not_lt.1 hv, fun h => by omega⟩
        omega

/-- **C155, Liu-West parents.**  Let the cumulative sums not decrease.  If all variates are below the last of them, the
parents are those `sample` would choose.  If one is not, the index is not clipped as in `sample`, and the resampler
raises `IndexError`. -/
theorem C155_liu_west {ρ : Type} (radd : ℝ → ℝ → ℝ) (w : List ℝ) (hs : (cumRound radd w).Pairwise (· ≤ ·)) (l : List ρ)
    (hl : l.length = w.length) (hn : 0 < w.length) (centre : ρ → ρ) (us : List ℝ) :
    ((∀ v ∈ us, v < (cumRound radd w)[w.length - 1]'(by rw [cumRound_length]; omega)) →
      ∃ mus, lwParentsRound radd w l centre us = .ok (us.map (sampleIdxRound radd w), mus) ∧
        mus.map some = us.map fun v => (l[sampleIdxRound radd w v]?).map centre) ∧
    ((∃ v ∈ us, (cumRound radd w)[w.length - 1]'(by rw [cumRound_length]; omega) ≤ v) →
      lwParentsRound radd w l centre us = .error .indexError) := by
  have hlen := cumRound_length radd w
  have key := fun v k (hk : k ≤ (cumRound radd w).length) => searchsorted_iff hs v k hk
  have hle := fun v => searchsorted_le (cumRound radd w) v
  have mono : ∀ a b (ha : a < (cumRound radd w).length) (hb : b < (cumRound radd w).length), a ≤ b →
      (cumRound radd w)[a] ≤ (cumRound radd w)[b] := by
    intro a b ha hb hab
    rcases hab.eq_or_lt with rfl | hab
    · exact le_rfl
    · exact List.pairwise_iff_getElem.1 hs a b ha hb hab
  refine ⟨fun h => ?_, ?_⟩
  · have hlt : ∀ v ∈ us, searchsortedRight (cumRound radd w) v < w.length := by
      intro v hv
      by_contra hc
      have he : searchsortedRight (cumRound radd w) v = (cumRound radd w).length := by
        have := hle v
        omega
      have := ((key v _ le_rfl).1 he).1 (w.length - 1) (by omega) (by omega)
      exact absurd (h v hv) (not_lt.2 this)
    have heq : ∀ v ∈ us, searchsortedRight (cumRound radd w) v = sampleIdxRound radd w v := by
      intro v hv
      have := hlt v hv
      unfold sampleIdxRound
      omega
    have hmap : us.map (searchsortedRight (cumRound radd w)) = us.map (sampleIdxRound radd w) := List.map_congr_left heq
    unfold lwParentsRound
    simp only [hmap]
    rw [if_pos]
    · refine ⟨_, rfl, ?_⟩
      have hin : ∀ v, sampleIdxRound radd w v < l.length := by
        intro v
        unfold sampleIdxRound
        omega
      clear hmap heq hlt h
      induction us with
      | nil => rfl
      | cons v us ih =>
        have hv := hin v
        simp only [List.map_cons, List.filterMap_cons, List.getElem?_eq_getElem hv, Option.map_some, List.cons.injEq,
          true_and]
        simpa using ih
    · rw [List.all_eq_true]
      intro j hj
      obtain ⟨v, hv, rfl⟩ := List.mem_map.1 hj
      rw [← heq v hv, decide_eq_true_eq, hl]
      exact hlt v hv
  · rintro ⟨v, hv, hge⟩
    have he : searchsortedRight (cumRound radd w) v = (cumRound radd w).length :=
      (key v _ le_rfl).2 ⟨fun j hj _ => (mono j (w.length - 1) hj (by omega) (by omega)).trans hge, fun h => by omega⟩
    unfold lwParentsRound
    simp only
    rw [if_neg]
    rw [List.all_eq_true]
    intro hall
    have := hall _ (List.mem_map.2 ⟨v, hv, rfl⟩)
    rw [he, decide_eq_true_eq] at this
    omega

/-- **C155, simulated outcomes.**  Let the cumulative sums of the `k` outcome probabilities not decrease.  Outcome `i` is
returned if the variate is below the cumulative sum at `i` and not below the one before.  A variate that is not below
the last of them gives outcome 0, whatever its probability. -/
theorem C155_simulate (radd : ℝ → ℝ → ℝ) (w : List ℝ) (hs : (cumRound radd w).Pairwise (· ≤ ·)) (hn : 0 < w.length) (v : ℝ) :
    (∀ i (hi : i < w.length), (∀ j (hj : j < w.length), j + 1 = i → (cumRound radd w)[j]'(by rwa [cumRound_length]) ≤ v) →
      v < (cumRound radd w)[i]'(by rwa [cumRound_length]) →
        simCellRound radd ((List.range w.length).map Int.ofNat) w v = .ok (i : ℤ)) ∧
    ((cumRound radd w)[w.length - 1]'(by rw [cumRound_length]; omega) ≤ v →
      simCellRound radd ((List.range w.length).map Int.ofNat) w v = .ok 0) := by
  have hlen := cumRound_length radd w
  have mono : ∀ a b (ha : a < (cumRound radd w).length) (hb : b < (cumRound radd w).length), a ≤ b →
      (cumRound radd w)[a] ≤ (cumRound radd w)[b] := by
    intro a b ha hb hab
    rcases hab.eq_or_lt with rfl | hab
    · exact le_rfl
    · exact List.pairwise_iff_getElem.1 hs a b ha hb hab
  have hidx : ∀ i : ℕ, i < w.length → pyIndex ((List.range w.length).map Int.ofNat) (i : ℤ) = .ok (i : ℤ) := by
    intro i hi
    unfold pyIndex
    have h1 : ¬ ((i : ℤ) < 0) := by omega
    simp [h1, hi]
  have hcell : ∀ i : ℕ, i < w.length → argmaxGt (cumRound radd w) v = i →
      simCellRound radd ((List.range w.length).map Int.ofNat) w v = .ok (i : ℤ) := by
    intro i hi h
    unfold simCellRound
    rw [h, hidx i hi]
    exact hidx i hi
  refine ⟨fun i hi h1 h2 => hcell i hi ?_, fun h => ?_⟩
  · unfold argmaxGt
    have : (cumRound radd w).findIdx? (fun c => decide (v < c)) = some i := by
      rw [List.findIdx?_eq_some_iff_getElem]
      refine ⟨by omega, by simpa using h2, fun j hj => ?_⟩
      have := (mono j (i - 1) (by omega) (by omega) (by omega)).trans (h1 (i - 1) (by omega) (by omega))
      simpa using this
    rw [this]
    rfl
  · refine hcell 0 hn ?_
    unfold argmaxGt
    have : (cumRound radd w).findIdx? (fun c => decide (v < c)) = none := by
      rw [List.findIdx?_eq_none_iff]
      intro c hc
      obtain ⟨j, hj, rfl⟩ := List.getElem_of_mem hc
      simpa using (mono j (w.length - 1) hj (by omega) (by omega)).trans h
    rw [this]
    rfl

/-- One sixth in binary64. -/
noncomputable def sixth : ℝ := 6004799503160661 / 2 ^ 55

theorem sixth_cum : cumRound (fun a b => Spec.nearest 53 (a + b)) [sixth, 1 / 2, sixth, sixth] =
    [sixth, 6004799503160661 / 2 ^ 53, 7505999378950826 / 2 ^ 53, 9007199254740991 / 2 ^ 53] := by
  have e1 : Spec.nearest 53 (sixth + 1 / 2) = 6004799503160661 / 2 ^ 53 := by
    unfold sixth
    rw [nearest_eq 53 (-1) 6004799503160661] <;> norm_num
  have e2 : Spec.nearest 53 (6004799503160661 / 2 ^ 53 + sixth) = 7505999378950826 / 2 ^ 53 := by
    unfold sixth
    rw [nearest_eq 53 (-1) 7505999378950826] <;> norm_num
  have e3 : Spec.nearest 53 (7505999378950826 / 2 ^ 53 + sixth) = 9007199254740991 / 2 ^ 53 := by
    unfold sixth
    rw [nearest_eq 53 (-1) 9007199254740991] <;> norm_num
  simp only [cumRound, List.scanl_cons, List.scanl_nil, e1, e2, e3]

/-- **C155, an update after which resampling can fail.**  Take binary64 (nearest number with 53 binary digits), four
particles of weight `1/4`, and a datum of likelihoods `1/4, 3/4, 1/4, 1/4`.  After the update the weights sum to
`1 - 2⁻⁵³`, and this is also the largest value of `np.random.random`.  For this variate the Liu-West resampler raises
`IndexError`; `sample` returns the last particle. -/
theorem C155_liu_west_fails {ρ : Type} (l : List ρ) (hl : l.length = 4) (centre : ρ → ρ) :
    let rnd := Spec.nearest 53
    let radd := fun a b => Spec.nearest 53 (a + b)
    let t : SumTree (Fin 4) := .node (.node (.node (.leaf 0) (.leaf 1)) (.leaf 2)) (.leaf 3)
    let w := List.ofFn (hypRound rnd radd t (fun _ => 1 / 4) ![1 / 4, 3 / 4, 1 / 4, 1 / 4]).1
    let v : ℝ := 1 - 1 / 2 ^ 53
    lwParentsRound radd w l centre [v] = .error .indexError ∧ sampleIdxRound radd w v = 3 := by
  intro rnd radd t w v
  have a1 : Spec.nearest 53 (1 / 4 * (1 / 4)) = 1 / 16 := by
    rw [nearest_eq 53 (-4) 4503599627370496] <;> norm_num
  have a2 : Spec.nearest 53 (1 / 4 * (3 / 4)) = 3 / 16 := by
    rw [nearest_eq 53 (-3) 6755399441055744] <;> norm_num
  have a3 : Spec.nearest 53 (1 / 16 + 3 / 16) = 1 / 4 := by
    rw [nearest_eq 53 (-2) 4503599627370496] <;> norm_num
  have a4 : Spec.nearest 53 (1 / 4 + 1 / 16) = 5 / 16 := by
    rw [nearest_eq 53 (-2) 5629499534213120] <;> norm_num
  have a5 : Spec.nearest 53 (5 / 16 + 1 / 16) = 3 / 8 := by
    rw [nearest_eq 53 (-2) 6755399441055744] <;> norm_num
  have a6 : Spec.nearest 53 (1 / 16 / (3 / 8)) = sixth := by
    unfold sixth
    rw [nearest_eq 53 (-3) 6004799503160661] <;> norm_num
  have a7 : Spec.nearest 53 (3 / 16 / (3 / 8)) = 1 / 2 := by
    rw [nearest_eq 53 (-1) 4503599627370496] <;> norm_num
  have hw : w = [sixth, 1 / 2, sixth, sixth] := by
    have hg : ¬ |(3 / 8 : ℝ)| < 1 / 2 ^ 52 := by rw [abs_of_pos (by norm_num)]; norm_num
    simp only [w, hypRound, SumTree.sum, t, rnd, radd, List.ofFn_succ, List.ofFn_zero, Fin.isValue, Matrix.cons_val_zero,
      Matrix.cons_val_one, Matrix.cons_val, Fin.succ_zero_eq_one, Fin.succ_one_eq_two, a1, a2, a3, a4, a5, if_neg hg]
    have b1 : Spec.nearest 53 (4⁻¹ * 4⁻¹) = 1 / 16 := by rw [← a1]; norm_num
    have b6 : Spec.nearest 53 (16⁻¹ / (3 / 8)) = sixth := by rw [← a6]; norm_num
    simp [a2, a7, b1, b6]
  have hc := sixth_cum
  have hss : searchsortedRight (cumRound radd w) v = 4 := by
    rw [hw, hc]
    unfold searchsortedRight sixth
    have h1 : (6004799503160661 / 2 ^ 55 : ℝ) ≤ v := by simp only [v]; norm_num
    have h2 : (6004799503160661 / 2 ^ 53 : ℝ) ≤ v := by simp only [v]; norm_num
    have h3 : (7505999378950826 / 2 ^ 53 : ℝ) ≤ v := by simp only [v]; norm_num
    have h4 : (9007199254740991 / 2 ^ 53 : ℝ) ≤ v := by simp only [v]; norm_num
    simp only [List.takeWhile_cons, h1, h2, h3, h4, decide_true, if_true, List.takeWhile_nil, List.length_cons,
      List.length_nil]
  constructor
  · unfold lwParentsRound
    simp [hss, hl]
  · unfold sampleIdxRound
    rw [hss, hw]
    rfl

/-- **C155, an outcome of probability zero.**  In binary64 take five outcomes of probabilities 0, 1/6, 1/2, 1/6 and 1/6
(rounded).  The largest variate of `np.random.random` gives outcome 0. -/
theorem C155_impossible_outcome :
    simCellRound (fun a b => Spec.nearest 53 (a + b)) [0, 1, 2, 3, 4] [0, sixth, 1 / 2, sixth, sixth] (1 - 1 / 2 ^ 53) =
      .ok 0 := by
  have e0 : Spec.nearest 53 (0 + sixth) = sixth := by
    unfold sixth
    rw [nearest_eq 53 (-3) 6004799503160661] <;> norm_num
  have hc : cumRound (fun a b => Spec.nearest 53 (a + b)) [0, sixth, 1 / 2, sixth, sixth] =
      0 :: cumRound (fun a b => Spec.nearest 53 (a + b)) [sixth, 1 / 2, sixth, sixth] := by
    simp only [cumRound, List.scanl_cons, e0]
  have harg : argmaxGt (cumRound (fun a b => Spec.nearest 53 (a + b)) [0, sixth, 1 / 2, sixth, sixth]) (1 - 1 / 2 ^ 53) = 0 := by
    rw [hc, sixth_cum]
    unfold argmaxGt sixth
    have : ([0, 6004799503160661 / 2 ^ 55, 6004799503160661 / 2 ^ 53, 7505999378950826 / 2 ^ 53,
        9007199254740991 / 2 ^ 53] : List ℝ).findIdx? (fun c => decide ((1 - 1 / 2 ^ 53 : ℝ) < c)) = none := by
      rw [List.findIdx?_eq_none_iff]
      intro c hc
      simp only [List.mem_cons, List.not_mem_nil, or_false] at hc
      rw [decide_eq_false_iff_not, not_lt]
      rcases hc with rfl | rfl | rfl | rfl | rfl <;> norm_num
    rw [this]
    rfl
  unfold simCellRound
  rw [harg]
  rfl

/-- The weights after the update above are numbers of 53 digits, their cumulative sums do not decrease, and they have the
relative error of binary64. -/
example : (cumRound (fun a b => Spec.nearest 53 (a + b)) [sixth, 1 / 2, sixth, sixth]).Pairwise (· ≤ ·) ∧
    |(cumRound (fun a b => Spec.nearest 53 (a + b)) [sixth, 1 / 2, sixth, sixth])[1]'(by simp [cumRound]) -
      (cumRound (fun a b => Spec.nearest 53 (a + b)) [sixth, 1 / 2, sixth, sixth])[0]'(by simp [cumRound]) - 1 / 2| ≤
        1 / 2 ^ 53 * (sixth + 1 / 2) := by
  have hs : 0 ≤ sixth := by unfold sixth; positivity
  have hn : Spec.nearest 53 sixth = sixth := by
    unfold sixth
    rw [nearest_eq 53 (-3) 6004799503160661] <;> norm_num
  have hh : Spec.nearest 53 (1 / 2) = 1 / 2 := by
    rw [nearest_eq 53 (-1) 4503599627370496] <;> norm_num
  refine ⟨C155_sorted 53 (by norm_num) _ ?_ ?_, ?_⟩
  · intro x hx
    simp only [List.mem_cons, List.not_mem_nil, or_false] at hx
    rcases hx with rfl | rfl | rfl | rfl
    · exact hs
    · norm_num
    · exact hs
    · exact hs
  · intro x hx
    simp only [List.mem_cons, List.not_mem_nil, or_false] at hx
    rcases hx with rfl | rfl | rfl | rfl
    · exact hn
    · exact hh
    · exact hn
    · exact hn
  · have := (C155_lengths (C154_nearest 53 (by norm_num)) [sixth, 1 / 2, sixth, sixth] (by
      intro x hx
      simp only [List.mem_cons, List.not_mem_nil, or_false] at hx
      rcases hx with rfl | rfl | rfl | rfl
      · exact hs
      · norm_num
      · exact hs
      · exact hs) 0 (by simp)).2.2 (by simp)
    simpa [cumRound] using this

end QInfer
