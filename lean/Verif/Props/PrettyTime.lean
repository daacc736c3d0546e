import Verif.Model.PerfTest
import Mathlib.Data.Nat.Digits.Defs
import Mathlib.Algebra.Order.Floor.Ring
import Mathlib.Data.Rat.Floor
import Mathlib.Tactic.Linarith
import Mathlib.Tactic.IntervalCases
import Mathlib.Tactic.FieldSimp

/-!
# C85: `Timer`, `timing`, `pretty_time`
-/

set_option linter.unusedSectionVars false

namespace QInfer

/-! ### Timers -/

section
variable {K : Type} [Field K] [LinearOrder K]

/-- C85: a running timer shows the time since its start; a stopped one shows the time between start and
the last stop, whenever it is read. -/
theorem C85_timer (t0 t1 t2 now : K) :
    (Timer.start t0).deltaT now = now - t0 ∧
    ((Timer.start t0).stop t1).deltaT now = t1 - t0 ∧
    (((Timer.start t0).stop t1).stop t2).deltaT now = t2 - t0 := ⟨rfl, rfl, rfl⟩

/-- C85: after a block that raises nothing, the timer of `timing()` shows the duration of the block,
whenever it is read. -/
theorem C85_timing {α : Type*} (t0 : K) (block : K → K × Except PyErr α) (t1 : K) (a : α)
    (h : block t0 = (t1, .ok a)) (now : K) :
    (withTiming t0 block).1.deltaT now = t1 - t0 ∧ (withTiming t0 block).2 = (t1, .ok a) := by
  rw [withTiming, h]
  exact ⟨rfl, rfl⟩

/-- C85, finding: if the block raises, the timer is never stopped and goes on running. -/
theorem C85_timing_exception {α : Type*} (t0 : K) (block : K → K × Except PyErr α) (t1 : K)
    (err : PyErr) (h : block t0 = (t1, .error err)) (now : K) :
    (withTiming t0 block).1.deltaT now = now - t0 ∧ (withTiming t0 block).2 = (t1, .error err) := by
  rw [withTiming, h]
  exact ⟨rfl, rfl⟩

end

/-! ### Reading durations -/

/-- Reading a duration from left to right: digits are collected; a colon turns what was read into
sixtieths, a comma into twenty-fourths; everything else is ignored. -/
def Spec.readStep (st : Nat × Nat) (c : Char) : Nat × Nat :=
  if c.isDigit then (st.1, st.2 * 10 + (c.toNat - 48))
  else if c = ':' then ((st.1 + st.2) * 60, 0)
  else if c = ',' then ((st.1 + st.2) * 24, 0)
  else st

/-- What a text says. -/
def Spec.readTime (l : List Char) : Nat :=
  let st := l.foldl Spec.readStep (0, 0)
  st.1 + st.2

open Spec

theorem readStep_digit (st : Nat × Nat) (d : Nat) (h : d < 10) :
    readStep st (Char.ofNat (48 + d)) = (st.1, st.2 * 10 + d) := by
  have h1 : (Char.ofNat (48 + d)).isDigit = true := by interval_cases d <;> decide
  have h2 : (Char.ofNat (48 + d)).toNat - 48 = d := by interval_cases d <;> decide
  rw [readStep, if_pos h1, h2]

theorem readStep_colon (st : Nat × Nat) : readStep st ':' = ((st.1 + st.2) * 60, 0) := by
  rw [readStep, if_neg (by decide), if_pos rfl]

theorem read_digits (l : List Nat) (h : ∀ d ∈ l, d < 10) (acc : Nat) :
    ((l.map fun d => Char.ofNat (48 + d)).reverse).foldl readStep (acc, 0) =
      (acc, Nat.ofDigits 10 l) := by
  rw [List.foldl_reverse]
  induction l with
  | nil => simp [Nat.ofDigits]
  | cons a l ih =>
    rw [List.forall_mem_cons] at h
    rw [List.map_cons, List.foldr_cons, ih h.2, readStep_digit _ _ h.1, Nat.ofDigits_cons]
    simp; ring

theorem read_showNat (acc n : Nat) : (showNat n).foldl readStep (acc, 0) = (acc, n) := by
  rw [showNat]
  split
  · subst_vars
    have := readStep_digit (acc, 0) 0 (by norm_num)
    simpa using this
  · rw [read_digits _ (fun d hd => Nat.digits_lt_base (by norm_num) hd), Nat.ofDigits_digits]

theorem read_pad2 (acc n : Nat) : (pad2 (showNat n)).foldl readStep (acc, 0) = (acc, n) := by
  rw [pad2, List.foldl_append]
  have : ∀ k, (List.replicate k '0').foldl readStep (acc, 0) = (acc, 0) := by
    intro k
    induction k with
    | zero => rfl
    | succ k ih =>
      rw [List.replicate_succ, List.foldl_cons]
      have := readStep_digit (acc, 0) 0 (by norm_num)
      rw [show Char.ofNat (48 + 0) = '0' from rfl] at this
      rw [this]
      exact ih
  rw [this, read_showNat]

theorem pad2_two : ∀ k < 100, pad2 (showNat k) = [Char.ofNat (48 + k / 10), Char.ofNat (48 + k % 10)] := by
  decide +kernel

section
variable {K : Type} [Field K] [LinearOrder K] [IsStrictOrderedRing K] [FloorRing K]

theorem floor_split (x : K) (n : Nat) : ⌊x⌋ = n * fdiv x n + ⌊fmod x n⌋ := by
  rw [fmod, fdiv]
  have : x - (n : K) * (⌊x / n⌋ : K) = x - ((n * ⌊x / n⌋ : ℤ) : K) := by push_cast; ring
  rw [this, Int.floor_sub_intCast]
  ring

theorem fmod_range (x : K) (n : Nat) (hn : 0 < n) : 0 ≤ fmod x n ∧ fmod x n < n := by
  have h : (0 : K) < n := by exact_mod_cast hn
  have h1 := Int.floor_le (x / n)
  have h2 := Int.lt_floor_add_one (x / n)
  rw [le_div_iff₀ h] at h1
  rw [div_lt_iff₀ h] at h2
  rw [fmod]
  constructor <;> nlinarith

theorem fdiv_nonneg (x : K) (n : Nat) (h : 0 ≤ x) : 0 ≤ fdiv x n :=
  Int.floor_nonneg.2 (div_nonneg h (Nat.cast_nonneg n))

theorem fdiv_lt (x : K) (n m : Nat) (hn : 0 < n) (h : x < n * m) : fdiv x n < m := by
  have h' : (0 : K) < n := by exact_mod_cast hn
  rw [fdiv, Int.floor_lt, div_lt_iff₀ h']
  push_cast
  linarith

theorem showInt_nonneg (z : ℤ) (h : 0 ≤ z) : showInt z = showNat z.toNat := by
  rw [showInt, if_neg (by omega)]
  congr 1
  omega

theorem prettyMin_eq (x : K) (h : 0 ≤ x) (force : Bool) : ∃ m s : Nat, s < 60 ∧
    ((m * 60 + s : Nat) : ℤ) = ⌊x⌋ ∧ (∀ k : Nat, x < 60 * k → m < k) ∧
    prettyMin x force = (if force then pad2 (showNat m) else showNat m) ++ ':' :: pad2 (showNat s) := by
  have h1 := fdiv_nonneg x 60 h
  obtain ⟨h2, h3⟩ := fmod_range x 60 (by norm_num)
  have h4 := floor_split x 60
  have h5 : trunc (fmod x 60) = ⌊fmod x 60⌋ := by rw [trunc, if_pos h2]
  have h6 : 0 ≤ ⌊fmod x 60⌋ := Int.floor_nonneg.2 h2
  have h7 : ⌊fmod x 60⌋ < 60 := by
    rw [Int.floor_lt]; exact_mod_cast h3
  refine ⟨(fdiv x 60).toNat, (⌊fmod x 60⌋).toNat, by omega, ?_, ?_, ?_⟩
  · push_cast at h4 ⊢
    omega
  · intro k hk
    have := fdiv_lt x 60 k (by norm_num) (by exact_mod_cast hk)
    omega
  · rw [prettyMin, h5, showInt_nonneg _ h1, showInt_nonneg _ h6]

theorem prettyHour_eq (x : K) (h : 0 ≤ x) : ∃ hh m s : Nat, m < 60 ∧ s < 60 ∧
    ((hh * 3600 + m * 60 + s : Nat) : ℤ) = ⌊x⌋ ∧ (∀ k : Nat, x < 3600 * k → hh < k) ∧
    prettyHour x = showNat hh ++ ':' :: (pad2 (showNat m) ++ ':' :: pad2 (showNat s)) := by
  have h1 := fdiv_nonneg x 3600 h
  obtain ⟨h2, h3⟩ := fmod_range x 3600 (by norm_num)
  have h4 := floor_split x 3600
  obtain ⟨m, s, g1, g2, g3, g4⟩ := prettyMin_eq (fmod x 3600) h2 true
  refine ⟨(fdiv x 3600).toNat, m, s, g3 60 (by push_cast at h3 ⊢; linarith), g1, ?_, ?_, ?_⟩
  · push_cast at h4 g2 ⊢
    omega
  · intro k hk
    have := fdiv_lt x 3600 k (by norm_num) (by exact_mod_cast hk)
    omega
  · rw [prettyHour, g4, showInt_nonneg _ h1, if_pos rfl]

/-- C85: the text for more than a minute consists of days, hours, minutes and seconds; the fields behind
the first are in their ranges and (minutes and seconds) have two digits; together they are the
duration, rounded down to seconds. -/
theorem C85_fields (x : K) :
    (86400 < x → ∃ d h m s : Nat, h < 24 ∧ m < 60 ∧ s < 60 ∧
      ((d * 86400 + h * 3600 + m * 60 + s : Nat) : ℤ) = ⌊x⌋ ∧
      prettyTime x = showNat d ++ " days, ".toList ++ (showNat h ++
        ':' :: (pad2 (showNat m) ++ ':' :: pad2 (showNat s)))) ∧
    (3600 < x → x ≤ 86400 → ∃ h m s : Nat, h ≤ 24 ∧ m < 60 ∧ s < 60 ∧
      ((h * 3600 + m * 60 + s : Nat) : ℤ) = ⌊x⌋ ∧
      prettyTime x = showNat h ++ ':' :: (pad2 (showNat m) ++ ':' :: pad2 (showNat s))) ∧
    (60 < x → x ≤ 3600 → ∃ m s : Nat, m ≤ 60 ∧ s < 60 ∧
      ((m * 60 + s : Nat) : ℤ) = ⌊x⌋ ∧ prettyTime x = showNat m ++ ':' :: pad2 (showNat s)) := by
  refine ⟨fun h => ?_, fun h h' => ?_, fun h h' => ?_⟩
  · have h1 := fdiv_nonneg x 86400 (by linarith)
    obtain ⟨h2, h3⟩ := fmod_range x 86400 (by norm_num)
    have h4 := floor_split x 86400
    obtain ⟨hh, m, s, g1, g2, g3, g4, g5⟩ := prettyHour_eq (fmod x 86400) h2
    refine ⟨(fdiv x 86400).toNat, hh, m, s, g4 24 (by push_cast at h3 ⊢; linarith), g1, g2, ?_, ?_⟩
    · push_cast at h4 g3 ⊢
      omega
    · rw [prettyTime, if_pos h, g5, showInt_nonneg _ h1]
  · obtain ⟨hh, m, s, g1, g2, g3, g4, g5⟩ := prettyHour_eq x (by linarith)
    refine ⟨hh, m, s, ?_, g1, g2, g3, ?_⟩
    · have := g4 25 (by push_cast; linarith)
      omega
    · rw [prettyTime, if_neg (by linarith), if_pos h, g5]
  · obtain ⟨m, s, g1, g2, g3, g4⟩ := prettyMin_eq x (by linarith) false
    refine ⟨m, s, ?_, g1, g2, ?_⟩
    · have := g3 61 (by push_cast; linarith)
      omega
    · rw [prettyTime, if_neg (by linarith), if_neg (by linarith), if_pos h, g4]
      simp

theorem read_min (acc m s : Nat) (l : List Char) (hl : l.foldl readStep (acc, 0) = (acc, m)) :
    (l ++ ':' :: pad2 (showNat s)).foldl readStep (acc, 0) = ((acc + m) * 60, s) := by
  rw [List.foldl_append, hl, List.foldl_cons, readStep_colon, read_pad2]

theorem read_hour (acc h m s : Nat) :
    (showNat h ++ ':' :: (pad2 (showNat m) ++ ':' :: pad2 (showNat s))).foldl readStep (acc, 0) =
      (((acc + h) * 60 + m) * 60, s) := by
  rw [List.foldl_append, read_showNat, List.foldl_cons, readStep_colon,
    read_min _ m s _ (read_pad2 _ m)]

/-- C85: for more than a minute, the text of `pretty_time` read as a duration is the number of seconds,
rounded down. -/
theorem C85_reads_back (x : K) (h : 60 < x) : ((readTime (prettyTime x) : Nat) : ℤ) = ⌊x⌋ := by
  obtain ⟨c1, c2, c3⟩ := C85_fields x
  rcases lt_or_ge 86400 x with h1 | h1
  · obtain ⟨d, hh, m, s, -, -, -, hs, he⟩ := c1 h1
    generalize hB : showNat hh ++ ':' :: (pad2 (showNat m) ++ ':' :: pad2 (showNat s)) = B at he
    rw [readTime, he, List.foldl_append, List.foldl_append, read_showNat]
    have : (" days, ".toList).foldl readStep (0, d) = (d * 24, 0) := by
      have : " days, ".toList = [' ', 'd', 'a', 'y', 's', ',', ' '] := by decide
      rw [this]
      simp [readStep, Char.isDigit]
    rw [this, ← hB, read_hour, ← hs]
    push_cast; ring
  rcases lt_or_ge 3600 x with h2 | h2
  · obtain ⟨hh, m, s, -, -, -, hs, he⟩ := c2 h2 h1
    rw [readTime, he, read_hour, ← hs]
    push_cast; ring
  · obtain ⟨m, s, -, -, hs, he⟩ := c3 h h2
    rw [readTime, he, read_min _ m s _ (read_showNat 0 m), ← hs]
    push_cast; ring

theorem roundHalfEven_near (x : K) : |(roundHalfEven x : K) - x| ≤ 1 / 2 := by
  have h1 := Int.floor_le x
  have h2 := Int.lt_floor_add_one x
  rw [abs_le, roundHalfEven]
  split_ifs <;> push_cast <;> constructor <;> linarith

/-- C85: up to a minute the text is a number of seconds with two decimals, off by at most five
thousandths: its digits read together are the hundredths. -/
theorem C85_seconds (x : K) (h0 : 0 ≤ x) (h : x ≤ 60) :
    |((readTime (prettyTime x) : Nat) : K) / 100 - x| ≤ 1 / 200 ∧
    ∃ n m : Nat, m < 100 ∧ n ≤ 60 ∧ readTime (prettyTime x) = n * 100 + m ∧
      prettyTime x = showNat n ++ '.' :: pad2 (showNat m) ++ " seconds".toList := by
  have hr := roundHalfEven_near (100 * |x|)
  rw [abs_of_nonneg h0] at hr
  set r := roundHalfEven (100 * x) with hrdef
  rw [abs_le] at hr
  have hr0 : 0 ≤ r := by
    have : (-1 : K) < r := by linarith [hr.1]
    have : (-1 : ℤ) < r := by exact_mod_cast this
    omega
  have hr1 : r ≤ 6000 := by
    have : (r : K) < 6001 := by linarith [hr.2]
    have : r < 6001 := by exact_mod_cast this
    omega
  have hp : prettyTime x = showNat (r.natAbs / 100) ++ '.' :: pad2 (showNat (r.natAbs % 100)) ++
      " seconds".toList := by
    rw [prettyTime, if_neg (by linarith), if_neg (by linarith), if_neg (by linarith), showFixed2,
      if_neg (by linarith), abs_of_nonneg h0, ← hrdef]
    rfl
  have hread : readTime (prettyTime x) = r.natAbs := by
    rw [readTime, hp, List.foldl_append, List.foldl_append, read_showNat, List.foldl_cons]
    have hdot : readStep (0, r.natAbs / 100) '.' = (0, r.natAbs / 100) := by
      simp [readStep, Char.isDigit]
    rw [hdot, pad2_two _ (Nat.mod_lt _ (by norm_num)), List.foldl_cons, List.foldl_cons,
      readStep_digit _ _ (by omega), readStep_digit _ _ (by omega), List.foldl_nil]
    have : ∀ st, (" seconds".toList).foldl readStep st = st := by
      intro st
      have : " seconds".toList = [' ', 's', 'e', 'c', 'o', 'n', 'd', 's'] := by decide
      rw [this]
      simp [readStep, Char.isDigit]
    rw [this]
    dsimp only
    omega
  refine ⟨?_, r.natAbs / 100, r.natAbs % 100, Nat.mod_lt _ (by norm_num), by omega, by rw [hread]; omega, hp⟩
  rw [hread]
  have : ((r.natAbs : Nat) : K) = (r : K) := by
    have : ((r.natAbs : Nat) : ℤ) = r := by omega
    have := congrArg (Int.cast : ℤ → K) this
    rwa [Int.cast_natCast] at this
  rw [this, abs_le]
  constructor <;> linarith [hr.1, hr.2]

end

/-- C85, finding: the comparisons are strict, so exactly one day, hour or minute is written in the smaller
unit. -/
theorem C85_boundaries : prettyTime (86400 : ℚ) = "24:00:00".toList ∧
    prettyTime (3600 : ℚ) = "60:00".toList ∧ prettyTime (60 : ℚ) = "60.00 seconds".toList := by
  decide +kernel

example : prettyTime (93784 + 1 / 2 : ℚ) = "1 days, 2:03:04".toList ∧
    prettyTime (12345 / 1000 : ℚ) = "12.34 seconds".toList ∧
    readTime "1 days, 2:03:04".toList = 93784 := by decide +kernel

end QInfer
