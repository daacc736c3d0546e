import Verif.Lemmas.Smc
import Mathlib.Algebra.Order.Ring.Rat
import Mathlib.Algebra.Field.Rat

/-!
# A concrete updater used in the non-vacuity examples

A biased coin with unknown bias: outcome 0 has probability equal to the parameter.
-/

namespace QInfer.Demo

/-- Coin model, grid prior, a resampler that flattens the weights. -/
def coinEnv : Env ℚ Nat Unit Nat where
  likelihood o x _ := if o = 0 then |x.headD 0| else |1 - x.headD 0|
  timestep r l _ := (l, r)
  canon l := l
  clearCacheRaises := false
  prior r n := ((List.range n).map fun i => [((i : ℚ) + 1) / (n + 1)], r + 1)
  resampler r _ l := if l = [] then (.error .resamplerError, r)
    else (.ok (List.replicate l.length (1 / (l.length : ℚ)), l), r + 1)
  kl _ _ _ _ := 0

theorem coinEnv_good : GoodEnv coinEnv where
  like_nonneg o x e := by simp only [coinEnv]; split <;> exact abs_nonneg _
  prior_len r n := by simp [coinEnv]
  canon_len l := rfl
  timestep_len r l e := rfl
  resampler_ok r w l w' l' hw hl h := by
    simp only [coinEnv] at h
    split at h
    · simp at h
    · rename_i hne
      simp only [Except.ok.injEq, Prod.mk.injEq] at h
      obtain ⟨rfl, rfl⟩ := h
      have hpos : (l.length : ℚ) ≠ 0 := by
        simpa using hne
      refine ⟨⟨?_, ?_⟩, by simp⟩
      · intro x hx
        rw [List.eq_of_mem_replicate hx]
        positivity
      · rw [List.sum_replicate, nsmul_eq_mul]
        field_simp

/-- Default options. -/
def cfg : SmcConfig ℚ where
  resampleThresh := 1 / 2
  policy := "error"
  zeroThresh := zeroThreshOf none
  canonicalize := true

theorem cfg_thresh : eps ≤ cfg.zeroThresh ∧ cfg.zeroThresh < 1 := by
  constructor <;> norm_num [cfg, zeroThreshOf, eps]

/-- A fresh updater with three particles at 1/4, 1/2, 3/4. -/
def fresh : Smc ℚ Nat Nat := (construct cfg coinEnv 3 false 0).1

end QInfer.Demo
