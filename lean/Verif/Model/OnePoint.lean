import Verif.Model.Particle
import Verif.Model.Resample
import Mathlib.Probability.Distributions.Gaussian.Real

/-!
# Clouds that have collapsed, and whole runs with a Liu-West resampler

`LiuWestResampler.__call__`, `src/qinfer/resamplers.py` 265-332, with the branch for vanishing covariances at 284-294, and runs of
`SMCUpdater.update`, `src/qinfer/smc.py` 408-454, that call it.
-/

namespace QInfer

open MeasureTheory ProbabilityTheory

/-- The covariance whose square root is used, and whether the resampler warns, resamplers.py 284-294; `zcc` is the parameter
`zero_cov_comp`. -/
noncomputable def lwCovUsed {d : Nat} (zcc : ℝ) (cov : Matrix (Fin d) (Fin d) ℝ) : Matrix (Fin d) (Fin d) ℝ × Bool :=
  if Real.sqrt (∑ i, ∑ j, cov i j ^ 2) = 0 then (zcc • 1, true) else (cov, false)

/-- Weights and locations of an updater. -/
abbrev LwCloud (N d : Nat) := (Fin N → ℝ) × (Fin N → Fin d → ℝ)

/-- One call of the resampler without postselection, resamplers.py 265-392: `root` is the real part of what `sqrtm_psd` returns (295
and 300), `q` holds for each new particle the uniform variate that chooses its parent (319-322) and the kernel's numbers (332). -/
noncomputable def lwCall {N d : Nat} (root : Matrix (Fin d) (Fin d) ℝ → Matrix (Fin d) (Fin d) ℝ) (zcc a h : ℝ) (hN : 0 < N)
    (w : Fin N → ℝ) (x : Fin N → Fin d → ℝ) (q : Fin N → ℝ × (Fin d → ℝ)) : LwCloud N d :=
  (fun _ => 1 / N, fun i => lwLocation a h (pmean w x) (root (lwCovUsed zcc (pcov w x)).1) x
    ⟨sampleIdx (List.ofFn w) (q i).1, by unfold sampleIdx; simp; omega⟩ (q i).2)

/-- The law of the random numbers of one call: uniform variates and the default kernel, resamplers.py 227 and 319-322. -/
noncomputable def lwDraws (N d : Nat) : Measure (Fin N → ℝ × (Fin d → ℝ)) :=
  Measure.pi fun _ => (volume.restrict (Set.Ico (0 : ℝ) 1)).prod (Measure.pi fun _ => gaussianReal 0 1)

/-- How a run ends: all data are processed; `RuntimeError` as all weights are zero (smc.py 424-433); or the resampler is about to warn
that the covariance is zero. -/
inductive LwEnd
  | finished
  | raised
  | collapsed

/-- The expectation of a quantity `f` of the clouds of a run, newest first, over all random numbers of its resampler: `update` for each
datum, smc.py 408-454, whose likelihood is a function of the clouds so far (from which the experiment may be chosen) and of the location, with the
decision of `_maybe_resample` (263-277).  The expectation given
the cloud before a resampling is over the law of the cloud after it.  Simplified: likelihoods are not negative, no time step, policy `error`
with a threshold between machine precision and one. -/
noncomputable def lwValue {N d : Nat} (root : Matrix (Fin d) (Fin d) ℝ → Matrix (Fin d) (Fin d) ℝ) (zcc a h thresh : ℝ) (hN : 0 < N)
    (f : LwEnd → List (LwCloud N d) → ENNReal) :
    List (List (LwCloud N d) → (Fin d → ℝ) → ℝ) → List (LwCloud N d) → LwCloud N d → ENNReal
  | [], past, s => f .finished (s :: past)
  | like :: Ls, past, s =>
    let L := like (s :: past)
    let norm := ∑ k, s.1 k * L (s.2 k)
    if norm < eps then f .raised (s :: past)
    else
      let w := fun i => s.1 i * L (s.2 i) / norm
      if 1 / ∑ i, w i ^ 2 < N * thresh then
        if (lwCovUsed zcc (pcov w s.2)).2 then f .collapsed ((w, s.2) :: s :: past)
        else ∫⁻ s', lwValue root zcc a h thresh hN f Ls (s :: past) s' ∂(lwDraws N d).map (lwCall root zcc a h hN w s.2)
      else lwValue root zcc a h thresh hN f Ls (s :: past) (w, s.2)

end QInfer
