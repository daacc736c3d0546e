import Verif.Model.ResampleCount
import Verif.Props.Resample

/-!
# C18: the number of resampled particles
-/

namespace QInfer

variable {ρ Z ω : Type*} {K : Type*} [Field K] [LinearOrder K] [IsStrictOrderedRing K]

/-- **C18, how many.**  The resampler returns as many particles as the caller asks for; otherwise as many as it was
constructed with; otherwise as many as there were.  All have the same weight. -/
theorem C18_count (env : LwEnv ρ Z ω) (valid : ρ → Bool) (hg : GoodLw env valid) (hpost : env.postselect = true)
    (maxiter : Nat) (covZero : Bool) (w : List K) (hw : IsProb w) (l : List ρ) (hlen : l.length = w.length)
    (centre : ρ → ρ) (variates : Nat → List K) (hv : ∀ n, (variates n).length = n ∧ ∀ u ∈ variates n, 0 ≤ u ∧ u < 1)
    (seed : ω) (arg dflt : Option Nat) :
    ∃ locs weights warns iters seed', liuWestCall env maxiter covZero true w l centre arg dflt variates seed =
        .ok (locs, weights, warns, iters, seed') ∧
      weights = List.replicate locs.length (some (1 / (locs.length : K))) ∧
      (∀ m, arg = some m → locs.length = m) ∧
      (∀ m, arg = none → dflt = some m → locs.length = m) ∧
      (arg = none → dflt = none → locs.length = l.length) := by
  obtain ⟨n, hn⟩ : ∃ n, n = lwCount arg dflt l.length := ⟨_, rfl⟩
  obtain ⟨locs, warns, iters, seed', h1, h2, -⟩ := C18_valid_or_warns env valid hg hpost maxiter covZero w hw l hlen centre
    (variates n) (hv n).2 seed
  rw [(hv n).1] at h1 h2
  refine ⟨locs, _, warns, iters, seed', ?_, by rw [h2], ?_, ?_, ?_⟩
  · unfold liuWestCall
    rw [← hn]
    exact h1
  · rintro m rfl; rw [h2, hn]; rfl
  · rintro m rfl rfl; rw [h2, hn]; rfl
  · rintro rfl rfl; rw [h2, hn]; rfl

/-- Case: two particles become three, or two, by the argument and the default. -/
example : (liuWestCall demoLw 1 false true ([1/2, 1/2] : List ℚ) [0, 10] id none (some 3)
      (fun n => List.replicate n (1/4)) 0).toOption.map (fun r => r.2.1) = some [some (1/3), some (1/3), some (1/3)] ∧
    (liuWestCall demoLw 1 false true ([1/2, 1/2] : List ℚ) [0, 10] id (some 1) (some 3)
      (fun n => List.replicate n (1/4)) 0).toOption.map (fun r => r.2.1) = some [some 1] ∧
    (liuWestCall demoLw 1 false true ([1/2, 1/2] : List ℚ) [0, 10] id none none
      (fun n => List.replicate n (1/4)) 0).toOption.map (fun r => r.2.1) = some [some (1/2), some (1/2)] := by
  decide +kernel

end QInfer
