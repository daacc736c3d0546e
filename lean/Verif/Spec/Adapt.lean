import Verif.Spec.Smc

/-!
# Adaptive runs

The loop every user of the package writes: choose an experiment by looking at the updater, perform it,
update with the outcome.  (The same loop is inside `perf_test`, perf_testing.py 245-266.)
-/

namespace QInfer

variable {K : Type*} {O E ω : Type*}

section
variable [Field K] [LinearOrder K]

/-- Run through the outcomes `os`, choosing each experiment by `heur` from the current updater; the
data, and the updater at the end or at the first exception. -/
def adapt (cfg : SmcConfig K) (env : Env K O E ω) (heur : Smc K O ω → E) :
    List O → Smc K O ω → List (O × E) × Res K O ω
  | [], s => ([], (s, .ok ()))
  | o :: os, s =>
    match update cfg env s o (heur s) true with
    | (s', .error err) => ([(o, heur s)], (s', .error err))
    | (s', .ok ()) => ((o, heur s) :: (adapt cfg env heur os s').1, (adapt cfg env heur os s').2)

/-- A run that raised nothing and in which no resampling took place. -/
def Undisturbed (cfg : SmcConfig K) (env : Env K O E ω) (heur : Smc K O ω → E) (os : List O)
    (s : Smc K O ω) : Prop :=
  (adapt cfg env heur os s).2.2 = .ok () ∧
    (adapt cfg env heur os s).2.1.resampleCount = s.resampleCount

end

end QInfer
