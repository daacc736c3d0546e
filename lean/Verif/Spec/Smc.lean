import Verif.Model.Smc

/-!
# Specification vocabulary for the updater

Small notions used to state the properties, independent of how the updater computes.
A *cloud* is a list of weights next to a list of parameter vectors.
-/

namespace QInfer

variable {K : Type*} {O E ω : Type*}

section
variable [Field K] [LinearOrder K]

/-- A probability vector. -/
def IsProb (w : List K) : Prop := (∀ x ∈ w, 0 ≤ x) ∧ w.sum = 1

/-- What the updater needs from its collaborators: non-negative likelihoods, samplers and
maps that return as many rows as asked for, and a resampler that turns a weighted cloud
into a weighted cloud (or raises). -/
structure GoodEnv (env : Env K O E ω) : Prop where
  like_nonneg : ∀ o x e, 0 ≤ env.likelihood o x e
  prior_len : ∀ r n, (env.prior r n).1.length = n
  canon_len : ∀ l, (env.canon l).length = l.length
  timestep_len : ∀ r l e, (env.timestep r l e).1.length = l.length
  resampler_ok : ∀ r w l w' l', IsProb w → l.length = w.length →
    (env.resampler r w l).1 = .ok (w', l') → IsProb w' ∧ l'.length = w'.length

/-- Calls to `reset` that make sense: a new particle number is positive and comes with new
weights. -/
def Op.Sane : Op O E → Prop
  | .reset (some n) _ rw => 0 < n ∧ rw = true
  | _ => True

/-- Probability of an outcome under a cloud: `∑ wᵢ Pr(o | xᵢ; e)`. -/
def evidence (like : O → List K → E → K) (w : List K) (locs : List (List K)) (o : O) (e : E) : K :=
  ((w.zip locs).map fun p => p.1 * like o p.2 e).sum

/-- Bayes' rule on a cloud. -/
def posterior (like : O → List K → E → K) (w : List K) (locs : List (List K)) (o : O) (e : E) :
    List K :=
  (w.zip locs).map fun p => p.1 * like o p.2 e / evidence like w locs o e

/-- Likelihood of a whole data set at one parameter vector. -/
def dataLike (like : O → List K → E → K) (ds : List (O × E)) (x : List K) : K :=
  (ds.map fun d => like d.1 x d.2).prod

/-- Evidence of a whole data set under a cloud. -/
def dataEvidence (like : O → List K → E → K) (w : List K) (locs : List (List K))
    (ds : List (O × E)) : K :=
  ((w.zip locs).map fun p => p.1 * dataLike like ds p.2).sum

/-- Bayes' rule for a whole data set at once. -/
def dataPosterior (like : O → List K → E → K) (w : List K) (locs : List (List K))
    (ds : List (O × E)) : List K :=
  (w.zip locs).map fun p => p.1 * dataLike like ds p.2 / dataEvidence like w locs ds

/-- A model whose parameters do not change in time. -/
def Static (env : Env K O E ω) : Prop := ∀ r l e, (env.timestep r l e).1 = l

/-- Calling `update(o, e, check_for_resample=check)` for each datum in turn, stopping at the first
exception. -/
def feed (cfg : SmcConfig K) (env : Env K O E ω) (check : Bool) :
    List (O × E) → Smc K O ω → Res K O ω
  | [], s => (s, .ok ())
  | d :: ds, s =>
    match update cfg env s d.1 d.2 check with
    | (s, .error err) => (s, .error err)
    | (s, .ok ()) => feed cfg env check ds s

/-! ### Elementary steps

Every public call is a sequence of elementary steps: record a datum without looking at the
effective sample size, look at the effective sample size, resample, reset. -/

/-- An elementary step. -/
inductive Micro (O E : Type*)
  | datum (o : O) (e : E)
  | check
  | resample
  | reset (n : Option Nat) (only : Option (List Nat)) (resetWeights : Bool)

/-- Effect of an elementary step. -/
def microStep (cfg : SmcConfig K) (env : Env K O E ω) (s : Smc K O ω) : Micro O E → Smc K O ω
  | .datum o e => (update cfg env s o e false).1
  | .check => (maybeResample cfg env s).1
  | .resample => (resample cfg env s).1
  | .reset n only rw => (reset cfg env s n only rw).1

/-- Effect of a sequence of elementary steps. -/
def runMicro (cfg : SmcConfig K) (env : Env K O E ω) (ms : List (Micro O E)) (s : Smc K O ω) :
    Smc K O ω := ms.foldl (microStep cfg env) s

/-- The steps of a batch: after each datum whose one-based index is a multiple of the interval,
a check. -/
def batchPlan (interval : Int) : Nat → List (O × E) → List (Micro O E)
  | _, [] => []
  | idx, d :: ds =>
    .datum d.1 d.2 ::
      (if interval ≠ 0 ∧ interval ∣ ((idx : Int) + 1) then
        .check :: batchPlan interval (idx + 1) ds else batchPlan interval (idx + 1) ds)

/-- The steps a public call is made of if nothing interrupts it. -/
def Op.plan : Op O E → List (Micro O E)
  | .update o e check => if check then [.datum o e, .check] else [.datum o e]
  | .batch os es interval => if es.length = os.length then batchPlan interval 0 (os.zip es) else []
  | .resample => [.resample]
  | .reset n only rw => [.reset n only rw]

/-- The outcome handed over in an elementary step. -/
def Micro.outcome? : Micro O E → Option O
  | .datum o _ => some o
  | _ => none

/-- The outcomes handed over by a public call. -/
def Op.outcomes : Op O E → List O
  | .update o _ _ => [o]
  | .batch os es _ => if es.length = os.length then os else []
  | _ => []

end

end QInfer
