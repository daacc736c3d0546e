import Verif.Model.Py

/-!
# Model of `SMCUpdater` (`src/qinfer/smc.py`)

The updater is a state machine.  Everything the updater calls but does not own -- the
model, the prior, the resampler -- is a field of `Env`.  Randomness is a seed of arbitrary
type `ω` threaded through those fields.

Simplifications, all of them: exact arithmetic in an ordered field; one outcome and one
experiment per `update` (as documented, smc.py 395-401); calls into the environment do not
themselves raise, except the resampler (`ResamplerError`) and `clear_cache`; the
`debug_resampling` branches (514-516, 545-551), which only log, are omitted.
-/

namespace QInfer

variable {K : Type*} {O E ω : Type*}

/-- What the updater is given: `model`, `prior`, `resampler` (smc.py 140-159). -/
structure Env (K O E ω : Type*) where
  /-- `model.likelihood` at one outcome, one parameter vector, one experiment. -/
  likelihood : O → List K → E → K
  /-- `model.update_timestep(locs, expparams)[:, :, 0]` (smc.py 447-449). -/
  timestep : ω → List (List K) → E → List (List K) × ω
  /-- `model.canonicalize`. -/
  canon : List (List K) → List (List K)
  /-- whether `model.clear_cache()` raises (smc.py 533-536). -/
  clearCacheRaises : Bool
  /-- `prior.sample(n)`. -/
  prior : ω → Nat → List (List K) × ω
  /-- `resampler(model, updater)` as a function of the particle weights and locations;
  the result is the weights and locations of the returned distribution. -/
  resampler : ω → List K → List (List K) → Except PyErr (List K × List (List K)) × ω
  /-- `_kl_divergence` of the new cloud from the old (distributions.py 466-487). -/
  kl : List K → List (List K) → List K → List (List K) → K

/-- Constructor options that stay fixed (smc.py 123-175). -/
structure SmcConfig (K : Type*) where
  resampleThresh : K
  policy : String
  zeroThresh : K
  canonicalize : Bool

/-- Mutable attributes of an updater (smc.py 136-178). -/
structure Smc (K O ω : Type*) where
  weights : List K
  locs : List (List K)
  resampleCount : Nat
  minNEss : WithTop K
  justResampled : Bool
  dataRecord : List O
  normRecord : List K
  divergences : Option (List K)
  seed : ω
  warnings : List Warn

/-- The result of a method call: the state it leaves behind, and `ok` or an exception.
(Of the methods at smc.py 263-536.) -/
abbrev Res (K O ω : Type*) := Smc K O ω × Except PyErr Unit

/-- `warnings.warn(...)`. (smc.py 269, 417, 429, 433, 497, 536.) -/
def Smc.warn (s : Smc K O ω) (w : Warn) : Smc K O ω := { s with warnings := s.warnings ++ [w] }

section
variable [Field K] [LinearOrder K]

/-- `n_ess`, distributions.py 299-307: `1 / sum(w**2)`, infinite if all weights vanish. -/
def nEss (w : List K) : WithTop K := recip (w.map fun x => x ^ 2).sum

/-- `n_particles`, distributions.py 290-296: rows of `particle_locations`. -/
def Smc.nParticles (s : Smc K O ω) : Nat := s.locs.length

/-- The likelihood row of one outcome and experiment, smc.py 353. -/
def Env.likeRow (env : Env K O E ω) (locs : List (List K)) (o : O) (e : E) : List K :=
  locs.map fun x => env.likelihood o x e

/-- One `[outcome, experiment]` cell of `hypothetical_update`, smc.py 353-373:
normalised weights, likelihoods, and the normalisation before the fix-up at 369-370. -/
def hypCell (env : Env K O E ω) (w : List K) (locs : List (List K)) (o : O) (e : E) :
    Except PyErr (List K × List K × K) :=
  let L := env.likeRow locs o e
  match bcast (· * ·) w L with
  | .error err => .error err
  | .ok hyp =>
    let norm := hyp.sum
    let fixed := if |norm| < eps then 1 else norm
    .ok (hyp.map (· / fixed), L, norm)

/-- `hypothetical_update` over arrays of outcomes and experiments, smc.py 324-386. -/
def hypotheticalUpdate (env : Env K O E ω) (s : Smc K O ω) (os : List O) (es : List E) :
    Except PyErr (List (List (List K × List K × K))) :=
  os.mapM fun o => es.mapM fun e => hypCell env s.weights s.locs o e

/-- `reset(n_particles, only_params, reset_weights)`, smc.py 281-320.  `only_params` is the
list of selected column indices. -/
def reset (cfg : SmcConfig K) (env : Env K O E ω) (s : Smc K O ω)
    (n : Option Nat) (only : Option (List Nat)) (resetWeights : Bool) : Res K O ω :=
  if n.isSome && only.isSome then (s, .error .valueError)
  else
    let n := n.getD s.nParticles
    let s := if resetWeights then
        { s with weights := List.replicate n (1 / (n : K)) } else s
    let (draw, seed) := env.prior s.seed n
    let s := { s with seed := seed }
    match only with
    | none =>
      let locs := if cfg.canonicalize then env.canon draw else draw
      ({ s with locs := locs }, .ok ())
    | some cols =>
      -- `particle_locations[:, cols] = draw[:, cols]`
      let locs := List.zipWith (fun old new =>
        old.mapIdx fun j x => if j ∈ cols then new.getD j x else x) s.locs draw
      -- `particle_locations[:, cols] = canonicalize(particle_locations[:, cols])`
      let locs := if cfg.canonicalize then
          let sub := env.canon (locs.map fun row => cols.filterMap fun j => row[j]?)
          List.zipWith (fun old new =>
            old.mapIdx fun j x => if j ∈ cols then new.getD (cols.idxOf j) x else x) locs sub
        else locs
      ({ s with locs := locs }, .ok ())

/-- The bookkeeping at the start of `resample()`, smc.py 496-505. -/
def markResampled (s : Smc K O ω) : Smc K O ω :=
  let s := if s.justResampled then s.warn .resampleNoData else s
  { s with justResampled := true, resampleCount := s.resampleCount + 1 }

/-- The rest of `resample()`, smc.py 507-542. -/
def runResampler (cfg : SmcConfig K) (env : Env K O E ω) (s : Smc K O ω) : Res K O ω :=
  match env.resampler s.seed s.weights s.locs with
  | (.error err, seed) => ({ s with seed := seed }, .error err)
  | (.ok (w, l), seed) =>
    let l := if cfg.canonicalize then env.canon l else l
    let new := { s with weights := w, locs := l, seed := seed }
    let new := if env.clearCacheRaises then new.warn .clearCache else new
    let new := match s.divergences with
      | none => new
      | some ds => { new with divergences := some (ds ++ [env.kl w l s.weights s.locs]) }
    (new, .ok ())

/-- `resample()`, smc.py 491-551. -/
def resample (cfg : SmcConfig K) (env : Env K O E ω) (s : Smc K O ω) : Res K O ω :=
  runResampler cfg env (markResampled s)

/-- `_maybe_resample()`, smc.py 263-277. -/
def maybeResample (cfg : SmcConfig K) (env : Env K O E ω) (s : Smc K O ω) : Res K O ω :=
  let ess := nEss s.weights
  let s := if ess ≤ ((10 : K) : WithTop K) then s.warn .smallEss else s
  if ess < (((s.nParticles : K) * cfg.resampleThresh : K) : WithTop K) then resample cfg env s
  else (s, .ok ())

/-- The tail of `update`, smc.py 441-457. -/
def finishUpdate (cfg : SmcConfig K) (env : Env K O E ω) (s : Smc K O ω)
    (w : List K) (norm : K) (e : E) (check : Bool) : Res K O ω :=
  match assignInto s.weights w with
  | .error err => (s, .error err)
  | .ok w =>
    let s := { s with weights := w, normRecord := s.normRecord ++ [norm] }
    let (locs, seed) := env.timestep s.seed s.locs e
    let s := { s with locs := locs, seed := seed }
    let s := if nEss s.weights ≤ s.minNEss then { s with minNEss := nEss s.weights } else s
    if check then maybeResample cfg env s else (s, .ok ())

/-- The part of `update` after the clipping step, smc.py 423-457. -/
def applyUpdate (cfg : SmcConfig K) (env : Env K O E ω) (s : Smc K O ω)
    (w : List K) (norm : K) (e : E) (check : Bool) : Res K O ω :=
  if w.sum ≤ cfg.zeroThresh then
    if cfg.policy = "ignore" then finishUpdate cfg env s w norm e check
    else if cfg.policy = "skip" then (s, .ok ())
    else if cfg.policy = "warn" then finishUpdate cfg env (s.warn .zeroWeights) w norm e check
    else if cfg.policy = "error" then (s, .error .runtimeError)
    else if cfg.policy = "reset" then
      match reset cfg env (s.warn .zeroWeightsReset) none none true with
      | (s, .error err) => (s, .error err)
      | (s, .ok ()) => finishUpdate cfg env s w norm e check
    else (s, .error .valueError)
  else finishUpdate cfg env s w norm e check

/-- Recording of the outcome at the start of `update`, smc.py 409-410. -/
def recordDatum (s : Smc K O ω) (o : O) : Smc K O ω :=
  { s with dataRecord := s.dataRecord ++ [o], justResampled := false }

/-- `update(outcome, expparams, check_for_resample)`, smc.py 388-457. -/
def update (cfg : SmcConfig K) (env : Env K O E ω) (s : Smc K O ω)
    (o : O) (e : E) (check : Bool) : Res K O ω :=
  let s := recordDatum s o
  match hypCell env s.weights s.locs o e with
  | .error err => (s, .error err)
  | .ok (w, _, norm) =>
    if w.all (fun x => decide (0 ≤ x)) then applyUpdate cfg env s w norm e check
    else applyUpdate cfg env (s.warn .negativeWeights) (w.map (clip 0 1)) norm e check

/-- The loop of `batch_update`, smc.py 484-487; `idx` is `idx_exp`. -/
def batchLoop (cfg : SmcConfig K) (env : Env K O E ω) (interval : Int) :
    Nat → List (O × E) → Smc K O ω → Res K O ω
  | _, [], s => (s, .ok ())
  | idx, (o, e) :: ds, s =>
    match update cfg env s o e false with
    | (s, .error err) => (s, .error err)
    | (s, .ok ()) =>
      if interval = 0 then (s, .error .zeroDivisionError)
      else if ((idx : Int) + 1) % interval = 0 then
        match maybeResample cfg env s with
        | (s, .error err) => (s, .error err)
        | (s, .ok ()) => batchLoop cfg env interval (idx + 1) ds s
      else batchLoop cfg env interval (idx + 1) ds s

/-- `batch_update(outcomes, expparams, resample_interval)`, smc.py 459-487. -/
def batchUpdate (cfg : SmcConfig K) (env : Env K O E ω) (s : Smc K O ω)
    (os : List O) (es : List E) (interval : Int) : Res K O ω :=
  if es.length ≠ os.length then (s, .error .valueError)
  else batchLoop cfg env interval 0 (os.zip es) s

/-- `SMCUpdater.__init__`, smc.py 123-178, from the point where the resampler is chosen.
`none` for the state means that construction raised. -/
def construct (cfg : SmcConfig K) (env : Env K O E ω) (n : Nat) (trackDiv : Bool) (seed : ω) :
    Res K O ω :=
  reset cfg env
    { weights := [], locs := [], resampleCount := 0, minNEss := ((n : K) : WithTop K),
      justResampled := false, dataRecord := [], normRecord := [],
      divergences := if trackDiv then some [] else none, seed := seed, warnings := [] }
    (some n) none true

/-- Choice of resampler, smc.py 150-159: `resample_a` and `resampler` exclude each other.
`liuWestA a` is `LiuWestResampler(a=a)`, `liuWestN n` is
`LiuWestResampler(default_n_particles=n)`. -/
def chooseResampler {Rs : Type*} (liuWestA : K → Rs) (liuWestN : Nat → Rs) (n : Nat)
    (resampleA : Option K) (resampler : Option Rs) : Except PyErr Rs × List Warn :=
  match resampleA with
  | some a => match resampler with
    | some _ => (.error .valueError, [.resampleADeprecated])
    | none => (.ok (liuWestA a), [.resampleADeprecated])
  | none => match resampler with
    | none => (.ok (liuWestN n), [])
    | some r => (.ok r, [])

/-- `zero_weight_thresh` default, smc.py 171-175. -/
def zeroThreshOf (t : Option K) : K := t.getD (10 * eps)

/-- The public mutating calls of an updater. (smc.py 281, 388, 459, 491.) -/
inductive Op (O E : Type*)
  | update (o : O) (e : E) (check : Bool)
  | batch (os : List O) (es : List E) (interval : Int)
  | resample
  | reset (n : Option Nat) (only : Option (List Nat)) (resetWeights : Bool)

/-- One public call. (smc.py 281, 388, 459, 491.) -/
def step (cfg : SmcConfig K) (env : Env K O E ω) (s : Smc K O ω) : Op O E → Res K O ω
  | .update o e check => update cfg env s o e check
  | .batch os es interval => batchUpdate cfg env s os es interval
  | .resample => resample cfg env s
  | .reset n only rw => reset cfg env s n only rw

/-- A history of public calls; the caller may catch exceptions and go on.
(smc.py 281, 388, 459, 491.) -/
def run (cfg : SmcConfig K) (env : Env K O E ω) : List (Op O E) → Smc K O ω → Smc K O ω
  | [], s => s
  | op :: ops, s => run cfg env ops (step cfg env s op).1

end

end QInfer
