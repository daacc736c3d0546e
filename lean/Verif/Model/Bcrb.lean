import Verif.Model.Smc

/-!
# Model of `SMCUpdaterBCRB` (`src/qinfer/smc.py` 1047-1241)

The information matrices are arrays that may be shared with the caller, so they live in a heap:
`_current_bim += ...` writes in place.  A matrix containing NaN (an average over no particles) is
`none`.  Simplifications: one experiment per update, the Fisher information is computed separately for
each particle, and `fisher_information` and `grad_log_pdf` do not raise.
-/

namespace QInfer

variable {K O E ω : Type} {d : Nat}

/-- A `d × d` matrix. (The arrays at smc.py 1089-1101.) -/
abbrev Mat (d : Nat) (K : Type) := Fin d → Fin d → K

/-- Addresses of matrices and their contents. (smc.py 1089-1101, 1232-1238.) -/
abbrev Heap (d : Nat) (K : Type) := Nat → Option (Mat d K)

/-- Write to one address. (smc.py 1232, 1238.) -/
def Heap.set (h : Heap d K) (a : Nat) (v : Option (Mat d K)) : Heap d K :=
  fun b => if b = a then v else h b

/-- An `SMCUpdaterBCRB`: the inherited state, the array `_current_bim` refers to, the array
`_adaptive_bim` refers to if tracked.  `log` is a ghost field: the state in which each `update` call
was made, with its experiment. (smc.py 1047-1101.) -/
structure Bcrb (K O E ω : Type) where
  smc : Smc K O ω
  cur : Nat
  adapt : Option Nat
  log : List (Smc K O ω × E)

/-- What the class additionally needs from model and prior. (Used at smc.py 1085-1138.) -/
structure BEnv (d : Nat) (K O E ω : Type) extends Env K O E ω where
  /-- `model.fisher_information` at one parameter vector and experiment. -/
  fisher : List K → E → Mat d K
  /-- `prior.grad_log_pdf` at one parameter vector. -/
  gradLogPdf : List K → Fin d → K
  /-- `isinstance(model, DifferentiableModel)`. -/
  differentiable : Bool

section
variable [Field K] [LinearOrder K]

/-- `_bim` without weights, smc.py 1126-1132. -/
def bimUniform (F : List K → E → Mat d K) (xs : List (List K)) (e : E) : Option (Mat d K) :=
  if xs = [] then none
  else some fun i j => (xs.map fun x => F x e i j).sum / (xs.length : K)

/-- `_bim` with weights, smc.py 1126-1134. -/
def bimWeighted (F : List K → E → Mat d K) (ws : List K) (xs : List (List K)) (e : E) :
    Option (Mat d K) :=
  some fun i j => (List.zipWith (fun w x => w * F x e i j) ws xs).sum

/-- `+=` on matrices; NaN absorbs. (smc.py 1232, 1238.) -/
def matAdd (a b : Option (Mat d K)) : Option (Mat d K) :=
  match a, b with
  | some a, some b => some fun i j => a i j + b i j
  | _, _ => none

/-- The samples `prior_bayes_information` averages over, smc.py 1191-1193: as many as there are
particles. -/
def priorDraw (env : BEnv d K O E ω) (s : Smc K O ω) : List (List K) × ω :=
  env.prior s.seed s.locs.length

/-- `SMCUpdaterBCRB.update`, smc.py 1212-1241. -/
def bUpdate (cfg : SmcConfig K) (env : BEnv d K O E ω) (h : Heap d K) (b : Bcrb K O E ω)
    (o : O) (e : E) (check : Bool) : Heap d K × Bcrb K O E ω × Except PyErr Unit :=
  let log := b.log ++ [(b.smc, e)]
  let (xs, seed) := priorDraw env b.smc
  let h := h.set b.cur (matAdd (h b.cur) (bimUniform env.fisher xs e))
  let h := match b.adapt with
    | none => h
    | some a => h.set a (matAdd (h a) (bimWeighted env.fisher b.smc.weights b.smc.locs e))
  let r := update cfg env.toEnv { b.smc with seed := seed } o e check
  (h, { b with smc := r.1, log := log }, r.2)

/-- The loop of the inherited `batch_update`, smc.py 484-487, which calls the overriding `update`. -/
def bBatchLoop (cfg : SmcConfig K) (env : BEnv d K O E ω) (interval : Int) :
    Nat → List (O × E) → Heap d K → Bcrb K O E ω → Heap d K × Bcrb K O E ω × Except PyErr Unit
  | _, [], h, b => (h, b, .ok ())
  | idx, (o, e) :: ds, h, b =>
    match bUpdate cfg env h b o e false with
    | (h, b, .error err) => (h, b, .error err)
    | (h, b, .ok ()) =>
      if interval = 0 then (h, b, .error .zeroDivisionError)
      else if ((idx : Int) + 1) % interval = 0 then
        match maybeResample cfg env.toEnv b.smc with
        | (s, .error err) => (h, { b with smc := s }, .error err)
        | (s, .ok ()) => bBatchLoop cfg env interval (idx + 1) ds h { b with smc := s }
      else bBatchLoop cfg env interval (idx + 1) ds h b

/-- One public call. (smc.py 281, 491, 1212.) -/
def bStep (cfg : SmcConfig K) (env : BEnv d K O E ω) (h : Heap d K) (b : Bcrb K O E ω) :
    Op O E → Heap d K × Bcrb K O E ω × Except PyErr Unit
  | .update o e check => bUpdate cfg env h b o e check
  | .batch os es interval =>
    if es.length ≠ os.length then (h, b, .error .valueError)
    else bBatchLoop cfg env interval 0 (os.zip es) h b
  | .resample => let r := resample cfg env.toEnv b.smc; (h, { b with smc := r.1 }, r.2)
  | .reset n only rw => let r := reset cfg env.toEnv b.smc n only rw; (h, { b with smc := r.1 }, r.2)

/-- A history of public calls; the caller may catch exceptions and go on.
(smc.py 281, 491, 1212.) -/
def bRun (cfg : SmcConfig K) (env : BEnv d K O E ω) :
    List (Op O E) → Heap d K → Bcrb K O E ω → Heap d K × Bcrb K O E ω
  | [], h, b => (h, b)
  | op :: ops, h, b =>
    let r := bStep cfg env h b op
    bRun cfg env ops r.1 r.2.1

/-- The default initial matrix, smc.py 1088-1092. -/
def gradientBim (env : BEnv d K O E ω) (xs : List (List K)) : Option (Mat d K) :=
  if xs = [] then none
  else some fun i j =>
    (xs.map fun x => env.gradLogPdf x i * env.gradLogPdf x j).sum / (xs.length : K)

/-- `SMCUpdaterBCRB.__init__` after the inherited constructor returned `s`, smc.py 1077-1103.
`initialBim` is the address of the caller's array; `fresh` is the first unused address. -/
def bConstruct (env : BEnv d K O E ω) (h : Heap d K) (s : Smc K O ω) (initialBim : Option Nat)
    (adaptive : Bool) (fresh : Nat) : Except PyErr (Heap d K × Bcrb K O E ω) :=
  if env.differentiable then
    let (h, cur) := match initialBim with
      | none => (h.set fresh (gradientBim env s.locs), fresh)
      | some a => (h, a)
    if adaptive then
      -- `self.current_bim` is a copy
      .ok (h.set (fresh + 1) (h cur), ⟨s, cur, some (fresh + 1), []⟩)
    else .ok (h, ⟨s, cur, none, []⟩)
  else .error .valueError

/-- The property `current_bim`, smc.py 1139-1147: a copy. -/
def currentBim (h : Heap d K) (b : Bcrb K O E ω) : Option (Mat d K) := h b.cur

/-- The property `adaptive_bim`, smc.py 1149-1161. -/
def adaptiveBim (h : Heap d K) (b : Bcrb K O E ω) : Except PyErr (Option (Mat d K)) :=
  match b.adapt with
  | none => .error .valueError
  | some a => .ok (h a)

end

/-! ## Keyword arguments -/

/-- Parameter names of `SMCUpdater.__init__`, smc.py 123-130. -/
def smcParams : List String :=
  ["model", "n_particles", "prior", "resample_a", "resampler", "resample_thresh",
    "debug_resampling", "track_resampling_divergence", "zero_weight_policy", "zero_weight_thresh",
    "canonicalize"]

/-- The keyword arguments passed on, smc.py 1069-1075. -/
def bcrbKwargs {V : Type} (kw : List (String × V)) : List (String × V) :=
  kw.filter fun p => p.1 ∈ ["resampler_a", "resampler", "resample_thresh", "model", "prior",
    "n_particles"]

/-- Binding keyword arguments to named parameters: an unknown name raises `TypeError`.
(Python call at smc.py 1078.) -/
def bindKwargs {V : Type} (params : List String) (kw : List (String × V)) : Except PyErr Unit :=
  if kw.all fun p => p.1 ∈ params then .ok () else .error .typeError

end QInfer
