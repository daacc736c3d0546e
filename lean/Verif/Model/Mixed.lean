import Verif.Model.Smc
import Verif.Model.Particle

/-!
# Model of `MixedApproximateSMCUpdater`

`src/qinfer/smc.py` 909-1045.  The shuffle of the identity permutation is a parameter `shuffled`; the
sort behind `np.argsort` is a parameter too (numpy's default is not stable), specified in
`Verif.Props.Mixed`.  One outcome and one experiment are modelled: lines 958-1023 act cell by cell over
those axes, except the choice of particles, which does not depend on them.
-/

namespace QInfer

variable {K : Type*} {O E : Type*} [Field K] [LinearOrder K]

/-- `mixture_ratio`, `mixture_thresh`, `min_good`, smc.py 946-948. -/
structure MixCfg (K : Type*) where
  ratio : K
  thresh : K
  minGood : ℤ

/-- Fancy indexing `a[idxs]`; the indices are in range in every use below. (smc.py 977-1011.) -/
def take1 {α : Type*} (a : List α) (d : α) (idxs : List Nat) : List α := idxs.map fun i => a.getD i d

/-- `idxs_random[idxs_sorted]`, smc.py 977-979. -/
def mixOrder (argsort : List K → List Nat) (shuffled : List Nat) (w : List K) : List Nat :=
  take1 shuffled 0 (argsort (take1 w 0 shuffled))

/-- The mask of particles given to the good model, smc.py 983-997.  `order` is
`idxs_random[idxs_sorted]`, `inv` its `argsort`. -/
def mixMask (cfg : MixCfg K) (order inv : List Nat) (w : List K) : List Bool :=
  let sortedW := take1 w 0 order
  let cum := cumsum sortedW
  let sortedMask := List.zipWith
    (fun c x => decide (1 - cfg.ratio ≤ c) || decide (cfg.thresh ≤ x)) cum sortedW
  let mask := take1 sortedMask false inv
  if ((mask.count true : ℕ) : ℤ) < cfg.minGood then
    let chosen := order.drop (order.length - cfg.minGood.toNat)
    (List.range mask.length).map fun p => decide (p ∈ chosen)
  else mask

/-- `np.mean`; NaN (`none`) on an empty array. (smc.py 1005-1006.) -/
def npMean (l : List K) : Option K := if l = [] then none else some (l.sum / l.length)

/-- `L[mask] = vals` along the particle axis. (smc.py 1009-1011.) -/
def maskAssign {α : Type*} : List α → List Bool → List α → List α
  | _ :: bs, true :: ms, v :: vs => v :: maskAssign bs ms vs
  | b :: bs, _ :: ms, vs => b :: maskAssign bs ms vs
  | bs, _, _ => bs

/-- The assertion of smc.py 1005-1006. -/
def mixAssert (wGood wBad : List K) : Bool :=
  match npMean wGood, npMean wBad with
  | some g, some b => decide (-(1 / 10 ^ 6) ≤ g - b)
  | _, _ => false

/-- The likelihoods, filled in by the two models, smc.py 1009-1011. -/
def mixLik (good apx : O → List K → E → K) (locs : List (List K)) (goodMask : List Bool) (o : O)
    (e : E) : List K :=
  let badMask := goodMask.map not
  let locsGood := select locs goodMask
  let locsBad := select locs badMask
  let L := List.replicate locs.length (0 : K)
  let L := maskAssign L goodMask (locsGood.map fun x => good o x e)
  maskAssign L badMask (locsBad.map fun x => apx o x e)

/-- Weighting and normalisation, smc.py 1017-1037. -/
def mixNorm (w L : List K) : Except PyErr (List K × List K × K) :=
  match bcast (· * ·) w L with
  | .error err => .error err
  | .ok hyp =>
    let norm := hyp.sum
    let fixed := if |norm| < eps then 1 else norm
    .ok (hyp.map (· / fixed), L, norm)

/-- One `[outcome, experiment]` cell of `hypothetical_update`, smc.py 950-1045: normalised weights,
likelihoods and normalisation.  `good` and `apx` are the two models' likelihoods. -/
def mixedCell (cfg : MixCfg K) (argsort : List K → List Nat) (argsortN : List Nat → List Nat)
    (shuffled : List Nat) (good apx : O → List K → E → K) (w : List K) (locs : List (List K))
    (o : O) (e : E) : Except PyErr (List K × List K × K) :=
  let order := mixOrder argsort shuffled w
  let goodMask := mixMask cfg order (argsortN order) w
  let badMask := goodMask.map not
  if mixAssert (select w goodMask) (select w badMask) = false then .error .assertionError
  else mixNorm w (mixLik good apx locs goodMask o e)

/-- `update` of a `MixedApproximateSMCUpdater`: the inherited method, smc.py 388-457, calling the
`hypothetical_update` of the subclass.  `env` holds the good model, which the constructor also hands to
`SMCUpdater.__init__`, smc.py 941-944. -/
def mixedUpdate {ω : Type*} (cfg : SmcConfig K) (env : Env K O E ω) (mix : MixCfg K)
    (argsort : List K → List Nat) (argsortN : List Nat → List Nat) (apx : O → List K → E → K)
    (s : Smc K O ω) (shuffled : List Nat) (o : O) (e : E) (check : Bool) : Res K O ω :=
  let s := recordDatum s o
  match mixedCell mix argsort argsortN shuffled env.likelihood apx s.weights s.locs o e with
  | .error err => (s, .error err)
  | .ok (w, _, norm) =>
    if w.all (fun x => decide (0 ≤ x)) then applyUpdate cfg env s w norm e check
    else applyUpdate cfg env (s.warn .negativeWeights) (w.map (clip 0 1)) norm e check

end QInfer
