import Verif.Model.ParallelLife

/-! # Specification of the life of an engine-parallel model -/

namespace QInfer.Spec

variable {σ O M E α D K : Type}

/-- How many likelihoods a call asks for. -/
def evaluations : ParOp O M E K → Nat
  | .likelihood os ms es => os.length * ms.length * es.length
  | _ => 0

/-- How many data a call asks for. -/
def samples : ParOp O M E K → Nat
  | .simulate ms es rep _ => ms.length * es.length * rep
  | _ => 0

/-- The calls that reach the wrapped model of this process, with a threshold `thr` and a view that is
there (`conn`) until the object is pickled: small calls, and clearing of the cache. -/
def reaches (S : SerialModel σ O M E α D) (f : σ → σ) (thr : ℤ) :
    Bool → List (ParOp O M E K) → σ → σ
  | _, [], u => u
  | conn, .likelihood os ms es :: ops, u =>
    reaches S f thr conn ops (if (ms.length : ℤ) ≤ thr then (S.lik u os ms es).2 else u)
  | conn, .simulate ms es rep b :: ops, u =>
    reaches S f thr conn ops
      (if conn = true ∧ S.consistent es = true ∧
          ((if b then ms.length else es.length : Nat) : ℤ) ≤ thr
        then (S.sim u ms es rep).2 else u)
  | conn, .clearCache :: ops, u => reaches S f thr conn ops (S.clear u).2
  | _, .reload :: ops, u => reaches S f thr false ops (f u)
  | conn, .setIdentical _ :: ops, u => reaches S f thr conn ops u
  | conn, .setWarnAt _ :: ops, u => reaches S f thr conn ops u

/-- Pickling and loading. -/
def IsReload : ParOp O M E K → Prop
  | .reload => True
  | _ => False

/-- Setting `allow_identical_outcomes`. -/
def SetsIdentical : ParOp O M E K → Prop
  | .setIdentical _ => True
  | _ => False

/-- Setting `outcome_warning_threshold`. -/
def SetsWarnAt : ParOp O M E K → Prop
  | .setWarnAt _ => True
  | _ => False

end QInfer.Spec
