import Verif.Model.Py
import Mathlib.Data.Nat.Choose.Basic
import Mathlib.Data.Rat.Floor
import Mathlib.Algebra.BigOperators.Fin

/-!
# Models of `src/qinfer/domains.py` and of the structured array helpers of `src/qinfer/utils.py`
-/

namespace QInfer

/-- Entries of an array handed to `in_domain`: finite floats (and integers), the infinities, NaN,
and anything `np.isreal` rejects. (domains.py 404-421, 535-555.) -/
inductive PyNum
  | fin (q : ℚ)
  | pinf
  | ninf
  | nan
  | nonreal
  deriving DecidableEq, Repr

/-- A bound: a finite number or one of the infinities. (domains.py 320-321, 442-443.) -/
inductive Ext (α : Type)
  | fin (x : α)
  | pinf
  | ninf
  deriving DecidableEq, Repr

/-- `np.isinf`. (domains.py 387-389, 442-443, 481.) -/
def Ext.isInf {α : Type} : Ext α → Bool
  | .fin _ => false
  | _ => true

/-- `np.greater_equal(p, bound)`. (domains.py 418, 552.) -/
def geBound (p : PyNum) (b : Ext ℚ) : Bool :=
  match p, b with
  | .fin q, .fin x => decide (x ≤ q)
  | .fin _, .pinf => false
  | .fin _, .ninf => true
  | .pinf, _ => true
  | .ninf, .ninf => true
  | .ninf, _ => false
  | .nan, _ => false
  | .nonreal, _ => false

/-- `np.less_equal(p, bound)`. (domains.py 419, 553.) -/
def leBound (p : PyNum) (b : Ext ℚ) : Bool :=
  match p, b with
  | .fin q, .fin x => decide (q ≤ x)
  | .fin _, .pinf => true
  | .fin _, .ninf => false
  | .ninf, _ => true
  | .pinf, .pinf => true
  | .pinf, _ => false
  | .nan, _ => false
  | .nonreal, _ => false

/-- `np.isreal`. (domains.py 417, 547.) -/
def isReal : PyNum → Bool
  | .nonreal => false
  | _ => true

/-- `np.mod(p, 1) == 0`; the remainder of an infinity is NaN. (domains.py 549.) -/
def modOneZero : PyNum → Bool
  | .fin q => decide (q - (⌊q⌋ : ℚ) = 0)
  | _ => false

/-- `int(x)` for a finite float: truncation towards zero. (domains.py 442-443, 501.) -/
def pyInt (q : ℚ) : ℤ := if 0 ≤ q then ⌊q⌋ else ⌈q⌉

/-! ## IntegerDomain, domains.py 424-556 -/

/-- `IntegerDomain`, with the fields after `__init__`. (domains.py 424-443.) -/
structure IntDom where
  min : Ext ℤ
  max : Ext ℤ
  deriving DecidableEq, Repr

/-- `int(b) if not np.isinf(b) else b`. (domains.py 442-443.) -/
def truncBound : Ext ℚ → Ext ℤ
  | .fin q => .fin (pyInt q)
  | .pinf => .pinf
  | .ninf => .ninf

/-- `IntegerDomain.__init__`, domains.py 442-444. -/
def IntDom.init (min max : Ext ℚ) : IntDom := ⟨truncBound min, truncBound max⟩

/-- `is_finite`, domains.py 475-481. -/
def IntDom.isFinite (d : IntDom) : Bool := !d.min.isInf && !d.max.isInf

/-- `n_members`, domains.py 493-504; `none` is `np.inf`. -/
def IntDom.nMembers (d : IntDom) : Option ℤ :=
  match d.min, d.max with
  | .fin a, .fin b => some (b - a + 1)
  | _, _ => none

/-- `example_point`, domains.py 505-519. -/
def IntDom.example (d : IntDom) : ℤ :=
  match d.min with
  | .fin a => a
  | _ => match d.max with
    | .fin b => b
    | _ => 0

/-- `np.arange(a, b)` for integers. (domains.py 532.) -/
def arange (a b : ℤ) : List ℤ := (List.range (b - a).toNat).map fun (i : Nat) => a + (i : ℤ)

/-- `values`, domains.py 524-536. -/
def IntDom.values (d : IntDom) : List ℤ :=
  match d.min, d.max with
  | .fin a, .fin b => arange a (b + 1)
  | _, _ => [d.example]

/-- Helper, domains.py 454, 462. -/
def castBound : Ext ℤ → Ext ℚ
  | .fin z => .fin z
  | .pinf => .pinf
  | .ninf => .ninf

/-- `in_domain`, domains.py 540-556. -/
def IntDom.inDomain (d : IntDom) (points : List PyNum) : Bool :=
  if points.all isReal then
    points.all modOneZero && points.all (fun p => geBound p (castBound d.min)) &&
      points.all (fun p => leBound p (castBound d.max))
  else false

/-! ## RealDomain, domains.py 307-422 -/

/-- `RealDomain`, domains.py 307-325. -/
structure RealDom where
  min : Ext ℚ
  max : Ext ℚ
  deriving DecidableEq, Repr

/-- `example_point`, domains.py 379-393. -/
def RealDom.example (d : RealDom) : ℚ :=
  match d.min with
  | .fin a => a
  | _ => match d.max with
    | .fin b => b
    | _ => 0

/-- `in_domain`, domains.py 409-422. -/
def RealDom.inDomain (d : RealDom) (points : List PyNum) : Bool :=
  if points.all isReal then
    points.all (fun p => geBound p d.min) && points.all (fun p => leBound p d.max)
  else false

/-! ## MultinomialDomain, domains.py 558-700 -/

/-- `itertools.combinations_with_replacement(pool, r)` in its order. (domains.py 653.) -/
def combsWR {α : Type*} : List α → Nat → List (List α)
  | _, 0 => [[]]
  | [], _ + 1 => []
  | x :: xs, r + 1 => (combsWR (x :: xs) r).map (x :: ·) ++ combsWR xs (r + 1)
  termination_by l r => l.length + r

/-- `n_members`, domains.py 618-626, for `n_elements ≥ 1` and with an exact binomial coefficient (scipy's `binom` is a
float). -/
def multNMembers (nMeas k : Nat) : Nat := (nMeas + k - 1).choose (k - 1)

/-- `np.identity(k)` as a list of rows. (domains.py 652.) -/
def unitRows (k : Nat) : List (Fin k → ℤ) := (List.finRange k).map fun i j => if i = j then 1 else 0

/-- `values`, domains.py 639-659: `partition_array` has `n_members` rows (uninitialised: `none`);
writing past the end raises `IndexError`. -/
def multValues (nMeas k : Nat) : Except PyErr (List (Option (Fin k → ℤ))) :=
  let sums := (combsWR (unitRows k) nMeas).map fun c => c.foldl (· + ·) 0
  if sums.length ≤ multNMembers nMeas k then
    .ok (sums.map some ++ List.replicate (multNMembers nMeas k - sums.length) none)
  else .error .indexError

/-- `example_point`, domains.py 628-637: `[n_meas] + [0] * (n_elements - 1)`. -/
def multExample (nMeas k : Nat) : Fin k → ℤ := fun j => if j.val = 0 then nMeas else 0

/-- `in_domain`, domains.py 688-700. -/
def multInDomain (nMeas k : Nat) (points : List (Fin k → ℤ)) : Bool :=
  points.all (fun p => decide (∀ j, 0 ≤ p j)) && points.all (fun p => decide (∑ j, p j = nMeas))

/-! ## ProductDomain, domains.py 162-302 -/

/-- A domain as seen by `ProductDomain`, with elements of a common type. (domains.py 70-160.) -/
structure Dom (α : Type*) where
  isContinuous : Bool
  isFinite : Bool
  nMembers : Option ℤ
  example_ : α
  values : List α
  inDomain : List α → Bool

/-- Arguments of the constructor: a domain or a list of domains. (domains.py 170-187.) -/
inductive ProdArg (α : Type*)
  | dom (d : Dom α)
  | list (ds : List (Dom α))

/-- Whether an argument has an `example_point` with a `dtype`. (domains.py 178-187.) -/
def ProdArg.asDom {α : Type*} : ProdArg α → Option (Dom α)
  | .dom d => some d
  | .list _ => none

/-- `ProductDomain.__init__`, domains.py 169-184.  The result of the `if` at 171-177 is overwritten at
179, so a list argument is asked for its `example_point`.  With no argument `join_struct_arrays([])`
takes `arrays[0]`. -/
def prodInit {α : Type*} (args : List (ProdArg α)) : Except PyErr (List (Dom α)) :=
  match args.mapM (m := Option) ProdArg.asDom with
  | none => .error .attributeError
  | some [] => .error .indexError
  | some ds => .ok ds

/-- `is_continuous` and `is_finite`, domains.py 185-202. -/
def prodIsContinuous {α : Type*} (ds : List (Dom α)) : Bool := ds.any (·.isContinuous)

/-- Helper, domains.py 200-206. -/
def prodIsFinite {α : Type*} (ds : List (Dom α)) : Bool := ds.all (·.isFinite)

/-- Multiplication with `none` for `np.inf`. (domains.py 222.) -/
def mulInf : Option ℤ → Option ℤ → Option ℤ
  | some a, some b => some (a * b)
  | _, _ => none

/-- `n_members`, domains.py 213-224; `none` is `np.inf` (also inside the product). -/
def prodNMembers {α : Type*} (ds : List (Dom α)) : Option ℤ :=
  if prodIsFinite ds then
    ds.foldl (fun acc d => mulInf acc d.nMembers) (some 1)
  else none

/-- `itertools.product(*lists)`. (domains.py 250.) -/
def pyProduct {α : Type*} : List (List α) → List (List α)
  | [] => [[]]
  | l :: ls => l.flatMap fun a => (pyProduct ls).map (a :: ·)

/-- `values`, domains.py 237-251; `np.concatenate([])` raises `ValueError`. -/
def prodValues {α : Type*} (ds : List (Dom α)) : Except PyErr (List (List α)) :=
  match pyProduct (ds.map (·.values)) with
  | [] => .error .valueError
  | vs => .ok vs

/-- `in_domain`, domains.py 288-302: column `j` of the points is checked by domain `j`. -/
def prodInDomain {α : Type*} (ds : List (Dom α)) (points : List (List α)) : Bool :=
  ds.zipIdx.all fun p => p.1.inDomain (points.filterMap (·[p.2]?))

/-! ## Structured arrays, utils.py 551-591 -/

/-- A one-dimensional array of records: item size in bytes and the bytes of every item.  (Arrays of
other shapes are flattened by `ravel`/`flatten`; zero-dimensional ones become length one.)
(utils.py 551-591.) -/
structure ByteArr (β : Type*) where
  itemsize : Nat
  rows : List (List β)

/-- `offsets` starting from 0: `np.r_[0, sizes.cumsum()]`. (utils.py 558-560.) -/
def offsetsFrom : Nat → List Nat → List Nat
  | o, [] => [o]
  | o, s :: ss => o :: offsetsFrom (o + s) ss

/-- `a[..., offset:offset+size] = vals` in every row. (utils.py 565.) -/
def writeCols {β : Type*} (joint : List (List (Option β))) (offset size : Nat)
    (vals : List (List β)) : List (List (Option β)) :=
  List.zipWith (fun row v => row.take offset ++ v.map some ++ row.drop (offset + size)) joint vals

/-- `join_struct_arrays`, utils.py 551-567; `none` marks a byte left uninitialised by `np.empty`. -/
def joinStruct {β : Type*} (arrays : List (ByteArr β)) :
    Except PyErr (List (List (Option β))) :=
  match arrays with
  | [] => .error .indexError
  | a0 :: _ =>
    let m := a0.rows.length
    let sizes := arrays.map (·.itemsize)
    let offsets := offsetsFrom 0 sizes
    let total := sizes.sum
    if arrays.all (fun a => decide (a.rows.length = m)) then
      .ok (((arrays.zip (sizes.zip offsets)).foldl
        (fun joint p => writeCols joint p.2.2 p.2.1 p.1.rows)
        (List.replicate m (List.replicate total none))))
    else .error .valueError

/-- The list returned at utils.py 588-591 for given item sizes. -/
def cutColumns {β : Type*} (array : List (List β)) (sizes : List Nat) : List (ByteArr β) :=
  let offsets := offsetsFrom 0 sizes
  (List.range sizes.length).map fun idx =>
    { itemsize := sizes.getD idx 0
      rows := array.map fun row =>
        (row.drop (offsets.getD idx 0)).take (offsets.getD (idx + 1) 0 - offsets.getD idx 0) }

/-- `separate_struct_array`, utils.py 569-591, for a list of dtypes given by their item sizes.  The
`reshape(shape + (-1,))` at 587 raises `ValueError` on an array without elements. -/
def separateStruct {β : Type*} (array : List (List β)) (sizes : List Nat) :
    Except PyErr (List (ByteArr β)) :=
  if array = [] then .error .valueError else .ok (cutColumns array sizes)

/-- `separate_struct_array` for a single dtype of the given item size, utils.py 581-585: a dtype is
not iterable, so the `TypeError` branch counts the fields by bytes. `rowSize` is `array.itemsize`. -/
def separateSingle {β : Type*} (array : List (List β)) (rowSize size : Nat) :
    Except PyErr (List (ByteArr β)) :=
  if array.length * size = 0 then .error .zeroDivisionError
  else separateStruct array
    (List.replicate (array.length * rowSize / (array.length * size)) size)

/-- `ProductDomain._mytype`, domains.py 255-260. -/
def prodMytype {β : Type*} (array : List (List β)) (rowSize size : Nat) :
    Except PyErr (List (List β)) :=
  match separateSingle array rowSize size with
  | .error e => .error e
  | .ok [] => .error .indexError
  | .ok (a :: _) => .ok a.rows

/-- `ProductDomain.to_regular_arrays`, domains.py 262-271; `sizes` are the item sizes of
`self._dtypes`, and `self.dtype` is their concatenation. -/
def prodToRegular {β : Type*} (sizes : List Nat) (array : List (List β)) (rowSize : Nat) :
    Except PyErr (List (ByteArr β)) :=
  match prodMytype array rowSize sizes.sum with
  | .error e => .error e
  | .ok a => separateStruct a sizes

/-- `ProductDomain.from_regular_arrays`, domains.py 273-286, for arrays that already have the dtypes
(`astype` changes nothing); `none` marks an uninitialised byte. -/
def prodFromRegular {β : Type*} (sizes : List Nat) (arrays : List (ByteArr β)) :
    Except PyErr (List (List (Option β))) :=
  match joinStruct ((sizes.zip arrays).map (·.2)) with
  | .error e => .error e
  | .ok j => prodMytype j (((sizes.zip arrays).map (·.2.itemsize)).sum) sizes.sum

/-- `uniquify`, utils.py 376-383: a comprehension with a set of seen elements. -/
def uniquifyLoop {α : Type*} [DecidableEq α] : List α → List α → List α
  | _, [] => []
  | seen, x :: xs =>
    if x ∈ seen then uniquifyLoop seen xs else x :: uniquifyLoop (x :: seen) xs

/-- Helper, utils.py 376-383. -/
def uniquify {α : Type*} [DecidableEq α] (l : List α) : List α := uniquifyLoop [] l

end QInfer
