import Verif.Model.Py
import Mathlib.Data.Nat.Notation

/-!
# Model of the detection of QuTiP, `src/qinfer/utils.py` 64-103

The comparison of versions is the one of `distutils.version.LooseVersion`, which the code imports.
Digits are the ten ASCII digits (the regular expression there also takes digits of other scripts).
-/

namespace QInfer

/-- The kinds of characters that `LooseVersion.component_re`, `(\d+ | [a-z]+ | \.)`, tells apart.
(Used at utils.py 79-80.) -/
inductive VCls
  | digit | lower | dot | other
  deriving DecidableEq, Repr

/-- The kind of a character. (Used at utils.py 79-80.) -/
def vcls (c : Char) : VCls :=
  if c.isDigit then .digit
  else if c.isLower then .lower
  else if c = '.' then .dot
  else .other

/-- One character in front of a string that is already cut into runs of one kind. Several dots in a row
are one run here and several pieces there; they are dropped in both cases. (Used at utils.py 79-80.) -/
def addChar (c : Char) : List (VCls × List Char) → List (VCls × List Char)
  | [] => [(vcls c, [c])]
  | (k, r) :: rs => if vcls c = k then (k, c :: r) :: rs else (vcls c, [c]) :: (k, r) :: rs

/-- `component_re.split(vstring)`. (Used at utils.py 79-80.) -/
def pieces (s : List Char) : List (VCls × List Char) := s.foldr addChar []

/-- A component of a version: a number or a string. (Used at utils.py 79-80.) -/
inductive VComp
  | num (n : ℕ)
  | str (s : List Char)
  deriving DecidableEq, Repr

/-- `int(obj)` where possible; dots are left out. (Used at utils.py 79-80.) -/
def toComp : VCls × List Char → Option VComp
  | (.digit, r) => some (.num (Nat.ofDigitChars 10 r 0))
  | (.dot, _) => none
  | (_, r) => some (.str r)

/-- `LooseVersion(vstring).version`.  For the empty string the attribute is never set.
(Used at utils.py 79-80.) -/
def looseVersion (s : List Char) : Except PyErr (List VComp) :=
  if s = [] then .error .attributeError else .ok ((pieces s).filterMap toComp)

/-- `<` between two components: numbers and strings cannot be compared. (Used at utils.py 80.) -/
def VComp.lt : VComp → VComp → Except PyErr Bool
  | .num m, .num n => .ok (decide (m < n))
  | .str r, .str s => .ok (decide (r < s))
  | _, _ => .error .typeError

/-- `<` between two lists: the first components that differ decide, and if there are none the lengths.
(Used at utils.py 80.) -/
def versionLt : List VComp → List VComp → Except PyErr Bool
  | _, [] => .ok false
  | [], _ :: _ => .ok true
  | x :: xs, y :: ys => if x = y then versionLt xs ys else x.lt y

/-- What `import qutip as qt` does, utils.py 77: `ImportError`, another exception, or a module of which
only `qt.version.version` matters. -/
inductive QutipImport
  | missing
  | raises (e : PyErr)
  | module (version : List Char)
  deriving DecidableEq, Repr

/-- `get_qutip_module`, utils.py 64-85.  `distutils`: whether `distutils.version` can be imported (78;
it left the standard library with Python 3.12).  Only `ImportError` is caught (82-83).  The module is
represented by its version. -/
def getQutipModule (distutils : Bool) (q : QutipImport) (required : List Char) :
    Except PyErr (Option (List Char)) :=
  match q with
  | .missing => .ok none
  | .raises e => .error e
  | .module v =>
    if distutils then do
      let have_ ← looseVersion v
      let want ← looseVersion required
      if ← versionLt have_ want then return none else return some v
    else .ok none

/-- `check_qutip_version`, utils.py 87-103: every exception is caught. -/
def checkQutipVersion (distutils : Bool) (q : QutipImport) (required : List Char) :
    Except PyErr Bool :=
  match getQutipModule distutils q required with
  | .ok m => .ok m.isSome
  | .error _ => .ok false

end QInfer
