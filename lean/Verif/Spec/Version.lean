import Mathlib.Data.Nat.Notation

/-!
# Release numbers in text
-/

namespace QInfer

namespace Spec

/-- A release number in text: `[4, 7, 10]` is `4.7.10`. -/
def release : List ℕ → List Char
  | [] => []
  | [n] => Nat.toDigits 10 n
  | n :: m :: l => Nat.toDigits 10 n ++ '.' :: release (m :: l)

/-- A part of a version string: a number, a word of small letters, or any other characters. -/
inductive Tok
  | num (n : ℕ)
  | word (w : List Char)
  | mark (u : List Char)
  deriving DecidableEq, Repr

/-- The part in text. -/
def Tok.text : Tok → List Char
  | .num n => Nat.toDigits 10 n
  | .word w => w
  | .mark u => u

/-- Words consist of small letters, marks of anything but digits, small letters and dots. -/
def Tok.Ok : Tok → Prop
  | .num _ => True
  | .word w => w ≠ [] ∧ ∀ c ∈ w, c.isLower = true
  | .mark u => u ≠ [] ∧ ∀ c ∈ u, c.isDigit = false ∧ c.isLower = false ∧ c ≠ '.'

/-- Whether two parts need a dot between them. -/
def Tok.sameKind : Tok → Tok → Prop
  | .num _, .num _ => True
  | .word _, .word _ => True
  | .mark _, .mark _ => True
  | _, _ => False

/-- A version string: parts, each with or without a dot in front. -/
def versionText (l : List (Bool × Tok)) : List Char :=
  l.flatMap fun x => (if x.1 then ['.'] else []) ++ x.2.text

/-- Parts of the same kind that follow each other are separated by a dot. -/
def Separated : List (Bool × Tok) → Prop
  | a :: b :: l => (b.1 = true ∨ ¬ a.2.sameKind b.2) ∧ Separated (b :: l)
  | _ => True

/-- A list of parts that can be read off from its text. -/
def WellFormed (l : List (Bool × Tok)) : Prop := (∀ x ∈ l, x.2.Ok) ∧ Separated l

end Spec

end QInfer
