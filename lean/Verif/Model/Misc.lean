import Verif.Model.Py
import Mathlib.Analysis.SpecialFunctions.Gamma.Basic
import Mathlib.Analysis.SpecialFunctions.Log.Base
import Mathlib.LinearAlgebra.Matrix.NonsingularInverse

/-!
# Model of helper functions of `src/qinfer/utils.py`: `ellipsoid_volume`,
`assert_sigfigs_equal`, `format_uncertainty`
-/

namespace QInfer

/-- `ellipsoid_volume`, utils.py 290-308.  `sqrtm` is scipy's matrix square root; `la.inv` raises
`LinAlgError` for singular matrices. -/
noncomputable def ellipsoidVolume {n : Nat}
    (sqrtm : Matrix (Fin n) (Fin n) ℝ → Matrix (Fin n) (Fin n) ℝ)
    (A invA : Option (Matrix (Fin n) (Fin n) ℝ)) : Except PyErr ℝ :=
  open Classical in
  match invA, A with
  | none, none => .error .valueError
  | none, some A =>
    if A.det = 0 then .error .other
    else .ok (Real.pi ^ ((n : ℝ) / 2) / Real.Gamma (1 + (n : ℝ) / 2) * (sqrtm A⁻¹).det)
  | some B, _ => .ok (Real.pi ^ ((n : ℝ) / 2) / Real.Gamma (1 + (n : ℝ) / 2) * (sqrtm B).det)

/-! ## `assert_sigfigs_equal` -/

/-- Values of float64 without rounding: real numbers, infinities, NaN.
(The values at utils.py 399-403.) -/
inductive FloatVal where
  | fin (r : ℝ)
  | posInf
  | negInf
  | nan

/-- `np.floor(np.log10(x))`, utils.py 399. -/
noncomputable def floorLog10 (x : ℝ) : FloatVal :=
  open Classical in
  if 0 < x then .fin ⌊Real.logb 10 x⌋ else if x = 0 then .negInf else .nan

/-- `x * 10**(- xpow)`, utils.py 401-403. -/
noncomputable def rescale (x : ℝ) : FloatVal → FloatVal
  | .fin p => .fin (x * (10 : ℝ) ^ (-p))
  | .negInf => open Classical in if 0 < x then .posInf else if x < 0 then .negInf else .nan
  | .posInf => .fin 0
  | .nan => .nan

/-- `numpy.testing.assert_almost_equal` for two numbers: non-finite values must be the same, finite ones
differ by less than `1.5 * 10**(-decimal)`. (Called at utils.py 406.) -/
noncomputable def almostEqual (x y : FloatVal) (decimal : Nat) : Bool :=
  open Classical in
  match x, y with
  | .fin a, .fin b => decide (|b - a| < 1.5 * (10 : ℝ) ^ (-(decimal : ℤ)))
  | .posInf, .posInf => true
  | .negInf, .negInf => true
  | .nan, .nan => true
  | _, _ => false

/-- `assert_sigfigs_equal`, utils.py 385-406, for arrays of the same length. -/
noncomputable def assertSigfigsEqual (x y : List ℝ) (sigfigs : Nat) : Except PyErr Unit :=
  if (x.zip y).all fun p =>
    almostEqual (rescale p.1 (floorLog10 p.1)) (rescale p.2 (floorLog10 p.1)) sigfigs
  then .ok () else .error .assertionError

/-! ## `format_uncertainty` -/

/-- `int(np.log10(np.abs(x)))`, utils.py 423, 425: the conversion drops the fractional part. -/
noncomputable def magnitude (x : ℝ) : ℤ :=
  open Classical in
  if 0 ≤ Real.logb 10 |x| then ⌊Real.logb 10 |x|⌋ else ⌈Real.logb 10 |x|⌉

/-- What `format_uncertainty` decides to print: number of decimals, value, uncertainty, exponent of the power
of ten in front of the parenthesis (zero if there is none). (utils.py 416-450.) -/
structure UncLayout where
  digits : Nat
  value : ℝ
  unc : Option ℝ
  exponent : ℤ

/-- `format_uncertainty`, utils.py 408-450: the numbers that are printed and with how many decimals.  The
text around them is left out.  (In the text the braces of `10^{...}` are lost, because the first `format`
turns `{{2}}` into the field `{2}` of the second.) -/
noncomputable def uncLayout (value unc : ℝ) (scinotnBreak : ℤ) : UncLayout :=
  open Classical in
  if unc = 0 then ⟨6, value, none, 0⟩
  else
    let magUnc := magnitude unc
    let magVal := if value ≠ 0 then magnitude value else 0
    let nDigits := (max (magVal - magUnc) 0).toNat
    if |magVal| < |magUnc| ∧ scinotnBreak < |magUnc| then
      ⟨nDigits, value / (10 : ℝ) ^ magUnc, some (unc / (10 : ℝ) ^ magUnc), magUnc⟩
    else if |magVal| ≤ scinotnBreak then ⟨nDigits, value, some unc, 0⟩
    else ⟨nDigits, value / (10 : ℝ) ^ magVal, some (unc / (10 : ℝ) ^ magVal), magVal⟩

/-- The number that the reader sees when Python prints `x` with `n` decimals; `rnd` is the rounding to the
nearest integer. (utils.py 420, 431-450.) -/
noncomputable def printedNumber (rnd : ℝ → ℤ) (n : Nat) (x : ℝ) : ℝ := rnd (x * 10 ^ n) / 10 ^ n

/-- The value as read from the printed text. (utils.py 431-450.) -/
noncomputable def UncLayout.readValue (rnd : ℝ → ℤ) (l : UncLayout) : ℝ :=
  printedNumber rnd l.digits l.value * (10 : ℝ) ^ l.exponent

/-- The uncertainty as read from the printed text; nothing is printed if it is exactly zero.
(utils.py 431-450.) -/
noncomputable def UncLayout.readUnc (rnd : ℝ → ℤ) (l : UncLayout) : ℝ :=
  match l.unc with
  | none => 0
  | some u => printedNumber rnd l.digits u * (10 : ℝ) ^ l.exponent

end QInfer
