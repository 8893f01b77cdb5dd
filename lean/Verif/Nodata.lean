/-
`dequantize` for arrays of every type and no-data values of every Python type, helpers.py:16-54 and 412-497.

This refines `dequantizePx` of `Helpers.lean`, which is about integers only.  Floats are rationals, NaN and the
infinities; numbers are not rounded to the type of the array.  Comparing an array of numbers with a text gives
False everywhere (numpy).
-/
import Verif.Helpers

namespace Verif
namespace Helpers

/-- A float. -/
inductive Flt where
  | fin (q : ℚ)
  | inf (neg : Bool)
  | nan
deriving DecidableEq, Repr

/-- A Python scalar. -/
inductive Scalar where
  | bool (b : Bool)
  | int (n : Int)
  | float (x : Flt)
  | complex (re im : Flt)
  | text (s : Str)
deriving DecidableEq, Repr

/-- `np.dtype`: its kind with `np.iinfo` or `np.finfo(...).max`. -/
inductive Kind where
  | bool
  | int (t : IInfo)
  | float (max : ℚ)
  | complex (max : ℚ)
  | other
deriving DecidableEq, Repr

/-- An element of an array. -/
inductive Pixel where
  | bool (b : Bool)
  | int (n : Int)
  | float (x : Flt)
  | complex (re im : Flt)
deriving DecidableEq, Repr

/-- `int`, `float` and `complex` of a text, `none` if it raises, and the largest finite float. -/
structure Conv where
  intOf : Str → Option Int
  floatOf : Str → Option Flt
  complexOf : Str → Option (Flt × Flt)
  max : ℚ

/-- `float(value).is_integer()`. -/
def Flt.isInteger : Flt → Bool
  | .fin q => decide (q.den = 1)
  | _ => false

/-- `math.isfinite`. -/
def Flt.isFinite : Flt → Bool
  | .fin _ => true
  | _ => false

/-- `-m <= x <= m`. -/
def Flt.within (m : ℚ) : Flt → Bool
  | .fin q => decide (-m ≤ q ∧ q ≤ m)
  | _ => false

/-- `float` of an integer: OverflowError if it is too large. -/
def Conv.ofInt (C : Conv) (n : Int) : Option Flt := if -C.max ≤ (n : ℚ) ∧ (n : ℚ) ≤ C.max then some (.fin n) else none

/-- `int(value)`, helpers.py:28; `none` if TypeError, ValueError or OverflowError is raised. -/
def Conv.toInt (C : Conv) : Scalar → Option Int
  | .bool b => some (if b then 1 else 0)
  | .int n => some n
  | .float (.fin q) => some (trunc q)
  | .float _ => none
  | .complex _ _ => none
  | .text s => C.intOf s

/-- `float(value)`, helpers.py:35. -/
def Conv.toFloat (C : Conv) : Scalar → Option Flt
  | .bool b => some (.fin (if b then 1 else 0))
  | .int n => C.ofInt n
  | .float x => some x
  | .complex _ _ => none
  | .text s => C.floatOf s

/-- `complex(value)`, helpers.py:43. -/
def Conv.toComplex (C : Conv) : Scalar → Option (Flt × Flt)
  | .bool b => some (.fin (if b then 1 else 0), .fin 0)
  | .int n => (C.ofInt n).map fun x => (x, .fin 0)
  | .float x => some (x, .fin 0)
  | .complex re im => some (re, im)
  | .text s => C.complexOf s

/-- `x == y` for floats. -/
def Flt.eq : Flt → Flt → Bool
  | .fin p, .fin q => decide (p = q)
  | .inf a, .inf b => decide (a = b)
  | _, _ => false

/-- Real and imaginary part of a number. -/
def Scalar.parts : Scalar → Option (Flt × Flt)
  | .bool b => some (.fin (if b then 1 else 0), .fin 0)
  | .int n => some (.fin n, .fin 0)
  | .float x => some (x, .fin 0)
  | .complex re im => some (re, im)
  | .text _ => none

def Pixel.parts : Pixel → Flt × Flt
  | .bool b => (.fin (if b then 1 else 0), .fin 0)
  | .int n => (.fin n, .fin 0)
  | .float x => (x, .fin 0)
  | .complex re im => (re, im)

/-- `value == n` for an integer. -/
def Scalar.isInt (v : Scalar) (n : Int) : Bool :=
  match v.parts with
  | none => false
  | some (re, im) => re.eq (.fin n) && im.eq (.fin 0)

/-- `_scalar_is_representable_in_dtype`, helpers.py:16-54. -/
def representableIn (C : Conv) (v : Scalar) : Kind → Bool
  | .bool => v.isInt 0 || v.isInt 1
  | .int t =>
    match (match v with | .float x => !x.isInteger | _ => false : Bool) with
    | true => false
    | false =>
      match C.toInt v with
      | none => false
      | some i => decide (t.min ≤ i ∧ i ≤ t.max)
  | .float m =>
    match C.toFloat v with
    | none => false
    | some x => if !x.isFinite then true else x.within m
  | .complex m =>
    match C.toComplex v with
    | none => false
    | some (re, im) => if !re.isFinite || !im.isFinite then true else re.within m && im.within m
  | .other => true

/-- One element of `quant_data == nodata`, helpers.py:488. -/
def Pixel.equals (p : Pixel) (v : Scalar) : Bool :=
  match v.parts with
  | none => false
  | some (re, im) => p.parts.1.eq re && p.parts.2.eq im

/-- One element of the mask, helpers.py:482-489; no-data `None` masks nothing. -/
def nodataMask (C : Conv) (k : Kind) (nodata : Option Scalar) (p : Pixel) : Bool :=
  match nodata with
  | none => false
  | some v => if representableIn C v k then p.equals v else false

/-- `(x - quant_min) * scale + orig_min`, helpers.py:481. -/
def Flt.rescale (q : Quantization) : Flt → Flt
  | .fin x => .fin ((x - q.quantMin) * dequantScale q + q.origMin)
  | .inf neg =>
    if dequantScale q = 0 then .nan else if dequantScale q < 0 then .inf (!neg) else .inf neg
  | .nan => .nan

/-- One pixel of `dequantize`, helpers.py:480-489; converting a complex number to a float leaves its real part.
The no-data value of `q` is not used. -/
def dequantizeAny (C : Conv) (k : Kind) (q : Quantization) (nodata : Option Scalar) (p : Pixel) : Flt :=
  if nodataMask C k nodata p then .nan else p.parts.1.rescale q

end Helpers
end Verif
