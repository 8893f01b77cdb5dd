/-
Model of `delayed_image/helpers.py`: quantization, automatic output size, largest shape.
Floating point numbers are exact rationals; NaN is `none`.
-/
import Verif.Py
import Mathlib.Data.Rat.Floor

namespace Verif
namespace Helpers

/-! #### quantization -/

/-- The fields of `np.iinfo(dtype)` that are used: `kind == 'i'`, `min` and `max`. -/
structure IInfo where
  signed : Bool
  min : Int
  max : Int
deriving DecidableEq, Repr

/-- `np.iinfo` of the unsigned integer type with `b` bits. -/
def IInfo.unsigned (b : Nat) : IInfo := ⟨false, 0, 2 ^ b - 1⟩

/-- `np.iinfo` of the signed integer type with `b + 1` bits. -/
def IInfo.signedT (b : Nat) : IInfo := ⟨true, -2 ^ b, 2 ^ b - 1⟩

/-- The quantization dictionary, helpers.py:554-560 and 457-462. -/
structure Quantization where
  origMin : ℚ
  origMax : ℚ
  quantMin : Int
  quantMax : Int
  nodata : Option Int
deriving DecidableEq, Repr

/-- helpers.py:543-560. -/
def quantInfo (oldMin oldMax : ℚ) (t : IInfo) : Quantization :=
  if t.signed then ⟨oldMin, oldMax, 0, t.max, some (max (-9999) t.min)⟩
  else ⟨oldMin, oldMax, 1, t.max, some 0⟩

/-- `astype(int dtype)` of a finite number: truncation toward zero (numpy). -/
def trunc (x : ℚ) : Int := if 0 ≤ x then ⌊x⌋ else ⌈x⌉

/-- `x.clip(a, b)`. -/
def clip (a b x : ℚ) : ℚ := min (max x a) b

/-- One pixel of `quantize_float01`, helpers.py:562-572; NaN pixels get the nodata value. -/
def quantizePx (q : Quantization) (x : Option ℚ) : Int :=
  match x with
  | none => q.nodata.getD 0
  | some x =>
    trunc ((clip q.origMin q.origMax x - q.origMin) *
      (((q.quantMax - q.quantMin : Int) : ℚ) / (q.origMax - q.origMin)) + q.quantMin)

/-- `quantize_float01`, helpers.py:500-576.  Equal bounds divide by zero. -/
def quantizeFloat01 (img : List (Option ℚ)) (oldMin oldMax : ℚ) (t : IInfo) :
    Py (List Int × Quantization) :=
  if oldMax - oldMin = 0 then .error .generic
  else .ok (img.map (quantizePx (quantInfo oldMin oldMax t)), quantInfo oldMin oldMax t)

/-- helpers.py:463-468. -/
def dequantScale (q : Quantization) : ℚ :=
  if q.quantMax - q.quantMin = 0 then 0
  else (q.origMax - q.origMin) / ((q.quantMax - q.quantMin : Int) : ℚ)

/-- `_scalar_is_representable_in_dtype` for an integer value and an integer dtype, helpers.py:21-32. -/
def representable (v : Int) (t : IInfo) : Bool := decide (t.min ≤ v ∧ v ≤ t.max)

/-- One pixel of `dequantize`, helpers.py:480-497. -/
def dequantizePx (q : Quantization) (t : IInfo) (v : Int) : Option ℚ :=
  match q.nodata with
  | some n =>
    if representable n t = true ∧ v = n then none
    else some (((v : ℚ) - q.quantMin) * dequantScale q + q.origMin)
  | none => some (((v : ℚ) - q.quantMin) * dequantScale q + q.origMin)

/-- `dequantize`, helpers.py:412-497. -/
def dequantize (img : List Int) (q : Quantization) (t : IInfo) : List (Option ℚ) :=
  img.map (dequantizePx q t)

/-! #### automatic output size -/

/-- The first two rows of an affine matrix. -/
structure Affine where
  a : ℚ
  b : ℚ
  tx : ℚ
  c : ℚ
  d : ℚ
  ty : ℚ
deriving DecidableEq, Repr

/-- Application to a point. -/
def Affine.app (m : Affine) (p : ℚ × ℚ) : ℚ × ℚ :=
  (m.a * p.1 + m.b * p.2 + m.tx, m.c * p.1 + m.d * p.2 + m.ty)

/-- Maximum of four numbers, as `bounds.max(axis=0)`. -/
def max4 (w x y z : ℚ) : ℚ := max (max w x) (max y z)

/-- `_auto_dsize`, helpers.py:57-93; `none` is an `Affine` without a matrix. -/
def autoDsize (m : Option Affine) (sub : Int × Int) : Int × Int :=
  match m with
  | none => sub
  | some m =>
    let w : ℚ := sub.1
    let h : ℚ := sub.2
    let p := m.app (0, 0)
    let q := m.app (w, 0)
    let r := m.app (0, h)
    let s := m.app (w, h)
    (⌈max4 p.1 q.1 r.1 s.1⌉, ⌈max4 p.2 q.2 r.2 s.2⌉)

/-! #### largest shape -/

/-- `_nonemax`, helpers.py:137-140; `a or b` returns `b` also when `a` is zero. -/
def nonemax : Option Nat → Option Nat → Option Nat
  | none, b => b
  | some a, none => if a = 0 then none else some a
  | some a, some b => some (max a b)

/-- One round of the loop, helpers.py:147-150: `zip_longest` with fill value `None`. -/
def zipMax : List (Option Nat) → List (Option Nat) → List (Option Nat)
  | [], ys => ys.map (nonemax none)
  | x :: xs, [] => nonemax x none :: zipMax xs []
  | x :: xs, y :: ys => nonemax x y :: zipMax xs ys

/-- The loop body, helpers.py:144-150: a missing shape is skipped. -/
def shapeStep (acc : List (Option Nat)) : Option (List (Option Nat)) → List (Option Nat)
  | some s => zipMax acc s
  | none => acc

/-- `_largest_shape`, helpers.py:124-152; `none` is a missing shape. -/
def largestShape (shapes : List (Option (List (Option Nat)))) : List (Option Nat) :=
  shapes.foldl shapeStep []

end Helpers
end Verif
