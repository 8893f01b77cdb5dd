/-
What a warp puts where the source has no pixel: the argument `border_value` and the type of the array,
`DelayedWarp._finalize`, delayed_nodes.py:1770-2047.

This refines `finWarp` of `Raster.lean`, where the border colour is given.  Pixels are rationals or NaN; infinities
and the range of integer types are not described.  Arrays have three axes.
-/
import Verif.Raster
import Mathlib.Algebra.Order.Floor.Ring
import Mathlib.Data.Rat.Floor

namespace Verif
namespace Tree

open Helpers Node

/-- A pixel value or border value: NaN or a number. -/
abbrev Num := Option ℚ

/-- The argument `border_value`: a string, a number or several numbers. -/
inductive BorderArg where
  | text (s : Str)
  | number (v : Num)
  | tuple (l : List Num)
deriving DecidableEq, Repr

/-- What the code asks about an array: whether `dtype.kind == 'f'`, and `int(fill_value)` if it is masked. -/
structure Dtype where
  float : Bool
  fill : Option Int
deriving DecidableEq, Repr

/-- The border handed to `kwimage.warp_affine`. -/
inductive Border where
  | text (s : Str)
  | values (l : List Num)
  | nan
deriving DecidableEq, Repr

/-- The border colour of `'auto'`, delayed_nodes.py:1792-1800. -/
def autoBorder (t : Dtype) : Num := if t.float then none else some ((t.fill.getD 0 : Int) : ℚ)

/-- `border_value` after delayed_nodes.py:1792-1822, for an array with `n` channels. -/
def resolveBorder (t : Dtype) (n : Nat) : BorderArg → Py Border
  | .text s =>
    if s = p! "auto" then .ok (.values (List.replicate (min 4 n) (autoBorder t))) else .ok (.text s)
  | .number v => .ok (.values (List.replicate (min 4 n) v))
  | .tuple l => if 4 < l.length then .error .valueError else .ok (.values l)

/-- `np.full(shape, v, dtype)`: the value that is stored. -/
def castFill (t : Dtype) (v : Num) : Py Num :=
  if t.float then .ok v
  else match v with
    | none => .error .valueError
    | some q => .ok (some ((if 0 ≤ q then ⌊q⌋ else ⌈q⌉ : Int) : ℚ))

/-- `kwimage.warp_affine` and `kwimage.imresize(interpolation='nearest')`. -/
structure Kw where
  warp : Affine → Int × Int → Algo → Border → Img Num → Img Num
  resize : Int × Int → Img Num → Img Num

/-- `warp_border_value`, delayed_nodes.py:1920-1930. -/
def warpBorder (t : Dtype) (a : Algo) (b : Border) : Border :=
  if a.interp = .nearest ∧ t.float = true ∧ b = .values [none] then .nan else b

/-- The environment in which a warp with this border is computed. -/
def Kw.env (K : Kw) (b : Border) (v : Num) : Env Num where
  img := fun _ => ⟨0, 0, 0, fun _ _ _ => none⟩
  deq := fun _ v => v
  nan := none
  border := fun _ => v
  warp := fun tf d a i => K.warp tf d a b i
  resize := K.resize
  finite := fun v => v.isSome
  unique := fun l => l.eraseDups.length
  overview := fun _ _ i => i

/-- `DelayedWarp._finalize` for an array of type `t`, delayed_nodes.py:1783-2047; the border of `a` is not
used. -/
def borderWarp (K : Kw) (t : Dtype) (arg : BorderArg) (tf : Affine) (d : Int × Int) (a : Algo) (i : Img Num) :
    Py (Img Num) :=
  match resolveBorder t i.n arg with
  | .error e => .error e
  | .ok b =>
    let E := K.env (warpBorder t a b) none
    if a.interp = .nearest then
      if axisAligned tf then
        if hasOffset tf then
          match b with
          | .values [] => .error .indexError
          | .values (v :: _) =>
            match castFill t v with
            | .error e => .error e
            | .ok f => nearestWarp i tf d f
          | _ => .ok (nearestGuess E tf d a i)
        else .ok (K.resize d i)
      else .ok (nearestGuess E tf d a i)
    else .ok (K.warp tf d a b i)

end Tree
end Verif
