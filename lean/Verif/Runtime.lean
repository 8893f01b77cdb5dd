/-
Model of the choice of the matrix convention for nearest neighbour warps, delayed_nodes.py:48-105, and of its use in
`DelayedWarp._finalize`.

Simplifications.  Digits are ASCII.  The dtype of an array is only asked for being `float64`.
-/
import Verif.Raster

namespace Verif
namespace Tree
open Helpers Node

/-- The numbers of a text: `int(part) for part in re.findall(r'\d+', text)`; the first argument is the number being
read. -/
def findNumbers : Option Nat → Str → List Nat
  | none, [] => []
  | some n, [] => [n]
  | none, c :: cs =>
    match digitVal? c with
    | some d => findNumbers (some d) cs
    | none => findNumbers none cs
  | some n, c :: cs =>
    match digitVal? c with
    | some d => findNumbers (some (n * 10 + d)) cs
    | none => n :: findNumbers none cs

/-- `_version_tuple`, delayed_nodes.py:48-52. -/
def versionTuple (text : Str) : List Nat := findNumbers none text

/-- `p >= q` for tuples of numbers. -/
def tupleGe : List Nat → List Nat → Bool
  | _, [] => true
  | [], _ :: _ => false
  | a :: as, b :: bs => if a = b then tupleGe as bs else decide (b < a)

/-- The installed libraries: `kwimage.__version__`, and `cv2.__version__` if cv2 can be imported. -/
structure Runtime where
  kwimage : Str
  cv2 : Option Str

/-- `backend`. -/
inductive Backend where
  | auto
  | cv2
  | other

/-- `_warp_affine_matrix_mode(...) == 'inverse'`, delayed_nodes.py:67-105. -/
def inverseMode (rt : Runtime) (f64 nearest : Bool) (b : Backend) : Bool :=
  if tupleGe (versionTuple rt.kwimage) [0, 12, 0] then false
  else
    let isCv2 := match b with
      | .auto => rt.cv2.isSome
      | .cv2 => true
      | .other => false
    match rt.cv2 with
    | none => false
    | some v => isCv2 && nearest && f64 && decide ((versionTuple v).take 2 = [4, 13])

variable {V : Type}

/-- The end of `DelayedWarp._finalize` for nearest neighbours, delayed_nodes.py:1895-1907 and 1957-2006, with the
installed libraries: `call` is `kwimage.warp_affine`, which gets the matrix `M` or `alt_M`. -/
def nearestOn (rt : Runtime) (f64 : Bool) (b : Backend) (call : Affine → Img V) (E : Env V) (tf : Affine)
    (d : Int × Int) (i : Img V) : Img V :=
  let m := if inverseMode rt f64 true b then tf.inv else tf
  let alt := if inverseMode rt f64 true b then tf else tf.inv
  let c1 := call m
  let c2 := call alt
  let fins := i.values.filter E.finite
  let src : Nat := if fins = [] then 0 else E.unique fins
  let s1 := score E src c1
  let s2 := score E src c2
  if max s1.1 s2.1 < 5 / 100 then E.resize d i
  else if scoreGe s1 s2 then c1 else c2

end Tree
end Verif
