/-
Indexing images like arrays, and the self-check `_validate`.

Simplification.  The first two entries of an index are slices without step and the third is a list of channel
numbers, as in `Raster.lean`.
-/
import Verif.Raster

namespace Verif
namespace Tree
open Node

/-- What is written between the brackets of `image[...]`. -/
inductive Index where
  /-- no tuple, as in `image[0:2]` -/
  | single
  /-- `image[y0:y1, x0:x1]` -/
  | two (sl : Space)
  /-- `image[y0:y1, x0:x1, idxs]` -/
  | three (sl : Space) (c : List Nat)
  /-- tuples with fewer or more entries -/
  | more

/-- `__getitem__`, delayed_nodes.py:1011-1022 and 1314-1325. -/
def getitem (n : Node) : Index → Py Node
  | .single => .error .typeError
  | .two sl => crop n (some sl) none true true (.int 0) false
  | .three sl c => crop n (some sl) (some c) true true (.int 0) false
  | .more => .error .valueError

variable {V : Type}

/-- `shape`, delayed_nodes.py:1243-1253 and 772-779. -/
def shape (n : Node) : Int × Int × Nat := (n.dsize.2, n.dsize.1, n.nchan)

/-- The shape of an array. -/
def Img.shape (i : Img V) : Int × Int × Nat := (i.h, i.w, i.n)

/-- `_validate` of a concat, delayed_nodes.py:1057-1074. -/
def validateConcat (E : Env V) (n : Node) : Py Unit :=
  match fin E n with
  | .error e => .error e
  | .ok i => if Img.shape i = shape n then .ok () else .error .assertionError

/-- `_validate` of an image, delayed_nodes.py:1437-1462.  (Codes are normalized, as everywhere in the model of
optimize; for specs as they are written see C56.) -/
def validateImage (H : Heur) (E : Env V) (fuel : Nat) (n : Node) : Py Unit :=
  match opt H fuel n with
  | .error e => .error e
  | .ok m =>
    match fin E n with
    | .error e => .error e
    | .ok i =>
      if n.channels = m.channels ∧ n.nchan = m.nchan ∧ Img.shape i = shape n ∧ shape m = shape n then .ok ()
      else .error .assertionError

/-- `_validate()`. -/
def validate (H : Heur) (E : Env V) (fuel : Nat) : Node → Py Unit
  | .concat ps d => validateConcat E (.concat ps d)
  | n => validateImage H E fuel n

end Tree
end Verif
