/-
`_finalize` when files are opened with `nodata_method='ma'`: arrays are numpy's masked arrays.

Simplifications.  What kwimage makes of a mask when an array is resampled, and what reading an overview gives, is
given by the environment.  `np.concatenate` of several arrays does not keep masks (numpy's documentation);
slicing, `astype` and arithmetic do.
-/
import Verif.Raster

namespace Verif
namespace Tree
open Helpers Node

variable {V W : Type}

/-- The same computation in every pixel. -/
def Img.map (f : V → W) (i : Img V) : Img W := ⟨i.h, i.w, i.n, fun y x k => f (i.px y x k)⟩

/-- What a leaf without data is filled with, delayed_leafs.py:478-489: NaN (`DelayedNans` and `nodata_method` None,
'float' and 'nan'), masked pixels ('ma'), or KeyError (all other methods). -/
inductive Fill where
  | nans
  | masked
  | refused
deriving DecidableEq, Repr

/-- Files with masks. -/
structure MEnv (V : Type) where
  vals : Env V
  /-- the mask of a file -/
  mask : Nat → Nat → Nat → Nat → Bool
  /-- the `nodata_method` of the `DelayedNodata` leaves -/
  method : Nat → Fill
  /-- what `np.empty` finds -/
  junk : Nat → Nat → Nat → V
  /-- the mask of a resampled array -/
  warped : Affine → Int × Int → Algo → Img (V × Bool) → Nat → Nat → Nat → Bool
  /-- the mask of an overview -/
  reduced : Node → Int → Img (V × Bool) → Nat → Nat → Nat → Bool

/-- A leaf without data is a `DelayedNans` or a `DelayedNodata`. -/
def MEnv.fill (E : MEnv V) (kind : Nat) : Fill := if kind = 0 then .nans else E.method kind

/-- `DelayedNans._finalize` and `DelayedNodata._finalize`, delayed_leafs.py:389-399, 470-489.  Arrays of negative
sizes cannot be made (`fin`). -/
def fillAbsent (E : MEnv V) (l : Leaf) : Py (Img (V × Bool)) :=
  match E.fill l.id with
  | .refused => .error .keyError
  | f =>
    match fin E.vals (.leaf l) with
    | .error e => .error e
    | .ok i => .ok ⟨i.h, i.w, i.n, fun y x k =>
        if f = .masked then (E.junk y x k, true) else (i.px y x k, false)⟩

/-- Nothing is masked. -/
def Img.unmask (i : Img (V × Bool)) : Img (V × Bool) := i.map fun v => (v.1, false)

/-- `DelayedChannelConcat._finalize` of masked arrays, delayed_nodes.py:781-792: a single array is returned as it
is; `np.concatenate` drops the masks. -/
def catMasked : List (Img (V × Bool)) → Py (Img (V × Bool))
  | [a] => .ok a
  | as => catAll (as.map Img.unmask)

mutual
/-- `_finalize` with masks; the places are those of `fin`.  The nearest neighbour path of delayed_nodes.py:1850-1892
writes into a plain array. -/
def finM (E : MEnv V) : Node → Py (Img (V × Bool))
  | .leaf l =>
    if l.nan then fillAbsent E l
    else
      match fin E.vals (.leaf l) with
      | .error e => .error e
      | .ok i => .ok ⟨i.h, i.w, i.n, fun y x k => (i.px y x k, E.mask l.id y x k)⟩
  | .concat ps _ =>
    match finML E ps with
    | .error e => .error e
    | .ok as => catMasked as
  | .warp s tf d a =>
    match finM E s with
    | .error e => .error e
    | .ok i =>
      match finWarp E.vals tf d a (i.map Prod.fst) with
      | .error e => .error e
      | .ok j => .ok ⟨j.h, j.w, j.n, fun y x k => (j.px y x k,
          !(decide (a.interp = .nearest) && axisAligned tf && hasOffset tf) && E.warped tf d a i y x k)⟩
  | .crop s y0 y1 x0 x1 c =>
    match finM E s with
    | .error e => .error e
    | .ok i => (i.slice (some y0, some y1) (some x0, some x1)).select c
  | .overview s k _ =>
    match finM E s with
    | .error e => .error e
    | .ok i =>
      let j := E.vals.overview s k (i.map Prod.fst)
      .ok ⟨j.h, j.w, j.n, fun y x c => (j.px y x c, E.reduced s k i y x c)⟩
  | .dequant s q _ =>
    match finM E s with
    | .error e => .error e
    | .ok i => .ok (i.map fun v => (E.vals.deq q v.1, v.2))
def finML (E : MEnv V) : List Node → Py (List (Img (V × Bool)))
  | [] => .ok []
  | p :: ps =>
    match finM E p with
    | .error e => .error e
    | .ok a =>
      match finML E ps with
      | .error e => .error e
      | .ok as => .ok (a :: as)
end

/-- `finalize()` with masks. -/
def finalizeM (H : Heur) (E : MEnv V) (fuel : Nat) (n : Node) : Py (Img (V × Bool)) :=
  match opt H fuel n with
  | .error e => .error e
  | .ok m => finM E m

end Tree
end Verif
