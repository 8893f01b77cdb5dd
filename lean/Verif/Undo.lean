/-
`undo_warp` and `undo_warps`, delayed_nodes.py:1076-1190, 1504-1613 and 3355-3365.

The decomposition of a matrix (`kwimage.Affine.concise`, external) is a parameter; angles are stored as their
cosine and sine.  `concise` also drops components that are close to the identity; leaving a component out and
storing its identity value is the same here.
-/
import Verif.Walk
import Verif.Raster

namespace Verif
namespace Tree

open Helpers Node

/-- `WarpComponentKey`, delayed_nodes.py:3356. -/
inductive Key where
  | offset | scale | shearx | theta
deriving DecidableEq, Repr

/-- The dictionary given by `concise()`. -/
structure Comps where
  offset : ℚ × ℚ
  scale : ℚ × ℚ
  shearx : ℚ
  /-- cosine and sine of `theta` -/
  theta : ℚ × ℚ
deriving DecidableEq, Repr

namespace Comps

/-- `kwimage.Affine.affine(scale, offset, shearx, theta)` (external): scale, then shear, then rotate, then
translate. -/
def compose (c : Comps) : Affine :=
  ⟨c.scale.1 * c.theta.1, c.scale.2 * (c.shearx * c.theta.1 - c.theta.2), c.offset.1,
   c.scale.1 * c.theta.2, c.scale.2 * (c.shearx * c.theta.2 + c.theta.1), c.offset.2⟩

/-- `kwimage.Affine.coerce(ub.dict_diff(components, retain))`, delayed_nodes.py:1591-1592: a missing
component is the identity. -/
def without (c : Comps) (retain : List Key) : Comps :=
  ⟨if .offset ∈ retain then (0, 0) else c.offset, if .scale ∈ retain then (1, 1) else c.scale,
   if .shearx ∈ retain then 0 else c.shearx, if .theta ∈ retain then (1, 0) else c.theta⟩

end Comps

/-- `_rectify_retain`, delayed_nodes.py:3355-3365. -/
def rectifyRetain (remove retain : Option (List Key)) : Py (List Key) :=
  match remove, retain with
  | some _, some _ => .error .valueError
  | some rm, none => .ok ([.offset, .scale, .shearx, .theta].filter fun k => decide (k ∉ rm))
  | none, none => .ok []
  | none, some rt => .ok rt

/-- The part of `undo_warp` after the optimized image is known, delayed_nodes.py:1594-1608; the second
component is the warp that is returned. -/
def squash (H : Heur) (fuel : Nat) (undone : Node) (undo : Affine) (nans wantWarp : Bool) :
    Py (Node × Affine) :=
  if nans then
    if wantWarp = true ∧ (undone.dsize.1 = 0 ∨ undone.dsize.2 = 0) then .error .generic
    else
      let undo' := if wantWarp then
        (⟨1 / undone.dsize.1, 0, 0, 0, 1 / undone.dsize.2, 0⟩ : Affine) * undo else undo
      match undone with
      | .leaf l =>
        if l.nan then
          match mkCrop (.leaf l) (ints 0 1 0 1) none with
          | .error e => .error e
          | .ok cr =>
            match opt H fuel cr with
            | .error e => .error e
            | .ok r => .ok (r, undo')
        else .ok (.leaf l, undo')
      | n => .ok (n, undo')
  else .ok (undone, undo)

/-- `undo_warp` with `retain` already rectified, delayed_nodes.py:1585-1612; `D` is `concise()`. -/
def undoRetain (H : Heur) (D : Affine → Comps) (fuel : Nat) (n : Node) (retain : List Key)
    (nans wantWarp : Bool) : Py (Node × Affine) :=
  match leafTf n with
  | .error e => .error e
  | .ok A =>
    let undo := ((D A.inv).without retain).compose
    match opt H fuel (warp H.closeId n (some undo) none .default false) with
    | .error e => .error e
    | .ok undone => squash H fuel undone undo nans wantWarp

/-- `undo_warp`, delayed_nodes.py:1504-1613.  The warp is part of the result in any case, the code leaves it
out without `return_warp`. -/
def undoWarp (H : Heur) (D : Affine → Comps) (fuel : Nat) (n : Node) (remove retain : Option (List Key))
    (nans wantWarp : Bool) : Py (Node × Affine) :=
  match rectifyRetain remove retain with
  | .error e => .error e
  | .ok rt => undoRetain H D fuel n rt nans wantWarp

/-- `undo_warps` of a concat, delayed_nodes.py:1166-1190. -/
def undoWarps (H : Heur) (D : Affine → Comps) (fuel : Nat) (ps : List Node)
    (remove retain : Option (List Key)) (nans wantWarp : Bool) : Py (List (Node × Affine)) :=
  match rectifyRetain remove retain with
  | .error e => .error e
  | .ok rt => mapAll (fun p => undoWarp H D fuel p none (some rt) nans wantWarp) ps

end Tree
end Verif
