/-
Images whose metadata is not known yet: `DelayedLoad` with its a-priori metadata, the constructors applied to
it, and `prepare`, delayed_leafs.py:137-303 and delayed_base.py:376-389.

Simplifications.  A file that cannot be read gives an error of kind `generic`.  `channels` and `num_channels`
of a crop are computed from its child instead of stored (`prepare` does not change codes).  All files of a
session are read with the same libraries (`gdal`).
-/
import Verif.Node

namespace Verif
namespace Tree

open Helpers Node

/-- A size as given by the user: both numbers can be unknown. -/
abbrev Dim := Option Int × Option Int

/-- The size, if both numbers are known. -/
def Dim.known : Option Dim → Option (Int × Int)
  | some (some w, some h) => some (w, h)
  | _ => none

/-- What the header of a file says: `shape` and `num_overviews` of the lazy reference,
delayed_leafs.py:288-297. -/
structure File where
  w : Int
  h : Int
  c : Nat
  overviews : Int
deriving DecidableEq, Repr

/-- The files, by the number of the leaf that refers to them. -/
abbrev Disk := Nat → Option File

/-- `DelayedLoad`, delayed_leafs.py:137-167.  `auto` is `nodata_method == 'auto'`; `opened` is whether
`lazy_ref` was set. -/
structure Load where
  id : Nat
  dsize : Option Dim
  nchan : Option Nat
  names : Option (List Str)
  overviews : Option Int
  auto : Bool
  opened : Bool
deriving DecidableEq, Repr

/-- `DelayedLoad(fpath, channels=names, ...)`, delayed_leafs.py:163-167 with `DelayedImage.__init__`,
delayed_nodes.py:1218-1230: the number of channels is known if the codes are. -/
def mkLoad (id : Nat) (names : Option (List Str)) (dsize : Option Dim) (overviews : Option Int) (auto : Bool) :
    Load :=
  ⟨id, dsize, names.map List.length, names, overviews, auto, false⟩

/-- The condition of delayed_leafs.py:280-284. -/
def Load.skips (l : Load) : Bool :=
  l.dsize.isSome && l.nchan.isSome && l.overviews.isSome && (Dim.known l.dsize).isSome

/-- `_load_metadata` with `_load_reference`, delayed_leafs.py:237-303. -/
def loadMetadata (gdal : Bool) (disk : Disk) (l : Load) : Py Load :=
  if l.skips then .ok l
  else if !l.opened && !gdal && l.auto then .error .generic
  else
    match disk l.id with
    | none => .error .generic
    | some f =>
      .ok { l with
        opened := true
        dsize := match Dim.known l.dsize with | none => some (some f.w, some f.h) | some _ => l.dsize
        nchan := match l.nchan with | none => some f.c | some c => some c
        overviews := some (if gdal then f.overviews else 0) }

/-- Trees over files whose metadata may be unknown. -/
inductive Late where
  | load (l : Load)
  | concat (parts : List Late) (dsize : Option Dim) (nchan : Option Nat)
  | warp (sub : Late) (tf : Affine) (dsize : Int × Int) (algo : Algo)
  | crop (sub : Late) (y0 y1 x0 x1 : Int) (chans : Option (List Nat))
  | overview (sub : Late) (level : Int) (dsize : Int × Int)
  | dequant (sub : Late) (q : Quantization) (dsize : Option Dim)

namespace Late

/-- A size both of whose numbers are known. -/
def full (d : Int × Int) : Option Dim := some (some d.1, some d.2)

/-- `dsize`, delayed_nodes.py:1266-1276 and 736: a dequantization without a size asks its child, a concat
does not. -/
def dsize : Late → Option Dim
  | load l => l.dsize
  | concat _ d _ => d
  | warp _ _ d _ => full d
  | crop _ y0 y1 x0 x1 _ => full (x1 - x0, y1 - y0)
  | overview _ _ d => full d
  | dequant s _ d => match d with | none => dsize s | some d => some d

/-- `num_channels`, delayed_nodes.py:1255-1264, 738 and 2706-2712. -/
def nchan : Late → Option Nat
  | load l => l.nchan
  | concat _ _ c => c
  | warp s _ _ _ => nchan s
  | crop s _ _ _ _ c => match c with | none => nchan s | some c => some c.length
  | overview s _ _ => nchan s
  | dequant s _ _ => nchan s

mutual
/-- `channels`, delayed_nodes.py:1278-1287, 755-769 and 2706-2712. -/
def names : Late → Option (List Str)
  | load l => l.names
  | concat ps _ _ => namesL ps
  | warp s _ _ _ => names s
  | crop s _ _ _ _ c =>
    match c with
    | none => names s
    | some c => (names s).map (fun l => pick [] l c)
  | overview s _ _ => names s
  | dequant s _ _ => names s
def namesL : List Late → Option (List Str)
  | [] => some []
  | p :: ps =>
    match names p, namesL ps with
    | some a, some b => some (a ++ b)
    | _, _ => none
end

/-- `sum(comp.num_channels for comp in parts)` or `None`, delayed_nodes.py:737-743. -/
def sumChans : List Late → Option Nat
  | [] => some 0
  | p :: ps =>
    match p.nchan, sumChans ps with
    | some a, some b => some (a + b)
    | _, _ => none

mutual
/-- `prepare`, delayed_base.py:376-389 and delayed_leafs.py:253-263. -/
def prepare (gdal : Bool) (disk : Disk) : Late → Py Late
  | load l =>
    match loadMetadata gdal disk l with
    | .error e => .error e
    | .ok l => .ok (load l)
  | concat ps d c =>
    match prepareL gdal disk ps with
    | .error e => .error e
    | .ok ps => .ok (concat ps d c)
  | warp s tf d a =>
    match prepare gdal disk s with
    | .error e => .error e
    | .ok s => .ok (warp s tf d a)
  | crop s y0 y1 x0 x1 c =>
    match prepare gdal disk s with
    | .error e => .error e
    | .ok s => .ok (crop s y0 y1 x0 x1 c)
  | overview s k d =>
    match prepare gdal disk s with
    | .error e => .error e
    | .ok s => .ok (overview s k d)
  | dequant s q d =>
    match prepare gdal disk s with
    | .error e => .error e
    | .ok s => .ok (dequant s q d)
def prepareL (gdal : Bool) (disk : Disk) : List Late → Py (List Late)
  | [] => .ok []
  | p :: ps =>
    match prepare gdal disk p with
    | .error e => .error e
    | .ok p =>
      match prepareL gdal disk ps with
      | .error e => .error e
      | .ok ps => .ok (p :: ps)
end

/-! #### constructors -/

/-- `DelayedChannelConcat(parts)`, delayed_nodes.py:714-743. -/
def mkConcat : List Late → Py Late
  | [] => .error .generic
  | p :: ps =>
    if ps.all (fun q => decide (q.dsize = p.dsize)) then .ok (.concat (p :: ps) p.dsize (sumChans (p :: ps)))
    else .error .coordinateCompat

/-- `DelayedWarp(sub, tf, dsize, ...)`, delayed_nodes.py:1700-1752 with `_auto_dsize`, helpers.py:70-93: the
automatic size needs a known size. -/
def mkWarp (sub : Late) (tf : Affine) (d : Option (Int × Int)) (a : Algo) : Py Late :=
  match d with
  | some d => .ok (.warp sub tf d a)
  | none =>
    match Dim.known sub.dsize with
    | none => .error .typeError
    | some s => .ok (.warp sub tf (autoDsize (some tf) s) a)

/-- The channel check of `DelayedCrop.__init__`, delayed_nodes.py:2706-2712. -/
def chanCheck (sub : Late) (c : Option (List Nat)) : Py Unit :=
  match c, sub.names with
  | some c, some names => if c.all (fun i => decide (i < names.length)) then .ok () else .error .indexError
  | _, _ => .ok ()

/-- `DelayedCrop(sub, space_slice, chan_idxs)`, delayed_nodes.py:2668-2715. -/
def mkCrop (sub : Late) (sl : Option Space) (c : Option (List Nat)) : Py Late :=
  match Dim.known sub.dsize with
  | none => .error .assertionError
  | some (w, h) =>
    match chanCheck sub c with
    | .error e => .error e
    | .ok _ =>
      match sl with
      | none => .ok (.crop sub 0 h 0 w c)
      | some (ysl, xsl) =>
        let y := normSlice h ysl.1 ysl.2
        let x := normSlice w xsl.1 xsl.2
        .ok (.crop sub y.1 y.2 x.1 x.2 c)

/-- `DelayedOverview(sub, level)`, delayed_nodes.py:3097-3120. -/
def mkOverview (sub : Late) (level : Int) : Py Late :=
  match Dim.known sub.dsize with
  | none => .error .assertionError
  | some (w, h) => .ok (.overview sub level (ovSize level w, ovSize level h))

/-- `DelayedDequantize(sub, q)`, delayed_nodes.py:2545-2556. -/
def mkDequant (sub : Late) (q : Quantization) : Late := .dequant sub q sub.dsize

end Late

/-- A program that builds an image out of files. -/
inductive Plan where
  | file (l : Load)
  | concat (parts : List Plan)
  | warp (sub : Plan) (tf : Affine) (dsize : Option (Int × Int)) (algo : Algo)
  | crop (sub : Plan) (sl : Option Space) (chans : Option (List Nat))
  | overview (sub : Plan) (level : Int)
  | dequant (sub : Plan) (q : Quantization)

namespace Plan

mutual
/-- Run the program without preparing anything. -/
def late : Plan → Py Late
  | file l => .ok (.load l)
  | concat ps =>
    match lateL ps with
    | .error e => .error e
    | .ok ps => Late.mkConcat ps
  | warp p tf d a =>
    match late p with
    | .error e => .error e
    | .ok s => Late.mkWarp s tf d a
  | crop p sl c =>
    match late p with
    | .error e => .error e
    | .ok s => Late.mkCrop s sl c
  | overview p k =>
    match late p with
    | .error e => .error e
    | .ok s => Late.mkOverview s k
  | dequant p q =>
    match late p with
    | .error e => .error e
    | .ok s => .ok (Late.mkDequant s q)
def lateL : List Plan → Py (List Late)
  | [] => .ok []
  | p :: ps =>
    match late p with
    | .error e => .error e
    | .ok p =>
      match lateL ps with
      | .error e => .error e
      | .ok ps => .ok (p :: ps)
end

end Plan

end Tree
end Verif
