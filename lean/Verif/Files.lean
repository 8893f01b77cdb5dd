/-
Model of `_finalize` on trees whose leaves are files read by GDAL, `delayed_image/delayed_nodes.py` and
`delayed_leafs.py` with `delayed_image/lazy_loaders.py`: what is handed from node to node is a lazy
reference to the file as long as possible, and crops and overviews are passed on to it.

Simplifications.  The masks of the no-data method `'ma'` are left out here (see `Masked.lean`): a pixel is
its value.  Resampling, dequantization and in-memory arrays are given by an environment as in
`Raster.lean`; in-memory arrays have three dimensions.
-/
import Verif.Raster
import Verif.Gdal

namespace Verif
namespace Tree

open Helpers Node Gdal

/-- What is outside of the tree: the files (leaves without a file hold an in-memory array), the no-data
methods they are opened with, GDAL, resampling and the simulation of overviews. -/
structure Files where
  file : Nat → Option File
  method : Nat → Option Str
  W : World
  E : Env Val
  /-- `kwimage.imresize(arr, scale=1 / 2 ** k, interpolation='nearest')` -/
  shrink : Int → Img Val → Img Val

/-- What `_finalize` returns: a lazy reference, or an array, which may be two-dimensional. -/
inductive Seen where
  | ref (l : Lazy)
  | arr (flat : Bool) (i : Img Val)

/-- The pixels of an array that was read. -/
def ofArr (a : Arr) : Img Val where
  h := a.data.length
  w := (a.data.getD 0 []).length
  n := ((a.data.getD 0 []).getD 0 []).length
  px := fun y x k => (((a.data.getD y []).getD x []).getD k (.nan, false)).1

/-- `ref[...]` of a lazy reference. -/
def Files.read (G : Files) (l : Lazy) (index : List Loader.Part) : Py (Bool × Img Val) :=
  match getItem G.W l index with
  | .error e => .error e
  | .ok a => .ok (a.flat, ofArr a)

/-- `np.asanyarray(...)`, which for a lazy reference is `self[:]`, lazy_loaders.py:1075-1083. -/
def Files.load (G : Files) : Seen → Py (Bool × Img Val)
  | .ref l => G.read l [.slice none none]
  | .arr flat i => .ok (flat, i)

/-- `np.asanyarray` of each. -/
def Files.loadAll (G : Files) : List Seen → Py (List (Img Val))
  | [] => .ok []
  | r :: rs =>
    match G.load r with
    | .error e => .error e
    | .ok p =>
      match G.loadAll rs with
      | .error e => .error e
      | .ok is => .ok (p.2 :: is)

/-- `DelayedConcat._finalize` after the parts, delayed_nodes.py:781-792: one part is handed on as it
is, several are concatenated. -/
def Files.join (G : Files) : List Seen → Py Seen
  | [r] => .ok r
  | rs =>
    match G.loadAll rs with
    | .error e => .error e
    | .ok is =>
      match catAll is with
      | .error e => .error e
      | .ok i => .ok (.arr false i)

/-- `DelayedCrop._finalize` after the source, delayed_nodes.py:2717-2732: a reference is indexed; so is
an array, and a third index into two dimensions is an error. -/
def Files.cut (G : Files) (y0 y1 x0 x1 : Int) (c : Option (List Nat)) : Seen → Py Seen
  | .ref l =>
    let sl : List Loader.Part := [.slice (some y0) (some y1), .slice (some x0) (some x1)]
    let index := match c with
      | none => sl
      | some c => sl ++ [.list (c.map (fun (k : Nat) => (k : Int)))]
    match G.read l index with
    | .error e => .error e
    | .ok p => .ok (.arr false p.2)
  | .arr flat i =>
    if flat && c.isSome then .error .indexError
    else
      match (i.slice (some y0, some y1) (some x0, some x1)).select c with
      | .error e => .error e
      | .ok j => .ok (.arr false j)

/-- `DelayedOverview._finalize` after the source, delayed_nodes.py:3132-3160. -/
def Files.coarser (G : Files) (k : Int) : Seen → Py Seen
  | .ref l =>
    if l.numOverviews ≥ k then .ok (.ref (l.getOverview k))
    else
      match G.read l [.slice none none] with
      | .error e => .error e
      | .ok p => .ok (.arr p.1 (G.shrink k p.2))
  | .arr flat i => .ok (.arr flat (G.shrink k i))

mutual
/-- `_finalize`: delayed_leafs.py:305-333, 389-399 and 520-522 for leaves; delayed_nodes.py:781-792 for
concats, 1770-2047 for warps, 2558-2570 for dequantizations, 2717-2732 for crops and 3132-3160 for
overviews. -/
def see (G : Files) : Node → Py Seen
  | .leaf l =>
    if l.nan then
      if l.dsize.1 < 0 ∨ l.dsize.2 < 0 then .error .valueError
      else .ok (.arr false ⟨l.dsize.2.toNat, l.dsize.1.toNat, l.nchan, fun _ _ _ => G.E.nan⟩)
    else
      match G.file l.id with
      | some f => .ok (.ref (Lazy.new f (G.method l.id) none))
      | none => .ok (.arr false (G.E.img l.id))
  | .concat ps _ =>
    match seeL G ps with
    | .error e => .error e
    | .ok rs => G.join rs
  | .warp s tf d a =>
    match see G s with
    | .error e => .error e
    | .ok r =>
      match G.load r with
      | .error e => .error e
      | .ok p =>
        match finWarp G.E tf d a p.2 with
        | .error e => .error e
        | .ok j => .ok (.arr false j)
  | .crop s y0 y1 x0 x1 c =>
    match see G s with
    | .error e => .error e
    | .ok r => G.cut y0 y1 x0 x1 c r
  | .overview s k _ =>
    match see G s with
    | .error e => .error e
    | .ok r => G.coarser k r
  | .dequant s q _ =>
    match see G s with
    | .error e => .error e
    | .ok r =>
      match G.load r with
      | .error e => .error e
      | .ok p => .ok (.arr false { p.2 with px := fun y x k => G.E.deq q (p.2.px y x k) })
def seeL (G : Files) : List Node → Py (List Seen)
  | [] => .ok []
  | p :: ps =>
    match see G p with
    | .error e => .error e
    | .ok a =>
      match seeL G ps with
      | .error e => .error e
      | .ok as => .ok (a :: as)
end

/-- `finalize(optimize=False)` and the last step of `finalize`, `final[:]`, delayed_base.py:405-449:
whether the array is two-dimensional, and the array. -/
def finalSee (G : Files) (n : Node) : Py (Bool × Img Val) :=
  match see G n with
  | .error e => .error e
  | .ok r => G.load r

/-- `finalize(optimize=True)` on files, delayed_base.py:405-449. -/
def finalizeFiles (H : Heur) (G : Files) (fuel : Nat) (n : Node) : Py (Bool × Img Val) :=
  match opt H fuel n with
  | .error e => .error e
  | .ok m => finalSee G m

end Tree
end Verif
