/-
Model of `delayed_image/lazy_loaders.py`: the bounded cache and the index handling of lazy files.
-/
import Verif.ChannelSpec

namespace Verif
namespace Loader

/-! #### CacheDict -/

/-- `OrderedDict.__setitem__`: in place for an existing key, else at the end. -/
def odSet {κ α} [DecidableEq κ] (d : List (κ × α)) (k : κ) (v : α) : List (κ × α) :=
  match d with
  | [] => [(k, v)]
  | (k', v') :: rest => if k' = k then (k', v) :: rest else (k', v') :: odSet rest k v

/-- `OrderedDict.move_to_end` of a present key. -/
def moveToEnd {κ α} [DecidableEq κ] (d : List (κ × α)) (k : κ) : List (κ × α) :=
  d.filter (fun p => decide (p.1 ≠ k)) ++ d.filter (fun p => decide (p.1 = k))

/-- The eviction loop, lazy_loaders.py:49-51: drop the first key while there are too many. -/
def evict {κ α} (cap : Nat) : List (κ × α) → List (κ × α)
  | [] => []
  | p :: rest => if rest.length + 1 > cap then evict cap rest else p :: rest

/-- `CacheDict.__setitem__`, lazy_loaders.py:46-51. -/
def cacheSet {κ α} [DecidableEq κ] (cap : Nat) (d : List (κ × α)) (k : κ) (v : α) : List (κ × α) :=
  evict cap (moveToEnd (odSet d k v) k)

/-- First value stored for the key. -/
def odGet {κ α} [DecidableEq κ] (d : List (κ × α)) (k : κ) : Option α :=
  match d with
  | [] => none
  | (k', v') :: rest => if k' = k then some v' else odGet rest k

/-- `CacheDict.__getitem__`, lazy_loaders.py:53-56: new state and value; a missing key raises before
the order changes. -/
def cacheGet {κ α} [DecidableEq κ] (d : List (κ × α)) (k : κ) : List (κ × α) × Py α :=
  match odGet d k with
  | some v => (moveToEnd d k, .ok v)
  | none => (d, .error .keyError)

/-- A use of the cache. -/
inductive Op (κ α : Type) where
  | set (k : κ) (v : α)
  | get (k : κ)

/-- The state after an operation. -/
def step {κ α} [DecidableEq κ] (cap : Nat) (d : List (κ × α)) : Op κ α → List (κ × α)
  | .set k v => cacheSet cap d k v
  | .get k => (cacheGet d k).1

/-- The state after a history, starting empty (lazy_loaders.py:41-44). -/
def run {κ α} [DecidableEq κ] (cap : Nat) (ops : List (Op κ α)) : List (κ × α) :=
  ops.foldl (step cap) []

/-! #### indexing a lazy file -/

/-- An entry of the index tuple. -/
inductive Part where
  | none
  | slice (start stop : Option Int)
  | int (i : Int)
  | list (is : List Int)
  | ellipsis
deriving DecidableEq, Repr

/-- The result of `_rectify_slice_dim`: a slice or a list. -/
inductive RPart where
  | slice (start stop : Int)
  | list (is : List Int)
deriving DecidableEq, Repr

/-- `_rectify_slice_dim`, lazy_loaders.py:1085-1102 (slices without step; a step is an assertion
error). -/
def rectify (p : Part) (D : Nat) : Py RPart :=
  match p with
  | .none => .ok (.slice 0 D)
  | .slice a b =>
    let start : Int := match a with | Option.none => 0 | some a => max 0 a
    let stop : Int := match b with | Option.none => (D : Int) | some b => min (D : Int) b
    let stop : Int := if stop < 0 then D + stop else stop
    .ok (.slice start stop)
  | .int i => .ok (.slice i (i + 1))
  | .list is => .ok (.list is)
  | .ellipsis => .error .typeError

/-- Ellipsis and trailing dimensions, lazy_loaders.py:1001-1023. -/
def expandIndex (index : List Part) : Py (List Part) :=
  let num := index.countP (fun p => decide (p = .ellipsis))
  if num > 1 then .error .generic
  else if num = 1 then
    let ell := index.idxOf .ellipsis
    let n : Int := 1 + 3 - index.length
    if n > 0 then
      .ok (index.take ell ++ List.replicate n.toNat (.slice Option.none Option.none) ++ index.drop (ell + 1))
    else .ok index
  else if index.length < 3 then
    .ok (index ++ List.replicate (3 - index.length) (.slice Option.none Option.none))
  else .ok index

/-- The window `(offset, size)` along a spatial axis, lazy_loaders.py:1040-1048.  A list has no
`start` attribute. -/
def windowOf : RPart → Py (Int × Int)
  | .slice a b => .ok (a, b - a)
  | .list _ => .error .attributeError

/-- GDAL (external) reads a window along an axis of length `D`: a negative size cannot be allocated, a
window that leaves the raster fails, else the rows of the window are returned.  Whether an empty
window is skipped (giving an empty array) or refused is left open: `skip`. -/
def gdalRead (skip : Bool) (D : Nat) (w : Int × Int) : Py (List Nat) :=
  if w.2 = 0 then (if skip then .ok [] else .error .generic)
  else if 0 ≤ w.1 ∧ 0 < w.2 ∧ w.1 + w.2 ≤ D then
    .ok ((List.range w.2.toNat).map (fun k => w.1.toNat + k))
  else .error .generic

/-- The rows read along one spatial axis. -/
def rowsRead (skip : Bool) (p : Part) (D : Nat) : Py (List Nat) := do
  let r ← rectify p D
  let w ← windowOf r
  gdalRead skip D w

/-- The bands read, lazy_loaders.py:1027-1037: `range(*slice.indices(C))`, or the list itself. -/
def bandsOf (C : Nat) : RPart → List Int
  | .slice a b => (Fused.pySlice (List.range C) (some a) (some b)).map (fun (n : Nat) => (n : Int))
  | .list is => is

/-- The bands read for a channel index. -/
def bandsRead (p : Part) (C : Nat) : Py (List Int) := do
  let r ← rectify p C
  .ok (bandsOf C r)

/-- `LazyGDalFrameFile.__getitem__`, lazy_loaders.py:991-1066: rows, columns and bands that are read
for an index tuple.  (Converting a non-iterable index to a one-element list is left to the caller;
missing entries cannot happen after the expansion.  The two read methods and their fall-back are the
external read.) -/
def getItem (skip : Bool) (index : List Part) (H W C : Nat) : Py (List Nat × List Nat × List Int) := do
  let index ← expandIndex index
  let y ← rectify (index.getD 0 .none) H
  let x ← rectify (index.getD 1 .none) W
  let c ← rectify (index.getD 2 .none) C
  let wy ← windowOf y
  let wx ← windowOf x
  let rows ← gdalRead skip H wy
  let cols ← gdalRead skip W wx
  .ok (rows, cols, bandsOf C c)

end Loader
end Verif
