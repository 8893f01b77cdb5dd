/-
Channels selected by the third entry of an index: a list of numbers that may count from the end, one number,
or a slice.  `Node.lean` and `Opt.lean` know lists of positions only.

Simplifications.  Once a crop is built its selection is stored as the positions it
stands for (`RawCrop.node`); that this shows the same array is proved (`C72_stored`).  Optimizing is modelled
for crops whose optimized source is a concat; there the form of the selection matters.
-/
import Verif.Raster
import Verif.Stride

namespace Verif
namespace Tree
open Node

variable {Q V : Type}

/-- The third entry of an index, the argument `chan_idxs` of `crop`. -/
inductive CIdx where
  | list (l : List Int)
  | int (i : Int)
  | slice (a b : Option Int)
  | step (a b : Option Int) (k : Int)
deriving DecidableEq, Repr

/-- The position a number stands for along an axis of length `n` (numpy and Python lists). -/
def axisPos (n : Nat) (i : Int) : Py Nat :=
  let j := if i < 0 then i + n else i
  if 0 ≤ j ∧ j < n then .ok j.toNat else .error .indexError

/-- The positions `arr[:, :, c]` shows (numpy, external); a single number gives one channel after
`kwarray.atleast_nd`, delayed_nodes.py:2731. -/
def CIdx.positions (n : Nat) : CIdx → Py (List Nat)
  | .list l => mapAll (axisPos n) l
  | .int i =>
    match axisPos n i with
    | .error e => .error e
    | .ok p => .ok [p]
  | .slice a b => .ok (Fused.pySlice (List.range n) a b)
  | .step a b k => Fused.stride n a b k

/-- A `DelayedCrop` as it is built. -/
structure RawCrop (Q : Type) where
  sub : Node Q
  y0 : Int
  y1 : Int
  x0 : Int
  x1 : Int
  c : CIdx
  names : Option (List Str)
  num : Nat

/-- The channels of a crop, delayed_nodes.py:2706-2712: `current_channels[chan_idxs]` (channel_spec.py:424-431,
codes are normalized), or `len(chan_idxs)` if the channels are unknown. -/
def cropChans : Option (List Str) → CIdx → Py (Option (List Str) × Nat)
  | some names, .list l =>
    match Fused.pyTake names l with
    | .error e => .error e
    | .ok ns => .ok (some ns, ns.length)
  | some names, .int i =>
    match Fused.pyIndex names i with
    | .error e => .error e
    | .ok n => .ok (some [n], 1)
  | some names, .slice a b => .ok (some (Fused.pySlice names a b), (Fused.pySlice names a b).length)
  | some names, .step a b k =>
    match Fused.pyStride names a b k with
    | .error e => .error e
    | .ok ns => .ok (some ns, ns.length)
  | none, .list l => .ok (none, l.length)
  | none, _ => .error .typeError

/-- `DelayedCrop(sub, space_slice, chan_idxs)`, delayed_nodes.py:2668-2715; `image[y, x, c]` of
delayed_nodes.py:1011-1022 and 1314-1325 calls it through `crop`, 362. -/
def mkRawCrop (sub : Node Q) (sl : Option Space) (c : CIdx) : Py (RawCrop Q) :=
  match cropChans sub.channels c with
  | .error e => .error e
  | .ok (names, num) =>
    match sl with
    | none => .ok ⟨sub, 0, sub.dsize.2, 0, sub.dsize.1, c, names, num⟩
    | some (ysl, xsl) =>
      let y := normSlice sub.dsize.2 ysl.1 ysl.2
      let x := normSlice sub.dsize.1 xsl.1 xsl.2
      .ok ⟨sub, y.1, y.2, x.1, x.2, c, names, num⟩

/-- `DelayedCrop._finalize`, delayed_nodes.py:2717-2732. -/
def RawCrop.fin (E : Env V) (t : RawCrop Helpers.Quantization) : Py (Img V) :=
  match Tree.fin E t.sub with
  | .error e => .error e
  | .ok i =>
    match t.c.positions i.n with
    | .error e => .error e
    | .ok ps => (i.slice (some t.y0, some t.y1) (some t.x0, some t.x1)).select (some ps)

/-- The position of a number, or the position behind the last one. -/
def axisOr (n : Nat) (i : Int) : Nat :=
  match axisPos n i with
  | .ok p => p
  | .error _ => n

/-- The crop with its selection given by positions.  A number out of range (possible if the channels are
unknown) becomes the position behind the last channel, which does not exist either. -/
def RawCrop.node (t : RawCrop Q) : Node Q :=
  .crop t.sub t.y0 t.y1 t.x0 t.x1 (some (match t.c with
    | .list l => l.map (axisOr t.sub.nchan)
    | c => match c.positions t.sub.nchan with | .ok ps => ps | .error _ => [t.sub.nchan]))

/-- `image[y, x, c]`. -/
def cropC (n : Node Q) (sl : Option Space) (c : CIdx) : Py (Node Q) :=
  match mkRawCrop n sl c with
  | .error e => .error e
  | .ok t => .ok t.node

/-! #### `take_channels` with a list of numbers -/

/-- `kwarray.FlatIndexer(sizes).unravel(idx)` (external): a binary search among the cumulated sizes, which
puts negative numbers into the first part and leaves them negative. -/
def unravelI (sizes : List Nat) (i : Int) : Option (Nat × Int) :=
  if i < 0 then (if sizes = [] then none else some (0, i))
  else (unravel sizes i.toNat).map (fun p => (p.1, (p.2 : Int)))

/-- `_InnerAccumSegment` without codes, delayed_nodes.py:3375-3390. -/
structure SegI where
  comp : Nat
  start : Int
  stop : Option Int
  indexes : List Int
deriving DecidableEq, Repr

/-- A new segment with its first number, delayed_nodes.py:3385-3397 and 3413. -/
def SegI.new (comp : Nat) (inner : Int) : SegI := ⟨comp, inner, some (inner + 1), [inner]⟩

/-- `add_inner`, delayed_nodes.py:3399-3413. -/
def SegI.add (s : SegI) (inner : Int) : SegI :=
  { s with stop := if s.stop = some inner then some (inner + 1) else none
           indexes := s.indexes ++ [inner] }

/-- The loop, delayed_nodes.py:972-1002. -/
def accLoopI (sizes : List Nat) : List SegI × Option SegI → List Int → Py (List SegI)
  | st, [] => .ok (st.1 ++ st.2.toList)
  | st, i :: is =>
    match unravelI sizes i with
    | none => .error .indexError
    | some (o, j) =>
      match st.2 with
      | none => accLoopI sizes (st.1, some (.new o j)) is
      | some c =>
        if c.comp = o then accLoopI sizes (st.1, some (c.add j)) is
        else accLoopI sizes (st.1 ++ [c], some (.new o j)) is

/-- `get_indexer`, delayed_nodes.py:3415-3435; `none` is `Ellipsis`. -/
def SegI.indexer (s : SegI) (nchan : Nat) : Py (Option (List Int)) :=
  match s.stop with
  | some b =>
    if s.start = 0 ∧ b = nchan then
      if s.indexes.head? = some 0 ∧ s.indexes.getLast? = some (b - 1) then .ok none
      else .error .assertionError
    else if (List.range (b - s.start).toNat).map (fun k => s.start + (k : Nat)) = s.indexes then .ok (some s.indexes)
    else .error .assertionError
  | none => .ok (some s.indexes)

/-- `get_subcomponent`, delayed_nodes.py:3437-3460. -/
def SegI.sub (parts : List (Node Q × (List Int → Py (Node Q)))) (s : SegI) : Py (Node Q) :=
  match parts[s.comp]? with
  | none => .error .indexError
  | some (p, take) =>
    match s.indexer p.nchan with
    | .error e => .error e
    | .ok none => .ok p
    | .ok (some idxs) => take idxs

/-- delayed_nodes.py:968-1009. -/
def concatTakeI (parts : List (Node Q × (List Int → Py (Node Q)))) (idxs : List Int) : Py (Node Q) :=
  match accLoopI (parts.map (fun p => p.1.nchan)) ([], none) idxs with
  | .error e => .error e
  | .ok segs =>
    match mapAll (SegI.sub parts) segs with
    | .error e => .error e
    | .ok comps => mkConcat comps

mutual
/-- `take_channels` with a list of numbers: delayed_nodes.py:1403-1404 and 1433-1435 for images, 915-922 and
968-1009 for concats. -/
def takeInts : Node Q → List Int → Py (Node Q)
  | .concat ps _, idxs =>
    match channelsL ps with
    | none => .error .assertionError
    | some _ => concatTakeI (takersI ps) idxs
  | .leaf l, idxs => cropC (.leaf l) none (.list idxs)
  | .warp s tf d a, idxs => cropC (.warp s tf d a) none (.list idxs)
  | .crop s y0 y1 x0 x1 c, idxs => cropC (.crop s y0 y1 x0 x1 c) none (.list idxs)
  | .overview s k d, idxs => cropC (.overview s k d) none (.list idxs)
  | .dequant s q d, idxs => cropC (.dequant s q d) none (.list idxs)
def takersI : List (Node Q) → List (Node Q × (List Int → Py (Node Q)))
  | [] => []
  | p :: ps => (p, takeInts p) :: takersI ps
end

/-! #### optimizing -/

/-- `new.subdata.take_channels(chan_idxs)` of a concat, delayed_nodes.py:2803 and 911-937: a number is not a
list, it is taken for a number of channels (`from_int`, channel_spec.py:472-483 and 518-520), and a slice
cannot be coerced to a spec (521-529). -/
def takeC (n : Node Q) : CIdx → Py (Node Q)
  | .list l => takeInts n l
  | .int i => takeNames n (Fused.fromInt i.toNat).parsed .returnNan
  | .slice _ _ => .error .typeError
  | .step _ _ _ => .error .typeError

/-- `DelayedCrop.optimize` of a crop whose optimized source is `concat ps d`, delayed_nodes.py:2790-2812. -/
def cropConcatC (rec : Node Q → Py (Node Q)) (ps : List (Node Q)) (d : Int × Int) (y0 y1 x0 x1 : Int) (c : CIdx) :
    Py (Node Q) :=
  match (match takeC (.concat ps d) c with
    | .error e => .error e
    | .ok t => rec t : Py (Node Q)) with
  | .error e => .error e
  | .ok taken =>
    match mkCrop taken (ints y0 y1 x0 x1) none with
    | .error e => .error e
    | .ok cr =>
      match taken with
      | .concat qs _ =>
        match pushUnder cr qs with
        | .error e => .error e
        | .ok none => rec cr
        | .ok (some p) => rec p
      | _ => rec cr

/-- `optimize` of a crop if the optimized source is a concat; `none` stands for the other cases. -/
def optCropC (H : Heur) (fuel : Nat) (t : RawCrop Q) : Option (Py (Node Q)) :=
  match opt H fuel t.sub with
  | .ok (.concat ps d) => some (cropConcatC (opt H fuel) ps d t.y0 t.y1 t.x0 t.x1 t.c)
  | _ => none

end Tree
end Verif
