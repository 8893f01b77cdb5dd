/-
Model of the operation trees of `delayed_image/delayed_nodes.py` and `delayed_leafs.py`: the nodes, their
constructors, the metadata they report and channel selection.

Simplifications.  Sizes of leaves are known (`prepare` was called).  Channel specs are lists of
normalized codes (`Written.lean` keeps them as written).  Concats without parts are not modelled, and
`DelayedAsXarray` only as the last step (`Props/Written.lean`).  Channel indices are natural numbers.  A concat stores the size its parts have.
-/
import Verif.Py
import Verif.Affine

namespace Verif
namespace Tree

open Helpers

/-- Interpolation modes: nearest, or one of the others. -/
inductive Interp where
  | nearest
  | other (n : Nat)
deriving DecidableEq, Repr

/-- The parameters of a warp besides its transform and size, delayed_nodes.py:1748-1752. -/
structure Algo where
  interp : Interp
  antialias : Bool
  border : Option ℚ
  noopEps : ℚ
  backend : Nat
deriving DecidableEq, Repr

/-- The defaults of `DelayedWarp.__init__`, delayed_nodes.py:1705-1709; interpolation 0 is linear,
border `none` is 'auto', backend 0 is 'auto'. -/
def Algo.default : Algo := ⟨.other 0, true, none, 0, 0⟩

/-- The parameters in `_algo_keys` (delayed_nodes.py:1755-1760); the backend is not one of them. -/
def Algo.common (a : Algo) : Algo := { a with backend := 0 }

/-- `DelayedLoad`, `DelayedIdentity` and (with `nan`) `DelayedNans`, delayed_leafs.py. -/
structure Leaf where
  id : Nat
  dsize : Int × Int
  nchan : Nat
  names : Option (List Str)
  overviews : Option Int
  nan : Bool
deriving DecidableEq, Repr

/-- An operation tree.  A crop stores its (normalized) slices and channel indices.  What a dequantization
carries is a parameter: no operation on trees looks at it, and `Heap.lean` adds the identity of the metadata
to it. -/
inductive Node (Q : Type := Quantization) where
  | leaf (l : Leaf)
  | concat (parts : List (Node Q)) (dsize : Int × Int)
  | warp (sub : Node Q) (tf : Affine) (dsize : Int × Int) (algo : Algo)
  | crop (sub : Node Q) (y0 y1 x0 x1 : Int) (chans : Option (List Nat))
  | overview (sub : Node Q) (level : Int) (dsize : Int × Int)
  | dequant (sub : Node Q) (q : Q) (dsize : Int × Int)

namespace Node

variable {Q : Type}

/-- The `dsize` property, delayed_nodes.py:1266-1276 and 736; the size of a crop is
delayed_nodes.py:2699-2704. -/
def dsize : Node Q → Int × Int
  | leaf l => l.dsize
  | concat _ d => d
  | warp _ _ d _ => d
  | crop _ y0 y1 x0 x1 _ => (x1 - x0, y1 - y0)
  | overview _ _ d => d
  | dequant _ _ d => d

mutual
/-- `num_channels`, delayed_nodes.py:1255-1264, 738 and 2706-2712. -/
def nchan : Node Q → Nat
  | leaf l => l.nchan
  | concat ps _ => nchans ps
  | warp s _ _ _ => nchan s
  | crop s _ _ _ _ c => match c with | none => nchan s | some c => c.length
  | overview s _ _ => nchan s
  | dequant s _ _ => nchan s
def nchans : List (Node Q) → Nat
  | [] => 0
  | p :: ps => nchan p + nchans ps
end

/-- `l[i]` for every index. -/
def pick {α} (dflt : α) (l : List α) (idxs : List Nat) : List α := idxs.map (fun i => l.getD i dflt)

mutual
/-- `channels`, delayed_nodes.py:1278-1287, 755-769 and 2706-2712. -/
def channels : Node Q → Option (List Str)
  | leaf l => l.names
  | concat ps _ => channelsL ps
  | warp s _ _ _ => channels s
  | crop s _ _ _ _ c =>
    match c with
    | none => channels s
    | some c => (channels s).map (fun l => pick [] l c)
  | overview s _ _ => channels s
  | dequant s _ _ => channels s
def channelsL : List (Node Q) → Option (List Str)
  | [] => some []
  | p :: ps =>
    match channels p, channelsL ps with
    | some a, some b => some (a ++ b)
    | _, _ => none
end

mutual
/-- `num_overviews`, delayed_nodes.py:1303-1312, 1024-1040 and 3122-3130. -/
def numOverviews : Node Q → Py (Option Int)
  | leaf l => .ok l.overviews
  | concat ps _ =>
    match numOverviewsL ps with
    | .error e => .error e
    | .ok [] => .error .indexError
    | .ok (c :: cs) => .ok (if cs.all (fun c' => decide (c' = c)) then c else none)
  | warp s _ _ _ => numOverviews s
  | crop s _ _ _ _ _ => numOverviews s
  | overview s k _ =>
    match numOverviews s with
    | .error e => .error e
    | .ok none => .error .typeError
    | .ok (some n) => .ok (some (n - k))
  | dequant s _ _ => numOverviews s
def numOverviewsL : List (Node Q) → Py (List (Option Int))
  | [] => .ok []
  | p :: ps =>
    match numOverviews p with
    | .error e => .error e
    | .ok c =>
      match numOverviewsL ps with
      | .error e => .error e
      | .ok cs => .ok (c :: cs)
end

/-- `_transform_from_subdata`, delayed_nodes.py:2141, 2627, 2734-2738 and 3202-3204. -/
def tfSub : Node Q → Affine
  | warp _ tf _ _ => tf
  | crop _ y0 _ x0 _ _ => .trans (-x0) (-y0)
  | overview _ k _ => .scale ((2 : ℚ) ^ k)⁻¹
  | _ => .id

end Node

open Node

variable {Q : Type}

/-! #### constructors -/

/-- `DelayedChannelConcat(parts)`, delayed_nodes.py:714-743.  (Without parts the code makes an object of
unknown size, and whatever needs its size or its pixels raises; here the constructor raises.) -/
def mkConcat : List (Node Q) → Py (Node Q)
  | [] => .error .generic
  | p :: ps =>
    if ps.all (fun q => decide (q.dsize = p.dsize)) then .ok (.concat (p :: ps) p.dsize)
    else .error .coordinateCompat

/-- `DelayedChannelConcat(parts, dsize)`, delayed_nodes.py:714-743: a given size is not compared with the
sizes of the parts. -/
def mkConcatSized (ps : List (Node Q)) (d : Int × Int) : Node Q := .concat ps d

/-- `DelayedWarp(sub, tf, dsize, ...)`, delayed_nodes.py:1700-1752; `none` is 'auto'. -/
def mkWarp (sub : Node Q) (tf : Affine) (d : Option (Int × Int)) (a : Algo) : Node Q :=
  .warp sub tf (match d with | none => autoDsize (some tf) sub.dsize | some d => d) a

/-- One axis of `kwimage.Boxes.from_slice(slice, dims, wrap=True, clip=True)` (external): negative
bounds wrap around once, bounds are clipped to the axis, and a slice does not run backwards. -/
def normBound (D i : Int) : Int := max 0 (min D (if i < 0 then i + D else i))

def normSlice (D : Int) (a b : Option Int) : Int × Int :=
  let start := match a with | none => 0 | some a => normBound D a
  let stop := match b with | none => max 0 D | some b => normBound D b
  (start, max start stop)

/-- The channel check of `DelayedCrop.__init__`, delayed_nodes.py:2706-2712: selecting from known codes
raises if an index is out of range. -/
def chanCheck (sub : Node Q) (c : Option (List Nat)) : Py Unit :=
  match c, sub.channels with
  | some c, some names => if c.all (fun i => decide (i < names.length)) then .ok () else .error .indexError
  | _, _ => .ok ()

/-- A slice along the y and the x axis. -/
abbrev Space := (Option Int × Option Int) × (Option Int × Option Int)

/-- `DelayedCrop(sub, space_slice, chan_idxs)`, delayed_nodes.py:2668-2715. -/
def mkCrop (sub : Node Q) (sl : Option Space) (c : Option (List Nat)) : Py (Node Q) :=
  match chanCheck sub c with
  | .error e => .error e
  | .ok _ =>
    match sl with
    | none => .ok (.crop sub 0 sub.dsize.2 0 sub.dsize.1 c)
    | some (ysl, xsl) =>
      let y := normSlice sub.dsize.2 ysl.1 ysl.2
      let x := normSlice sub.dsize.1 xsl.1 xsl.2
      .ok (.crop sub y.1 y.2 x.1 x.2 c)

/-- A slice with given bounds. -/
def ints (y0 y1 x0 x1 : Int) : Option Space := some ((some y0, some y1), (some x0, some x1))

/-- `iceil(sf * w)` with `sf = 1 / 2**level`, delayed_nodes.py:3109-3119. -/
def ovSize (level : Int) (w : Int) : Int := ⌈((2 : ℚ) ^ level)⁻¹ * w⌉

/-- `DelayedOverview(sub, level)`, delayed_nodes.py:3097-3120. -/
def mkOverview (sub : Node Q) (level : Int) : Node Q :=
  .overview sub level (ovSize level sub.dsize.1, ovSize level sub.dsize.2)

/-- `DelayedDequantize(sub, q)`, delayed_nodes.py:2545-2556. -/
def mkDequant (sub : Node Q) (q : Q) : Node Q := .dequant sub q sub.dsize

/-- One axis of `kwarray.embed_slice(slice, dims, pad)` (external): the part of the slice inside the
data and the padding needed before and after it. -/
def embedSlice (lo hi D padLo padHi : Int) : Py ((Int × Int) × (Int × Int)) :=
  if lo > hi then .error .valueError
  else
    let rawLo := lo - padLo
    let rawHi := hi + padHi
    let slLo := min D (max 0 rawLo)
    let slHi := min D (max 0 rawHi)
    let lowDiff := slLo - rawLo
    let highDiff := rawHi - slHi
    .ok ((slLo, slHi), (max 0 (lowDiff + min 0 highDiff), max 0 (highDiff + min 0 lowDiff)))

/-- `_padded_crop`, delayed_nodes.py:421-450; pads are `((top, bottom), (left, right))`. -/
def paddedCrop (sub : Node Q) (y0 y1 x0 x1 : Int) (pad : (Int × Int) × (Int × Int)) : Py (Node Q) :=
  match embedSlice y0 y1 sub.dsize.2 pad.1.1 pad.1.2 with
  | .error e => .error e
  | .ok (ysl, yex) =>
    match embedSlice x0 x1 sub.dsize.1 pad.2.1 pad.2.2 with
    | .error e => .error e
    | .ok (xsl, xex) =>
      match mkCrop sub (ints ysl.1 ysl.2 xsl.1 xsl.2) none with
      | .error e => .error e
      | .ok new =>
        let d : Int × Int := (xsl.2 - xsl.1 + xex.1 + xex.2, ysl.2 - ysl.1 + yex.1 + yex.2)
        if yex.1 ≠ 0 ∨ yex.2 ≠ 0 ∨ xex.1 ≠ 0 ∨ xex.2 ≠ 0 then
          .ok (mkWarp new (.trans xex.1 yex.1) (some d) .default)
        else .ok new

/-! #### channel selection -/

/-- `kwarray.FlatIndexer(sizes).unravel(idx)` (external): part and position within the part. -/
def unravel : List Nat → Nat → Option (Nat × Nat)
  | [], _ => none
  | n :: ns, i =>
    if i < n then some (0, i)
    else (unravel ns (i - n)).map (fun p => (p.1 + 1, p.2))

/-- `_InnerAccumSegment`, delayed_nodes.py:3375-3390; a part is named by its position in the concat
(the code compares the part objects). -/
structure Seg where
  comp : Option Nat
  start : Option Nat
  stop : Option Nat
  codes : Option (List Str)
  indexes : List Nat
deriving DecidableEq, Repr

/-- A new segment, delayed_nodes.py:3385-3390. -/
def Seg.new (comp : Option Nat) : Seg := ⟨comp, none, none, none, []⟩

/-- `add_inner`, delayed_nodes.py:3392-3413. -/
def Seg.add (s : Seg) (inner : Nat) (code : Option Str) : Seg :=
  let s :=
    match s.start with
    | none => { s with start := some inner, stop := some (inner + 1),
                       codes := match code with | none => s.codes | some _ => some [] }
    | some _ =>
      { s with codes := match code with | none => none | some _ => s.codes
               stop := if s.stop = some inner then some (inner + 1) else none }
  { s with codes := match s.codes, code with
                    | some l, some c => some (l ++ [c])
                    | some l, none => some l
                    | none, _ => none
           indexes := s.indexes ++ [inner] }

/-- The state of the accumulation loop: finished segments and the current one. -/
abbrev Acc := List Seg × Option Seg

/-- The part and the position in the part of a request, delayed_nodes.py:977-986.  Missing channels have
no part and are numbered within their segment. -/
def locate (sizes : List Nat) (curr : Option Seg) (idx : Option Nat) : Py (Option Nat × Nat) :=
  match idx with
  | none =>
    .ok (none, match curr with
      | some c => if c.comp = none then c.stop.getD 0 else 0
      | none => 0)
  | some i =>
    match unravel sizes i with
    | none => .error .indexError
    | some (o, j) => .ok (some o, j)

/-- Extend the current segment or start a new one, delayed_nodes.py:988-998.  (The code compares parts by
identity, here they are compared by position: if one object is used as several parts, the code makes
fewer segments, of the same channels.) -/
def extend (st : Acc) (comp : Option Nat) (inner : Nat) (code : Option Str) : Acc :=
  match st.2 with
  | none => (st.1, some ((Seg.new comp).add inner code))
  | some c =>
    if c.comp = comp then (st.1, some (c.add inner code))
    else (st.1 ++ [c], some ((Seg.new comp).add inner code))

/-- The whole loop, delayed_nodes.py:972-1002. -/
def accLoop (sizes : List Nat) : Acc → List (Option Nat × Option Str) → Py (List Seg)
  | st, [] => .ok (st.1 ++ st.2.toList)
  | st, r :: rs =>
    match locate sizes st.2 r.1 with
    | .error e => .error e
    | .ok (comp, inner) => accLoop sizes (extend st comp inner r.2) rs

/-- `get_indexer`, delayed_nodes.py:3415-3435; `none` is `Ellipsis`. -/
def Seg.indexer (s : Seg) (nchan : Nat) : Py (Option (List Nat)) :=
  match s.start, s.stop with
  | some a, some b =>
    if a = 0 ∧ b = nchan then
      if s.indexes.head? = some 0 ∧ s.indexes.getLast? = some (b - 1) then .ok none
      else .error .assertionError
    else if (List.range (b - a)).map (fun k => a + k) = s.indexes then .ok (some s.indexes)
    else .error .assertionError
  | _, _ => .ok (some s.indexes)

/-- The result of applying a computation to all elements. -/
def mapAll {α β} (f : α → Py β) : List α → Py (List β)
  | [] => .ok []
  | x :: xs =>
    match f x with
    | .error e => .error e
    | .ok y =>
      match mapAll f xs with
      | .error e => .error e
      | .ok ys => .ok (y :: ys)

/-- A leaf without data, delayed_leafs.py:385-387, 465-468: `DelayedNans` (`kind = 0`) or a `DelayedNodata`, whose
`nodata_method` is told by `kind`. -/
def nanLeaf (kind : Nat) (d : Int × Int) (names : Option (List Str)) : Node Q :=
  .leaf ⟨kind, d, (names.map List.length).getD 0, names, none, true⟩

/-- `get_subcomponent`, delayed_nodes.py:3437-3460.  `parts` pairs every part with its own
`take_channels`. -/
def Seg.sub (d : Int × Int) (parts : List (Node Q × (List Nat → Py (Node Q)))) (s : Seg) : Py (Node Q) :=
  match s.comp with
  | none => .ok (nanLeaf 0 d s.codes)
  | some o =>
    match parts[o]? with
    | none => .error .indexError
    | some (p, take) =>
      match s.indexer p.nchan with
      | .error e => .error e
      | .ok none => .ok p
      | .ok (some idxs) => take idxs

/-- The body of `DelayedChannelConcat.take_channels` from the index mapping on,
delayed_nodes.py:968-1009. -/
def concatTake (d : Int × Int) (parts : List (Node Q × (List Nat → Py (Node Q))))
    (reqs : List (Option Nat × Option Str)) : Py (Node Q) :=
  match accLoop (parts.map (fun p => p.1.nchan)) ([], none) reqs with
  | .error e => .error e
  | .ok segs =>
    match mapAll (Seg.sub d parts) segs with
    | .error e => .error e
    | .ok comps => mkConcat comps

mutual
/-- `take_channels` with a list of indices: delayed_nodes.py:1403-1404 and 1433-1435 for images,
915-922 and 968-1009 for concats, which need known channels. -/
def takeIdx : Node Q → List Nat → Py (Node Q)
  | .concat ps d, idxs =>
    match channelsL ps with
    | none => .error .assertionError
    | some _ => concatTake d (takers ps) (idxs.map (fun i => (some i, none)))
  | .leaf l, idxs => mkCrop (.leaf l) none (some idxs)
  | .warp s tf d a, idxs => mkCrop (.warp s tf d a) none (some idxs)
  | .crop s y0 y1 x0 x1 c, idxs => mkCrop (.crop s y0 y1 x0 x1 c) none (some idxs)
  | .overview s k d, idxs => mkCrop (.overview s k d) none (some idxs)
  | .dequant s q d, idxs => mkCrop (.dequant s q d) none (some idxs)
def takers : List (Node Q) → List (Node Q × (List Nat → Py (Node Q)))
  | [] => []
  | p :: ps => (p, takeIdx p) :: takers ps
end

/-- Position of the first occurrence of a code, as `as_oset().index` for distinct codes.  For repeated
codes the ordered set is shorter than the list: position among the distinct codes. -/
def osetIndex (names : List Str) (code : Str) : Option Nat :=
  let distinct := names.foldl (fun acc c => if c ∈ acc then acc else acc ++ [c]) []
  if code ∈ distinct then some (distinct.idxOf code) else none

/-- Missing channel policies, delayed_nodes.py:939-958. -/
inductive Policy where
  | returnNan
  | error
deriving DecidableEq, Repr

/-- `take_channels` with codes, delayed_nodes.py:923-1009 for a concat; 1405-1435 for an image.  `same` is
the outcome of the comparison `current_channels == channels` of the two specs. -/
def takeNamesIf (same : Bool) (n : Node Q) (codes : List Str) (policy : Policy) : Py (Node Q) :=
  match n with
  | .concat ps d =>
    if same then .ok (.concat ps d)
    else
      match channelsL ps with
      | none => .error .assertionError
      | some names =>
        let reqs := codes.map (fun c => (osetIndex names c, some c))
        if policy = .error ∧ reqs.any (fun r => r.1.isNone) then .error .valueError
        else concatTake d (takers ps) reqs
  | n =>
    match n.channels with
    | none => .error .valueError
    | some names =>
      if codes.all (fun c => (osetIndex names c).isSome) then
        mkCrop n none (some (codes.filterMap (osetIndex names)))
      else if same then .ok (.concat [n] n.dsize)
      else
        let reqs := codes.map (fun c => (osetIndex names c, some c))
        if policy = .error ∧ reqs.any (fun r => r.1.isNone) then .error .valueError
        else concatTake n.dsize [(n, takeIdx n)] reqs

/-- `take_channels` with codes when both specs are written without shorthand (`Written.lean` is about the
others): they are compared code by code. -/
def takeNames (n : Node Q) (codes : List Str) (policy : Policy) : Py (Node Q) :=
  takeNamesIf (decide (n.channels = some codes)) n codes policy

end Tree
end Verif
