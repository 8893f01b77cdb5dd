/-
`nesting()`, delayed_base.py:84-117: an image as nested dictionaries.

Simplified.  `concise()` of a transform (kwimage) is a way to write the transform and stays one here.  The path and
the `nodata_method` of a file are its number.  `jagged`, which no operation has, is left out, and the `nodata_method`
of `DelayedNodata` too.  Trees are written ones (`Written.lean`): leaves have the specs they were given.
-/
import Verif.Written
import Verif.Show

namespace Verif
namespace Tree

open Node Helpers Show

/-- The entries of `meta`; `none` stands for `None` and for entries that the class does not have. -/
structure Entries where
  axis : Option Nat := none
  channels : Option Str := none
  numChannels : Option Nat := none
  dsize : Option (Int × Int) := none
  transform : Option Affine := none
  algo : Option Algo := none
  slices : Option (Int × Int × Int × Int) := none
  chanIdxs : Option (List Nat) := none
  overview : Option Int := none
  quantization : Option Quantization := none
  file : Option Nat := none
  numOverviews : Option Int := none
deriving DecidableEq

/-- The dictionaries; the key `children` exists only if there are any, delayed_base.py:113-116. -/
inductive Nest where
  | single (type : Str) (md : Entries)
  | nested (type : Str) (md : Entries) (children : List Nest)

/-- `meta['channels'].concise().spec`, delayed_base.py:107-110; for `None` the `AttributeError` is caught. -/
def conciseText : Option (List Str) → Py (Option Str)
  | none => .ok none
  | some codes =>
    match Fused.concise ⟨codes, false⟩ with
    | .error e => .error e
    | .ok g => .ok (some g.spec)

/-- delayed_base.py:109-116 with the descriptions of the parts. -/
def nestItem (type : Str) (md : Entries) : List Nest → Nest
  | [] => .single type md
  | c :: cs => .nested type md (c :: cs)

/-- What the code does for an operation with one part. -/
def nestOver (type : Str) (md : Entries) : Py Nest → Py Nest
  | .error e => .error e
  | .ok c => .ok (nestItem type md [c])

mutual
/-- `nesting()`, delayed_base.py:84-117, with the entries of `meta` that the constructors set:
delayed_nodes.py:158, 1227-1230, 1746-1752, 2555-2556, 2701-2715, 3104-3120, delayed_leafs.py:164-166 and 515-518. -/
def nesting (kind : Leaf → LeafClass) : Node → Py Nest
  | .leaf l =>
    match conciseText l.names with
    | .error e => .error e
    | .ok s =>
      .ok (nestItem (className kind (.leaf l))
        { channels := s, numChannels := some l.nchan, dsize := some l.dsize
          file := if kind l = .load then some l.id else none
          numOverviews := if kind l = .load then l.overviews else none } [])
  | .concat ps d =>
    match nestingL kind ps with
    | .error e => .error e
    | .ok cs => .ok (nestItem (className kind (.concat ps d)) { axis := some 2 } cs)
  | .warp s tf d a =>
    nestOver (className kind (.warp s tf d a)) { dsize := some d, transform := some tf, algo := some a }
      (nesting kind s)
  | .crop s y0 y1 x0 x1 c =>
    match conciseText (c.bind fun c => written (.crop s y0 y1 x0 x1 (some c))) with
    | .error e => .error e
    | .ok names =>
      nestOver (className kind (.crop s y0 y1 x0 x1 c))
        { channels := names, numChannels := c.map List.length, dsize := some (x1 - x0, y1 - y0)
          slices := some (y0, y1, x0, x1), chanIdxs := c } (nesting kind s)
  | .overview s k d =>
    nestOver (className kind (.overview s k d)) { dsize := some d, overview := some k } (nesting kind s)
  | .dequant s q d =>
    nestOver (className kind (.dequant s q d)) { dsize := some d, quantization := some q } (nesting kind s)
/-- The list comprehension, delayed_base.py:115. -/
def nestingL (kind : Leaf → LeafClass) : List Node → Py (List Nest)
  | [] => .ok []
  | p :: ps =>
    match nesting kind p with
    | .error e => .error e
    | .ok c =>
      match nestingL kind ps with
      | .error e => .error e
      | .ok cs => .ok (c :: cs)
end

end Tree
end Verif
