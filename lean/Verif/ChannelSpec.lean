/-
Model of `delayed_image/channel_spec.py`, class `FusedChannelSpec`.
-/
import Verif.Py

namespace Verif

/-- `FusedChannelSpec._alias_lut`, channel_spec.py:387-392. -/
def alias? (v : Str) : Option (List Str) :=
  if v = p! "rgb" then some [p! "r", p! "g", p! "b"]
  else if v = p! "rgba" then some [p! "r", p! "g", p! "b", p! "a"]
  else if v = p! "dxdy" then some [p! "dx", p! "dy"]
  else if v = p! "fxfy" then some [p! "fx", p! "fy"]
  else none

/-- A `FusedChannelSpec` object, channel_spec.py:399-406: the code list and the
`_is_normalized` flag. -/
structure Fused where
  parsed : List Str
  isNorm : Bool := false
deriving DecidableEq, Repr

/-- `int(x) if x else d` on an optional slice argument (channel_spec.py:1846-1852). -/
def intOr (d : Int) (s : Str) : Py Int := if s = [] then .ok d else pyInt s

/-- `int(x) if x else None`, channel_spec.py:1847. -/
def intOrNone (s : Str) : Py (Option Int) :=
  if s = [] then .ok none else (pyInt s).map some

/-- channel_spec.py:1841-1854: the slice arguments to `start, stop, step`, where a missing
stop is `none`. -/
def sliceArgs : List Str → Py (Int × Option Int × Int)
  | [b] => do
    let stop ← pyInt b
    .ok (0, some stop, 1)
  | [a, b] => do
    let start ← intOr 0 a
    let stop ← intOrNone b
    .ok (start, stop, 1)
  | [a, b, c] => do
    let start ← intOr 0 a
    let stop ← intOrNone b
    let step ← intOr 1 c
    .ok (start, stop, step)
  | _ => .error .valueError

/-- `root` and `slice_args` of a code, channel_spec.py:1831-1840.  The second `none` cannot
happen when `v` contains ':' (unpacking a one element list would be a `ValueError`). -/
def sliceParts (v : Str) : Py (Str × List Str) :=
  match splitOnce '.' v with
  | some (root, suf) =>
    let args := splitOn ':' suf
    if args.length ≤ 1 then .error .valueError else .ok (root, args)
  | none =>
    match splitOnce ':' v with
    | some (root, suf) => .ok (root, splitOn ':' suf)
    | none => .error .valueError

/-- `_parse_concise_slice_syntax`, channel_spec.py:1788-1864. -/
def parseSlice (v : Str) : Py (Str × Int × Int × Int) := do
  let (root, args) ← sliceParts v
  let (start, stop?, step) ← sliceArgs args
  match stop? with
  | none => .error .valueError
  | some stop =>
    if '.' ∈ root ∨ ':' ∈ root then .error .valueError
    else .ok (root, start, stop, step)

/-- `'{}.{}'.format(root, idx)`. -/
def dotted (root : Str) (i : Int) : Str := root ++ '.' :: intStr i

/-- Body of the loop of `normalize`, channel_spec.py:664-676: the codes one code expands to. -/
def expandCode (v : Str) : Py (List Str) :=
  match alias? v with
  | some l => .ok l
  | none =>
    if ':' ∈ v then do
      let (root, start, stop, step) ← parseSlice v
      let idxs ← pyRange start stop step
      .ok (idxs.map (dotted root))
    else .ok [v]

/-- The loop of `normalize`, channel_spec.py:662-676. -/
def normParts : List Str → Py (List Str)
  | [] => .ok []
  | v :: vs => do
    let a ← expandCode v
    let b ← normParts vs
    .ok (a ++ b)

/-- Whether the loop sets `needed_normalization`, channel_spec.py:663-676. -/
def needsNorm (v : Str) : Bool := (alias? v).isSome || decide (':' ∈ v)

namespace Fused

/-- `normalize`, channel_spec.py:631-684.  The Python method also sets the flag of `self` when
nothing had to be expanded; that side effect is `noteNormalized` below. -/
def normalize (f : Fused) : Py Fused :=
  if f.isNorm then .ok f
  else do
    let ps ← normParts f.parsed
    if f.parsed.any needsNorm then .ok ⟨ps, true⟩ else .ok ⟨f.parsed, true⟩

/-- State of `self` after a call to `self.normalize()`: channel_spec.py:678-682. -/
def noteNormalized (f : Fused) : Fused :=
  if f.isNorm then f
  else match normParts f.parsed with
    | .error _ => f
    | .ok _ => if f.parsed.any needsNorm then f else ⟨f.parsed, true⟩

/-- One entry of `sizes`, channel_spec.py:714-723. -/
def codeSize (v : Str) : Py Nat :=
  match alias? v with
  | some l => .ok l.length
  | none =>
    if ':' ∈ v then do
      let (_, start, stop, step) ← parseSlice v
      pyRangeLen start stop step
    else .ok 1

/-- Loop of `sizes`, channel_spec.py:713-724. -/
def sizesLoop : List Str → Py (List Nat)
  | [] => .ok []
  | v :: vs => do
    let n ← codeSize v
    let ns ← sizesLoop vs
    .ok (n :: ns)

/-- `sizes`, channel_spec.py:695-724. -/
def sizes (f : Fused) : Py (List Nat) :=
  if f.isNorm then .ok (List.replicate f.parsed.length 1) else sizesLoop f.parsed

/-- `numel`, channel_spec.py:686-693. -/
def numel (f : Fused) : Py Nat :=
  if f.isNorm then .ok f.parsed.length else (sizes f).map List.sum

/-- `as_list` (`to_list`), channel_spec.py:752-753. -/
def asList (f : Fused) : Py (List Str) := do
  let n ← f.normalize
  .ok n.parsed

/-- `concat`, channel_spec.py:434-437. -/
def concat (items : List Fused) : Fused := ⟨(items.map (·.parsed)).flatten, false⟩

/-- `spec`, channel_spec.py:440-441. -/
def spec (f : Fused) : Str := joinWith '|' f.parsed

/-- `parse`, channel_spec.py:448-453. -/
def parse (s : Str) : Fused := if s = [] then ⟨[], false⟩ else ⟨splitOn '|' s, false⟩

/-- A fresh `from_int`, channel_spec.py:481. -/
def fromInt (n : Nat) : Fused := ⟨(List.range n).map (fun i => 'u' :: natStr i), false⟩

/-! #### concise -/

/-- `format_ready`, channel_spec.py:567-574. -/
def formatReady (r : Str) (start stop : Int) : Str :=
  if start + 1 = stop then r ++ '.' :: intStr start
  else if start = 0 then r ++ ':' :: intStr stop
  else r ++ '.' :: (intStr start ++ ':' :: intStr stop)

/-- Loop state of `concise`, channel_spec.py:561-565: emitted parts and the open run
`(accum_root, accum_start, accum_stop)`.  `ready` is always consumed within one iteration. -/
structure CState where
  parts : List Str
  acc : Option (Str × Int × Int)
deriving DecidableEq, Repr

/-- `root, index_suffix = part.split('.')`, channel_spec.py:583: exactly two pieces. -/
def splitTwo (part : Str) : Py (Str × Str) :=
  match splitOn '.' part with
  | [a, b] => .ok (a, b)
  | _ => .error .valueError

/-- One iteration of the loop of `concise`, channel_spec.py:576-621. -/
def conciseStep (st : CState) (part : Str) : Py CState :=
  if '.' ∈ part then do
    let (root, suf) ← splitTwo part
    let index ← pyInt suf
    match st.acc with
    | some (r, a, b) =>
      if r = root then
        if index = b then .ok ⟨st.parts, some (r, a, index + 1)⟩
        else .ok ⟨st.parts ++ [formatReady r a b], some (root, index, index + 1)⟩
      else .ok ⟨st.parts ++ [formatReady r a b], some (root, index, index + 1)⟩
    | none => .ok ⟨st.parts, some (root, index, index + 1)⟩
  else
    match st.acc with
    | some (r, a, b) => .ok ⟨st.parts ++ [formatReady r a b, part], none⟩
    | none => .ok ⟨st.parts ++ [part], none⟩

/-- The loop, channel_spec.py:576. -/
def conciseLoop (st : CState) : List Str → Py CState
  | [] => .ok st
  | p :: ps => do
    let st' ← conciseStep st p
    conciseLoop st' ps

/-- channel_spec.py:623-626: flush the open run. -/
def CState.flush (st : CState) : List Str :=
  match st.acc with
  | some (r, a, b) => st.parts ++ [formatReady r a b]
  | none => st.parts

/-- `concise`, channel_spec.py:532-629. -/
def concise (f : Fused) : Py Fused := do
  let n ← f.normalize
  let st ← conciseLoop ⟨[], none⟩ n.parsed
  .ok ⟨st.flush, false⟩

/-! #### set operations -/

/-- `ub.oset(items)`: insertion ordered set (modelled from its documentation). -/
def osetAdd {α} [DecidableEq α] (acc : List α) (x : α) : List α :=
  if x ∈ acc then acc else acc ++ [x]

/-- `ub.oset(items)` as the list of its elements. -/
def oset {α} [DecidableEq α] (l : List α) : List α := l.foldl osetAdd []

/-- The `other` argument of the set operations: another spec, or a raw list of codes (used as
is when `other.normalize()` raises, channel_spec.py:801-804). -/
inductive Other where
  | spec (f : Fused)
  | codes (l : List Str)

/-- `other_norm`: normalized codes of `other`.  A spec whose `normalize` raises falls back to the
spec object itself, which `oset` operators reject with `TypeError`. -/
def Other.norm : Other → Py (List Str)
  | .spec f => match f.asList with
    | .ok l => .ok l
    | .error _ => .error .typeError
  | .codes l => .ok l

/-- `difference`, channel_spec.py:786-808. -/
def difference (f : Fused) (o : Other) : Py Fused := do
  let sn ← f.asList
  let on ← o.norm
  .ok ⟨(oset sn).filter (fun c => decide (c ∉ on)), true⟩

/-- `_other_parsed_set`, channel_spec.py:818-825.  When `other.normalize()` raises, `set(other)`
iterates the spec through `__getitem__`, which raises the same exception again. -/
def Other.normIter : Other → Py (List Str)
  | .spec g => g.asList
  | .codes l => .ok l

/-- `intersection`, channel_spec.py:810-830. -/
def intersection (f : Fused) (o : Other) : Py Fused := do
  let sn ← f.asList
  let on ← o.normIter
  .ok ⟨sn.filter (fun c => decide (c ∈ on)), true⟩

/-- `union`, channel_spec.py:832-848. -/
def union (f : Fused) (o : Other) : Py Fused := do
  let sn ← f.asList
  let on ← o.norm
  .ok ⟨on.foldl osetAdd (oset sn), true⟩

/-- `OrderedSet.issubset` (ubelt) with its check of the lengths. -/
def osetSubset (a b : List Str) : Bool :=
  if b.length < a.length then false else a.all (fun c => decide (c ∈ b))

/-- `OrderedSet.issuperset` (ubelt) with its check of the lengths. -/
def osetSuperset (a b : List Str) : Bool :=
  if a.length < b.length then false else b.all (fun c => decide (c ∈ a))

/-- `issubset`, channel_spec.py:850-856.  A spec whose `normalize` raises is used as it is: its length is
the number of its codes (408-422), membership looks at its codes (726-735). -/
def issubset (f : Fused) (o : Other) : Py Bool := do
  let sn ← f.asList
  match o with
  | .codes l => .ok (osetSubset (oset sn) l)
  | .spec g => match g.asList with
    | .ok m => .ok (osetSubset (oset sn) (oset m))
    | .error _ => .ok (osetSubset (oset sn) g.parsed)

/-- `issuperset`, channel_spec.py:858-864.  A spec whose `normalize` raises is iterated through `__getitem__`
(424-431), which raises again, unless it is refused by its length. -/
def issuperset (f : Fused) (o : Other) : Py Bool := do
  let sn ← f.asList
  match o with
  | .codes l => .ok (osetSuperset (oset sn) l)
  | .spec g => match g.asList with
    | .ok m => .ok (osetSuperset (oset sn) (oset m))
    | .error e => if (oset sn).length < g.parsed.length then .ok false else .error e

/-! #### indexing -/

/-- Python's `lst[i]` with an integer index. -/
def pyIndex {α} (l : List α) (i : Int) : Py α :=
  let j := if i < 0 then i + l.length else i
  if j < 0 then .error .indexError
  else match l[j.toNat]? with
    | some x => .ok x
    | none => .error .indexError

/-- CPython's `slice.indices` clamping of one bound for a positive step
(`PySlice_AdjustIndices`). -/
def clampIdx (n : Nat) (i : Int) : Nat :=
  if i < 0 then (i + n).toNat else min i.toNat n

/-- Python's `lst[a:b]` with optional bounds and step one. -/
def pySlice {α} (l : List α) (a b : Option Int) : List α :=
  let lo := match a with | some i => clampIdx l.length i | none => 0
  let hi := match b with | some i => clampIdx l.length i | none => l.length
  (l.take hi).drop lo

/-- `ub.take(items, indices)` on a list: `[items[i] for i in indices]`. -/
def pyTake {α} (l : List α) : List Int → Py (List α)
  | [] => .ok []
  | i :: is => do
    let x ← pyIndex l i
    let xs ← pyTake l is
    .ok (x :: xs)

/-- `__getitem__` with an integer, channel_spec.py:424-431. -/
def getInt (f : Fused) (i : Int) : Py Str := do
  let n ← f.normalize
  pyIndex n.parsed i

/-- `__getitem__` with a list of integers, channel_spec.py:428-429. -/
def getList (f : Fused) (is : List Int) : Py Fused := do
  let n ← f.normalize
  let l ← pyTake n.parsed is
  .ok ⟨l, false⟩

/-- `__getitem__` with a slice (step one), channel_spec.py:426-427. -/
def getSlice (f : Fused) (a b : Option Int) : Py Fused := do
  let n ← f.normalize
  .ok ⟨pySlice n.parsed a b, false⟩

/-- `component_indices`, channel_spec.py:866-890, as the list of `(code, start, stop)` in order;
the Python dict keeps the last entry of a repeated code.  The size of a code is looked up in
`_size_lut` (channel_spec.py:397), so only aliases have a size other than one. -/
def componentIndicesFrom (idx1 : Nat) : List Str → List (Str × Nat × Nat)
  | [] => []
  | part :: ps =>
    let size := match alias? part with | some l => l.length | none => 1
    (part, idx1, idx1 + size) :: componentIndicesFrom (idx1 + size) ps

/-- `component_indices`, channel_spec.py:866-890. -/
def componentIndices (f : Fused) : List (Str × Nat × Nat) := componentIndicesFrom 0 f.parsed

end Fused

end Verif
