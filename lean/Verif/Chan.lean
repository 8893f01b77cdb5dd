/-
Model of `delayed_image/channel_spec.py`, class `ChannelSpec` (several streams), encode / decode,
late fusion and the class-level memo of `FusedChannelSpec.coerce`.
-/
import Verif.ChannelSpec

namespace Verif

/-- `d[k] = v` on an insertion ordered Python dict. -/
def dictSet {κ α} [DecidableEq κ] (d : List (κ × α)) (k : κ) (v : α) : List (κ × α) :=
  match d with
  | [] => [(k, v)]
  | (k', v') :: rest => if k' = k then (k, v) :: rest else (k', v') :: dictSet rest k v

/-- `d[k]`, `none` for a `KeyError`. -/
def dictGet {κ α} [DecidableEq κ] (d : List (κ × α)) (k : κ) : Option α :=
  match d with
  | [] => none
  | (k', v') :: rest => if k' = k then some v' else dictGet rest k

/-- Inserting a sequence of items, as a dict comprehension or loop does. -/
def dictOf {κ α} [DecidableEq κ] (d : List (κ × α)) (items : List (κ × α)) : List (κ × α) :=
  items.foldl (fun d p => dictSet d p.1 p.2) d

/-- A `ChannelSpec` object: its string and the optional `parsed` argument of the constructor,
channel_spec.py:1014-1020. -/
structure Chan where
  spec : Str
  pre : Option (List (Str × Fused)) := none
deriving DecidableEq, Repr

namespace Chan

/-- `coerce` of a fused spec, channel_spec.py:1080-1083. -/
def ofFused (f : Fused) : Chan := ⟨f.spec, some [(f.spec, f)]⟩

/-- `from_int`, channel_spec.py:1052-1058. -/
def ofInt (n : Nat) : Chan := ⟨joinWith '|' ((List.range n).map (fun i => 'u' :: natStr i)), none⟩

/-- `parse`, channel_spec.py:1097-1122 (caching of the result is not observable, it depends on
the immutable string only). -/
def parse (c : Chan) : List (Str × Fused) :=
  match c.pre with
  | some d => d
  | none =>
    dictOf [] (((splitOn ',' c.spec).filter (fun ss => decide (ss ≠ []))).map
      (fun ss => (ss, (⟨splitOn '|' ss, false⟩ : Fused))))

/-- `keys`, channel_spec.py:1164-1168. -/
def keys (c : Chan) : List Str := splitOn ',' c.spec

/-- `streams`, channel_spec.py:1218-1229.  `FusedChannelSpec.coerce` of a string is `parse` of the
string; the memo is treated in `Memo` below. -/
def streams (c : Chan) : List Fused := c.keys.map Fused.parse

/-- `fuse`, channel_spec.py:1176-1196. -/
def fuse (c : Chan) : Fused :=
  match c.streams with
  | [p] => p
  | ps => ⟨(ps.map (·.parsed)).flatten, false⟩

/-- Loop of `normalize`/`concise`, channel_spec.py:1131-1135 and 1155-1159. -/
def mapStreams (g : Fused → Py Fused) : List (Str × Fused) → List (Str × Fused) →
    Py (List (Str × Fused))
  | acc, [] => .ok acc
  | acc, (_, v1) :: rest => do
    let v ← g v1
    mapStreams g (dictSet acc v.spec v) rest

/-- `concise`, channel_spec.py:1124-1138. -/
def concise (c : Chan) : Py Chan := do
  let d ← mapStreams Fused.concise [] c.parse
  .ok ⟨joinWith ',' (d.map Prod.fst), some d⟩

/-- `normalize`, channel_spec.py:1140-1162. -/
def normalize (c : Chan) : Py Chan := do
  let d ← mapStreams Fused.normalize [] c.parse
  .ok ⟨joinWith ',' (d.map Prod.fst), some d⟩

/-- Loop of `sizes`, channel_spec.py:1399. -/
def sizesLoop : List (Str × Fused) → Py (List (Str × Nat))
  | [] => .ok []
  | (k, v) :: rest => do
    let n ← v.numel
    let ns ← sizesLoop rest
    .ok ((k, n) :: ns)

/-- `sizes`, channel_spec.py:1386-1400. -/
def sizes (c : Chan) : Py (List (Str × Nat)) := sizesLoop c.parse

/-- `numel`, channel_spec.py:1380-1384. -/
def numel (c : Chan) : Py Nat := do
  let s ← c.sizes
  .ok (s.map Prod.snd).sum

/-- The stream loop of `difference` / `intersection`, channel_spec.py:1285-1289. -/
def filterStreams (op : Fused → Py Fused) : List Fused → Py (List Fused)
  | [] => .ok []
  | p :: ps => do
    let n ← op p
    let ns ← filterStreams op ps
    .ok (if n.parsed = [] then ns else n :: ns)

/-- `difference`, channel_spec.py:1254-1292, `other` a `ChannelSpec`. -/
def difference (c o : Chan) : Py Chan := do
  let sn ← c.normalize
  let new ← filterStreams (fun p => p.difference (.spec o.fuse)) (sn.parse.map Prod.snd)
  .ok ⟨joinWith ',' (new.map Fused.spec), none⟩

/-- `parts.intersection(other_norm)`, channel_spec.py:1329, 818-825.  If the fused `other` can not be normalized,
`set(other)` of the `ChannelSpec` raises `TypeError`. -/
def meet (o p : Fused) : Py Fused :=
  match o.asList with
  | .ok _ => p.intersection (.spec o)
  | .error _ => do
    let _ ← p.asList
    .error .typeError

/-- `intersection`, channel_spec.py:1294-1334, `other` a `ChannelSpec`. -/
def intersection (c o : Chan) : Py Chan := do
  let sn ← c.normalize
  let new ← filterStreams (meet o.fuse) (sn.parse.map Prod.snd)
  .ok ⟨joinWith ',' (new.map Fused.spec), none⟩

/-- `union`, channel_spec.py:1336-1368; if `other.normalize()` raises, the streams of `other` are
used as they are. -/
def union (c o : Chan) : Py Chan := do
  let on := match o.normalize with
    | .ok n => n.parse.map Prod.snd
    | .error _ => o.parse.map Prod.snd
  let sn ← c.normalize
  .ok ⟨joinWith ',' ((sn.parse.map Prod.snd ++ on).map Fused.spec), none⟩

/-- Inner loop of `component_indices`, channel_spec.py:1657-1662: `(part, (key, idx1, idx2))`. -/
def componentLoop (key : Str) (idx1 : Nat) : List (Str × Nat) → List (Str × Str × Nat × Nat)
  | [] => []
  | (part, size) :: rest => (part, key, idx1, idx1 + size) :: componentLoop key (idx1 + size) rest

/-- Outer loop of `component_indices`, channel_spec.py:1655-1662. -/
def componentItems : List (Str × Fused) → Py (List (Str × Str × Nat × Nat))
  | [] => .ok []
  | (key, parts) :: rest => do
    let sz ← parts.sizes
    let r ← componentItems rest
    .ok (componentLoop key 0 (parts.parsed.zip sz) ++ r)

/-- `component_indices`, channel_spec.py:1638-1663: dict from code to `(key, slice)`; the
`slice(None)` entries of the other axes are left out. -/
def componentIndices (c : Chan) : Py (List (Str × Str × Nat × Nat)) := do
  let items ← componentItems c.parse
  .ok (dictOf [] items)

/-! #### encode / decode.  An array is the list of its slabs along the channel axis. -/

/-- `arr[..., a:b]` along the channel axis (`0 ≤ a`, `0 ≤ b`). -/
def rows {α} (arr : List α) (a b : Nat) : List α := (arr.take b).drop a

/-- Inner loop of `decode`, channel_spec.py:1627-1635. -/
def decodeLoop {α} (arr : List α) (idx1 : Nat) : List (Str × Nat) → List (Str × List α)
  | [] => []
  | (part, size) :: rest => (part, rows arr idx1 (idx1 + size)) :: decodeLoop arr (idx1 + size) rest

/-- Outer loop of `decode`, channel_spec.py:1626-1635.  `inputs[key]` is only evaluated when the
stream has a code. -/
def decodeItems {α} (inputs : List (Str × List α)) : List (Str × Fused) → Py (List (Str × List α))
  | [] => .ok []
  | (key, parts) :: rest => do
    let sz ← parts.sizes
    let here ← if parts.parsed.zip sz = [] then .ok [] else
      match dictGet inputs key with
      | none => .error .keyError
      | some arr => .ok (decodeLoop arr 0 (parts.parsed.zip sz))
    let r ← decodeItems inputs rest
    .ok (here ++ r)

/-- `decode`, channel_spec.py:1584-1636. -/
def decode {α} (c : Chan) (inputs : List (Str × List α)) : Py (List (Str × List α)) := do
  let items ← decodeItems inputs c.parse
  .ok (dictOf [] items)

/-- Lexicographic order of Python strings. -/
def strLe : Str → Str → Bool
  | [], _ => true
  | _ :: _, [] => false
  | a :: as, b :: bs => if a = b then strLe as bs else decide (a < b)

/-- Insertion of a string into a sorted list. -/
def insertStr (x : Str) : List Str → List Str
  | [] => [x]
  | y :: ys => if strLe x y then x :: y :: ys else y :: insertStr x ys

/-- `sorted(keys)`. -/
def sortStr (l : List Str) : List Str := l.foldr insertStr []

/-- channel_spec.py:1668-1672: where each code of the item is stored. -/
def itemIndices : List (Str × Str × Nat × Nat) → List Str → Py (List (Str × Str × Nat × Nat))
  | acc, [] => .ok acc
  | acc, key :: ks => do
    let d ← componentIndices ⟨key, none⟩
    itemIndices (dictOf acc d) ks

/-- `[item_indices[k] for k in parts]`, channel_spec.py:1676. -/
def lookupAll {α} (d : List (Str × α)) : List Str → Py (List α)
  | [] => .ok []
  | k :: ks => match dictGet d k with
    | none => .error .keyError
    | some v => do
      let vs ← lookupAll d ks
      .ok (v :: vs)

/-- State of the merge loop, channel_spec.py:1682-1686: `prev_key, prev_sl`, `accepted`,
`accum`. -/
structure MState where
  prev : Option (Str × Nat × Nat)
  accepted : List (List (Str × Nat × Nat))
  accum : List (Str × Nat × Nat)

/-- One iteration, channel_spec.py:1687-1700.  All slices have step `None`. -/
def mergeStep (st : MState) (e : Str × Nat × Nat) : MState :=
  match st.prev with
  | some p =>
    if p.1 = e.1 ∧ p.2.2 = e.2.1 then { st with accum := st.accum ++ [e] }
    else if st.accum = [] then ⟨some e, st.accepted, [e]⟩
    else ⟨some e, st.accepted ++ [st.accum], [e]⟩
  | none =>
    if st.accum = [] then ⟨some e, st.accepted, [e]⟩
    else ⟨some e, st.accepted ++ [st.accum], [e]⟩

/-- channel_spec.py:1682-1703: groups of slices to merge. -/
def mergeGroups (l : List (Str × Nat × Nat)) : List (List (Str × Nat × Nat)) :=
  let st := l.foldl mergeStep ⟨none, [], []⟩
  if st.accum = [] then st.accepted else st.accepted ++ [st.accum]

/-- channel_spec.py:1707-1719: one slice from a group. -/
def mergeGroup : List (Str × Nat × Nat) → Option (Str × Nat × Nat)
  | [] => none
  | [e] => some e
  | e :: es => some (e.1, e.2.1, ((e :: es).getLastD e).2.2)

/-- channel_spec.py:1706-1720. -/
def mergeSlices (l : List (Str × Nat × Nat)) : List (Str × Nat × Nat) :=
  (mergeGroups l).filterMap mergeGroup

/-- `parts = [item[item_key][item_sl] ...]`, channel_spec.py:1556-1558. -/
def readSlices {α} (item : List (Str × List α)) : List (Str × Nat × Nat) → Py (List (List α))
  | [] => .ok []
  | (k, a, b) :: rest => match dictGet item k with
    | none => .error .keyError
    | some arr => do
      let r ← readSlices item rest
      .ok (rows arr a b :: r)

/-- `_impl.cat(parts, axis)`: an empty list of arrays raises `ValueError`. -/
def cat {α} : List (List α) → Py (List α)
  | [] => .error .valueError
  | ps => .ok ps.flatten

/-- channel_spec.py:1554-1562. -/
def encodeStreams {α} (item : List (Str × List α)) (idx : List (Str × Str × Nat × Nat)) :
    List (Str × Fused) → Py (List (Str × List α))
  | [] => .ok []
  | (key, v) :: rest => do
    let idxList ← lookupAll idx v.parsed
    let parts ← readSlices item (mergeSlices idxList)
    let arr ← cat parts
    let r ← encodeStreams item idx rest
    .ok ((key, arr) :: r)

/-- `encode` with `mode=1`, channel_spec.py:1463-1562, and `_cached_single_fused_mapping`,
channel_spec.py:1667-1722 (the `lru_cache` has no observable effect, the function is pure).
Simplification: the resulting dict is listed in the order of the streams instead of the sorted
order of channel_spec.py:1547. -/
def encode {α} (c : Chan) (item : List (Str × List α)) : Py (List (Str × List α)) :=
  if item = [] then .error .valueError
  else do
    let idx ← itemIndices [] (sortStr (item.map Prod.fst))
    encodeStreams item idx c.parse

/-- channel_spec.py:1566-1572 (`mode=0`): decode every item array. -/
def components0 {α} (item : List (Str × List α)) :
    List (Str × List α) → List (Str × List α) → Py (List (Str × List α))
  | acc, [] => .ok acc
  | acc, (key, arr) :: rest => do
    let d ← decode ⟨key, none⟩ [(key, arr)]
    components0 item (dictOf acc d) rest

/-- channel_spec.py:1574-1578 (`mode=0`).  Iterating a fused spec goes through `__getitem__`,
i.e. over the normalized codes. -/
def encodeStreams0 {α} (comps : List (Str × List α)) :
    List (Str × Fused) → Py (List (Str × List α))
  | [] => .ok []
  | (key, v) :: rest => do
    let codes ← v.asList
    let parts ← lookupAll comps codes
    let arr ← cat parts
    let r ← encodeStreams0 comps rest
    .ok ((key, arr) :: r)

/-- `encode` with `mode=0`, channel_spec.py:1563-1578. -/
def encode0 {α} (c : Chan) (item : List (Str × List α)) : Py (List (Str × List α)) :=
  if item = [] then .error .valueError
  else do
    let comps ← components0 item [] item
    encodeStreams0 comps c.parse

end Chan

/-! ### Late fusion -/

/-- A channel spec of either class. -/
inductive AnySpec where
  | fused (f : Fused)
  | chan (c : Chan)
deriving DecidableEq, Repr

namespace AnySpec

/-- `.spec` of either class, channel_spec.py:440-441 and 1023-1024. -/
def spec : AnySpec → Str
  | .fused f => f.spec
  | .chan c => c.spec

/-- `ChannelSpec.coerce` of either class, channel_spec.py:1078-1083. -/
def toChan : AnySpec → Chan
  | .fused f => Chan.ofFused f
  | .chan c => c

/-- `late_fuse` (and `+`) with another spec, channel_spec.py:254-293. -/
def lateFuse (a b : AnySpec) : AnySpec :=
  if a.spec = [] then b
  else if b.spec = [] then a
  else .chan ⟨a.spec ++ ',' :: b.spec, none⟩

/-- The value returned by `late_fuse` with a string: a spec, or the string itself. -/
inductive FuseResult where
  | spec (s : AnySpec)
  | str (s : Str)
deriving DecidableEq, Repr

/-- `late_fuse` with a string, channel_spec.py:279-287: `other_spec` is bound to the type `str`
(always true in a condition), so the concatenation raises a `TypeError`. -/
def lateFuseStr (a : AnySpec) (s : Str) : Py FuseResult :=
  if a.spec = [] then .ok (.str s) else .error .typeError

/-- `sum(specs)`: starts with `0 + a`, which is `a.__radd__(0)`, channel_spec.py:295-301. -/
def sumSpecs : List AnySpec → Option AnySpec
  | [] => none
  | a :: rest => some (rest.foldl lateFuse a)

end AnySpec

/-! ### The memo of `FusedChannelSpec.coerce` -/

/-- Keys of the memo.  Python hashes `2` and `2.0` alike, so numbers share one key space. -/
inductive MemoKey where
  | str (s : Str)
  | num (n : Int)
deriving DecidableEq, Repr

/-- Argument of `FusedChannelSpec.coerce`.  A float is only modelled when it has an integral
value (`float n` is the Python float `n.0`). -/
inductive CoerceArg where
  | str (s : Str)
  | int (n : Int)
  | float (n : Int)
  | list (l : List Str)
  | spec (f : Fused)
  | chan (c : Chan)
  | none
deriving DecidableEq, Repr

/-- The class attribute `_memo`, channel_spec.py:395. -/
abbrev Memo := List (MemoKey × Fused)

namespace Memo

/-- `from_spec`, channel_spec.py:461-469. -/
def fromSpec (m : Memo) (s : Str) : Fused × Memo :=
  match dictGet m (.str s) with
  | some f => (f, m)
  | none => let f := Fused.parse s; (f, dictSet m (.str s) f)

/-- `from_int`, channel_spec.py:472-483 (`range` of a negative number is empty). -/
def fromInt (m : Memo) (n : Int) : Fused × Memo :=
  match dictGet m (.num n) with
  | some f => (f, m)
  | none => let f := Fused.fromInt n.toNat; (f, dictSet m (.num n) f)

/-- The memo key of an argument, channel_spec.py:496-500; unhashable arguments (lists, specs) and
arguments that are never stored have none. -/
def key? : CoerceArg → Option MemoKey
  | .str s => some (.str s)
  | .int n => some (.num n)
  | .float n => some (.num n)
  | _ => Option.none

/-- channel_spec.py:501-530, after a memo miss. -/
def coerceMiss (m : Memo) : CoerceArg → Py Fused × Memo
  | .list l => (.ok ⟨l, false⟩, m)
  | .str s => let r := fromSpec m s; (.ok r.1, r.2)
  | .spec f => (.ok f, m)
  | .chan c => match c.parse with
    | [(_, f)] => (.ok ⟨f.parsed, false⟩, m)
    | _ => (.error .valueError, m)
  | .int n => let r := fromInt m n; (.ok r.1, r.2)
  | .float _ => (.error .typeError, m)
  | .none => (.error .typeError, m)

/-- `coerce`, channel_spec.py:486-530: result and new memo. -/
def coerce (m : Memo) (a : CoerceArg) : Py Fused × Memo :=
  match (key? a).bind (dictGet m) with
  | some f => (.ok f, m)
  | Option.none => coerceMiss m a

/-- Calls that touch the memo.  `normalizeEntry k` is a call of `normalize` (directly, or through
`numel`, indexing, set operations...) on the object stored under `k`: it may set the object's
flag. -/
inductive Op where
  | coerce (a : CoerceArg)
  | fromSpec (s : Str)
  | fromInt (n : Int)
  | normalizeEntry (k : MemoKey)

/-- The memo after one call. -/
def step (m : Memo) : Op → Memo
  | .coerce a => (coerce m a).2
  | .fromSpec s => (fromSpec m s).2
  | .fromInt n => (fromInt m n).2
  | .normalizeEntry k => match dictGet m k with
    | some f => dictSet m k f.noteNormalized
    | none => m

/-- The memo after a history of calls. -/
def run (ops : List Op) : Memo := ops.foldl step []

end Memo

end Verif
