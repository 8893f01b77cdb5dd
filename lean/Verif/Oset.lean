/-
Model of the ordered-set helpers and of `path_sanitize` in `delayed_image/channel_spec.py`.
-/
import Verif.Chan
import Mathlib.Data.List.Sort

namespace Verif

/-! ### subsequence_index -/

/-- `oset1.index(item)`: position of the item, `none` for a `KeyError`. -/
def indexOf? {α} [DecidableEq α] (l : List α) (x : α) : Option Nat :=
  if x ∈ l then some (l.idxOf x) else none

/-- `subsequence_index`, channel_spec.py:1749-1785, on the item lists of two ordered sets.  The
result is the slice `(start, stop)` or `None`. -/
def subsequenceIndex {α} [DecidableEq α] (a b : List α) : Option (Nat × Nat) :=
  let base := match b with
    | [] => some 0
    | item1 :: _ => indexOf? a item1
  match base with
  | none => none
  | some base =>
    if (a.take (base + b.length)).drop base = b then some (base, base + b.length) else none

/-! ### oset_insert / oset_delitem -/

/-- The two tables of `ub.OrderedSet`. -/
structure OSet (α : Type) where
  items : List α
  map : List (α × Int)
deriving DecidableEq, Repr

namespace OSet
variable {α : Type} [DecidableEq α]

/-- `OrderedSet(items)` for distinct items. -/
def ofList (l : List α) : OSet α := ⟨l, l.zipIdx.map (fun p => (p.1, (p.2 : Int)))⟩

/-- `list.insert(index, obj)`. -/
def listInsert (l : List α) (i : Int) (x : α) : List α :=
  l.take (Fused.clampIdx l.length i) ++ x :: l.drop (Fused.clampIdx l.length i)

/-- `self.map[key] = self.map[key] + 1` for every listed key, channel_spec.py:1935-1936. -/
def bump (m : List (α × Int)) (keys : List α) : List (α × Int) :=
  m.map (fun p => if p.1 ∈ keys then (p.1, p.2 + 1) else p)

/-- `oset_insert`, channel_spec.py:1922-1938 (the keys of `items[index:]` are distinct, so the loop
bumps each of them once). -/
def insert (s : OSet α) (i : Int) (x : α) : OSet α :=
  if (dictGet s.map x).isSome then s
  else ⟨listInsert s.items i x, dictSet (bump s.map (Fused.pySlice s.items (some i) none)) x i⟩

/-- `del m[k]`. -/
def dictDel (m : List (α × Int)) (k : α) : List (α × Int) := m.filter (fun p => decide (p.1 ≠ k))

/-- `OrderedSet.discard` (ubelt), used by channel_spec.py:1986. -/
def discard (s : OSet α) (k : α) : OSet α :=
  match dictGet s.map k with
  | none => s
  | some i => ⟨s.items.eraseIdx i.toNat,
      (dictDel s.map k).map (fun p => if p.2 ≥ i then (p.1, p.2 - 1) else p)⟩

/-- `for key in to_remove: del self.map[key]`, channel_spec.py:1974-1975; stops at a missing
key. -/
def delKeys (m : List (α × Int)) : List α → List (α × Int) × Option PyErr
  | [] => (m, none)
  | k :: ks => match dictGet m k with
    | none => (m, some .keyError)
    | some _ => delKeys (dictDel m k) ks

/-- `[self.map[key] for key in to_remove]`. -/
def lookupIdx (m : List (α × Int)) : List α → Py (List Int)
  | [] => .ok []
  | k :: ks => match dictGet m k with
    | none => .error .keyError
    | some v => do
      let vs ← lookupIdx m ks
      .ok (v :: vs)

/-- channel_spec.py:1967-1984: remove several items.  Returns the new state and the exception that
escapes, if any (the state may then be half updated). -/
def removeMany (s : OSet α) (toRemove : List α) : OSet α × Option PyErr :=
  match lookupIdx s.map toRemove with
  | .error e => (s, some e)
  | .ok idxs =>
    let removeIdxs := idxs.insertionSort (· ≥ ·)
    match delKeys s.map toRemove with
    | (m, some e) => (⟨s.items, m⟩, some e)
    | (m, none) =>
      (⟨removeIdxs.foldl (fun l i => l.eraseIdx i.toNat) s.items,
        m.map (fun p => (p.1, p.2 - (removeIdxs.countP (fun i => decide (i ≤ p.2)) : Int)))⟩, none)

/-- `oset_delitem` with an integer, channel_spec.py:1960-1961 and 1986. -/
def delInt (s : OSet α) (i : Int) : OSet α × Option PyErr :=
  match Fused.pyIndex s.items i with
  | .error e => (s, some e)
  | .ok x => (s.discard x, none)

/-- `oset_delitem` with a list of integers, channel_spec.py:1958-1959. -/
def delList (s : OSet α) (is : List Int) : OSet α × Option PyErr :=
  match Fused.pyTake s.items is with
  | .error e => (s, some e)
  | .ok xs => s.removeMany xs

/-- `oset_delitem` with a slice of step one, channel_spec.py:1955-1961. -/
def delSlice (s : OSet α) (a b : Option Int) : OSet α × Option PyErr :=
  if a = none ∧ b = none then (⟨[], []⟩, none) else s.removeMany (Fused.pySlice s.items a b)

end OSet

/-! ### path_sanitize -/

/-- `str.replace` of a one character pattern. -/
def replaceChar (k : Char) (v : Str) (s : Str) : Str := s.flatMap (fun c => if c = k then v else [c])

/-- `illegal_character_mapping`, channel_spec.py:1894-1901. -/
def illegalMapping : List (Char × Str) :=
  [('|', p! "_"), ('<', p! "-LT-"), ('>', p! "-GT-"), (':', p! ".."), ('?', p! "_Q_"), ('*', p! "_S_")]

/-- channel_spec.py:1902-1907: replacement loop and the final dot / space rule. -/
def sanitizeText (s : Str) : Str :=
  let n := illegalMapping.foldl (fun acc kv => replaceChar kv.1 kv.2 acc) s
  match n.getLast? with
  | some c => if c = '.' ∨ c = ' ' then n ++ ['_'] else n
  | none => n

/-- `_path_sanitize_v2`, channel_spec.py:1867-1919, with `hash_suffix` a number.  `ub.hash_data` is
an arbitrary function `hash`. -/
def pathSanitizeV2 (hash : Str → Str) (path : Str) (maxlen : Option Int) (suffix : Nat) : Str :=
  let n := sanitizeText path
  match maxlen with
  | none => n
  | some m =>
    if (n.length : Int) > m then
      let hashlen := max 8 (m - 2)
      (hash n).take hashlen.toNat ++ '_' :: natStr suffix
    else n

/-- `path_sanitize` of a fused spec, channel_spec.py:303-336.  `numel()` is always evaluated. -/
def pathSanitize (hash : Str → Str) (f : Fused) (maxlen : Option Int) : Py Str := do
  let n ← f.numel
  .ok (pathSanitizeV2 hash f.spec maxlen n)

end Verif
