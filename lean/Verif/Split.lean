/-
Model of `delayed_image/channel_spec.py`: splitting a spec into single channels, membership, and the shapes of the
items a spec expects.

Sets are lists of their elements.
-/
import Verif.Chan

namespace Verif

namespace Fused

/-- `unique` and `in`, channel_spec.py:444-445 and 726-735: the codes as they are written. -/
def contains (f : Fused) (key : Str) : Bool := decide (key ∈ f.parsed)

/-- `split`, channel_spec.py:904-922. -/
def split (f : Fused) : Py Chan :=
  match f.asList with
  | .error e => .error e
  | .ok l => .ok ⟨joinWith ',' l, none⟩

end Fused

namespace Chan

/-- The loop of `split`, channel_spec.py:1214. -/
def splitLoop : List Fused → Py (List Str)
  | [] => .ok []
  | s :: ss =>
    match s.split with
    | .error e => .error e
    | .ok c =>
      match splitLoop ss with
      | .error e => .error e
      | .ok cs => .ok (c.spec :: cs)

/-- `split`, channel_spec.py:1198-1216. -/
def split (c : Chan) : Py Chan :=
  match splitLoop c.streams with
  | .error e => .error e
  | .ok l => .ok ⟨joinWith ',' l, none⟩

/-- `ub.flatten` of specs: iterating a spec gives its normalized codes (`__getitem__`, channel_spec.py:424-431). -/
def flattenSpecs : List Fused → Py (List Str)
  | [] => .ok []
  | f :: fs =>
    match f.asList with
    | .error e => .error e
    | .ok a =>
      match flattenSpecs fs with
      | .error e => .error e
      | .ok b => .ok (a ++ b)

/-- `unique()`, channel_spec.py:1402-1415. -/
def unique (c : Chan) : Py (List Str) :=
  match c.normalize with
  | .error e => .error e
  | .ok n => flattenSpecs (n.parse.map Prod.snd)

/-- `key in spec`, channel_spec.py:1026-1034. -/
def contains (c : Chan) (key : Str) : Py Bool :=
  match c.unique with
  | .error e => .error e
  | .ok l => .ok (decide (key ∈ l))

/-- `code_list()`, channel_spec.py:1231-1238. -/
def codeList (c : Chan) : Py Fused :=
  match c.parse with
  | [] => .error .generic
  | [(_, f)] => .ok f
  | _ => .error .generic

/-- The loops of `_item_shapes`, channel_spec.py:1430-1434: code and shape, in the order of the assignments. -/
def shapesLoop (d : List (Str × Fused)) (dims : List Nat) : List Str → Py (List (Str × List Nat))
  | [] => .ok []
  | key :: ks =>
    match dictGet d key with
    | none => .error .keyError
    | some f =>
      match f.sizes with
      | .error e => .error e
      | .ok sz =>
        match shapesLoop d dims ks with
        | .error e => .error e
        | .ok r => .ok ((f.parsed.zip sz).map (fun p => (p.1, p.2 :: dims)) ++ r)

/-- `_item_shapes(dims)`, channel_spec.py:1417-1435. -/
def itemShapes (c : Chan) (dims : List Nat) : Py (List (Str × List Nat)) :=
  match shapesLoop c.parse dims c.keys with
  | .error e => .error e
  | .ok items => .ok (dictOf [] items)

end Chan
end Verif
