/-
Naming the channels of images that exist: the `channels` attribute of `DelayedImage` can be assigned.

Objects are kept in a list, the newest one first; an object is named by the number of objects that are older.
Sizes and positions are left out: an object shows a list of bands of files.
-/
import Verif.ChannelSpec

namespace Verif
namespace Rename

/-- What can be assigned or given to a constructor: `None`, a number, a spec (for what is coerced to a spec see
C07). -/
inductive Val where
  | none
  | count (n : Nat)
  | spec (f : Fused)

/-- `meta['channels']` and `meta['num_channels']`. -/
structure Meta where
  chans : Option Fused
  num : Option Nat
deriving DecidableEq, Repr

/-- The setter of `channels` and the same lines of the constructor, delayed_nodes.py:1219-1229 and 1289-1301. -/
def Val.meta : Val → Py Meta
  | .none => .ok ⟨Option.none, Option.none⟩
  | .count n => .ok ⟨Option.none, some n⟩
  | .spec f =>
    match f.normalize with
    | .error e => .error e
    | .ok g =>
      match g.numel with
      | .error e => .error e
      | .ok n => .ok ⟨some f, some n⟩

/-- An image: a leaf with its number of bands; an operation that keeps the channels (warp, overview,
dequantization, crop without `chan_idxs`) or selects some (crop with `chan_idxs`); or a concat, which stores the
number of its channels, delayed_nodes.py:735-741. -/
inductive Thing where
  | leaf (bands : Nat) (m : Meta)
  | keep (sub : Nat) (m : Meta)
  | select (sub : Nat) (idxs : List Int) (m : Meta)
  | concat (parts : List Nat) (num : Option Nat)
deriving DecidableEq, Repr

/-- All values, or `none` if one is missing. -/
def allOf {α : Type} : List (Option α) → Option (List α)
  | [] => some []
  | x :: xs =>
    match x, allOf xs with
    | some a, some as => some (a :: as)
    | _, _ => none

/-- `channels`, delayed_nodes.py:1278-1287 and 754-769. -/
def channels : List Thing → Nat → Option Fused
  | [], _ => none
  | t :: σ, i =>
    if i = σ.length then
      match t with
      | .leaf _ m => m.chans
      | .keep s m => match m.chans with | some f => some f | none => channels σ s
      | .select s _ m => match m.chans with | some f => some f | none => channels σ s
      | .concat ps _ => (allOf (ps.map fun p => channels σ p)).map Fused.concat
    else channels σ i

/-- `num_channels`, delayed_nodes.py:1255-1264, and of a concat 735-741. -/
def numChannels : List Thing → Nat → Option Nat
  | [], _ => none
  | t :: σ, i =>
    if i = σ.length then
      match t with
      | .leaf _ m => m.num
      | .keep s m => match m.num with | some n => some n | none => numChannels σ s
      | .select s _ m => match m.num with | some n => some n | none => numChannels σ s
      | .concat _ n => n
    else numChannels σ i

/-- All results, or the first exception. -/
def seqOf {α : Type} : List (Py α) → Py (List α)
  | [] => .ok []
  | x :: xs =>
    match x with
    | .error e => .error e
    | .ok a =>
      match seqOf xs with
      | .error e => .error e
      | .ok as => .ok (a :: as)

/-- The bands of the array, each with its leaf, `_finalize` of delayed_nodes.py:781-792 and 2718-2735;
`np.concatenate` refuses an empty list. -/
def shows : List Thing → Nat → Py (List (Nat × Nat))
  | [], _ => .error .indexError
  | t :: σ, i =>
    if i = σ.length then
      match t with
      | .leaf b _ => .ok ((List.range b).map fun k => (σ.length, k))
      | .keep s _ => shows σ s
      | .select s idxs _ =>
        match shows σ s with
        | .error e => .error e
        | .ok l => Fused.pyTake l idxs
      | .concat ps _ =>
        if ps = [] then .error .valueError else (seqOf (ps.map fun p => shows σ p)).map List.flatten
    else shows σ i

/-- What a program does with images. -/
inductive Act where
  | leaf (bands : Nat) (v : Val)
  | keep (i : Nat)
  | select (i : Nat) (idxs : List Int)
  | concat (is : List Nat)
  | assign (i : Nat) (v : Val)

/-- Assign to the metadata of an object; a concat has no setter. -/
def setMeta : List Thing → Nat → Meta → Py (List Thing)
  | [], _, _ => .error .indexError
  | t :: σ, i, m =>
    if i = σ.length then
      match t with
      | .leaf b _ => .ok (.leaf b m :: σ)
      | .keep s _ => .ok (.keep s m :: σ)
      | .select s idxs _ => .ok (.select s idxs m :: σ)
      | .concat _ _ => .error .attributeError
    else
      match setMeta σ i m with
      | .error e => .error e
      | .ok σ' => .ok (t :: σ')

/-- The channels of a crop, delayed_nodes.py:2706-2712. -/
def selected (f : Option Fused) (idxs : List Int) : Py Val :=
  match f with
  | none => .ok (.count idxs.length)
  | some f =>
    match f.getList idxs with
    | .error e => .error e
    | .ok g => .ok (.spec g)

/-- One statement.  (An unknown object is an error; which one does not matter.) -/
def step (σ : List Thing) : Act → Py (List Thing)
  | .leaf b v => match v.meta with | .error e => .error e | .ok m => .ok (.leaf b m :: σ)
  | .keep i => if i < σ.length then .ok (.keep i ⟨none, none⟩ :: σ) else .error .indexError
  | .select i idxs =>
    if i < σ.length then
      match selected (channels σ i) idxs with
      | .error e => .error e
      | .ok v => match v.meta with | .error e => .error e | .ok m => .ok (.select i idxs m :: σ)
    else .error .indexError
  | .concat is =>
    if is.all (fun i => decide (i < σ.length)) then
      .ok (.concat is ((allOf (is.map fun i => numChannels σ i)).map List.sum) :: σ)
    else .error .indexError
  | .assign i v => match v.meta with | .error e => .error e | .ok m => setMeta σ i m

/-- A program. -/
def run (σ : List Thing) : List Act → Py (List Thing)
  | [] => .ok σ
  | a :: as =>
    match step σ a with
    | .error e => .error e
    | .ok σ' => run σ' as

end Rename
end Verif
