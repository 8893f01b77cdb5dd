/-
Names that operations have themselves, and what `optimize` does with them.

Every image stores `meta['channels']`; operations leave it empty and take the names of their source, unless
channels are selected or the user assigns names (`image.channels = 'a|b|c'`).  `Opt.lean` has no names except those
of the leaves.  Here every operation of a chain over one leaf carries its own entry, and the rules of `optimize` say
for each node they build whether it is a copy, which keeps the entry, or a new one, which has none.

Not modelled: concats, overviews (the leaves have none), and assigned names whose number differs from the number of
channels.
-/
import Verif.Opt
import Verif.Sem

namespace Verif
namespace Tree

open Helpers Node

/-- A chain of operations over one leaf; `lab` is `meta['channels']` of the operation. -/
inductive Tagged where
  | leaf (l : Leaf)
  | warp (s : Tagged) (tf : Affine) (d : Int × Int) (a : Algo) (lab : Option (List Str))
  | crop (s : Tagged) (y0 y1 x0 x1 : Int) (c : Option (List Nat)) (lab : Option (List Str))
  | deq (s : Tagged) (q : Quantization) (d : Int × Int) (lab : Option (List Str))

namespace Tagged

/-- The operations alone. -/
def bare : Tagged → Node
  | leaf l => .leaf l
  | warp s tf d a _ => .warp s.bare tf d a
  | crop s y0 y1 x0 x1 c _ => .crop s.bare y0 y1 x0 x1 c
  | deq s q d _ => .dequant s.bare q d

/-- `channels`, delayed_nodes.py:1278-1287. -/
def names : Tagged → Option (List Str)
  | leaf l => l.names
  | warp s _ _ _ lab => lab.or s.names
  | crop s _ _ _ _ _ lab => lab.or s.names
  | deq s _ _ lab => lab.or s.names

/-- `image.channels = ns`, delayed_nodes.py:1289-1301. -/
def assign (ns : List Str) : Tagged → Tagged
  | leaf l => leaf { l with names := some ns, nchan := ns.length }
  | warp s tf d a _ => warp s tf d a (some ns)
  | crop s y0 y1 x0 x1 c _ => crop s y0 y1 x0 x1 c (some ns)
  | deq s q d _ => deq s q d (some ns)

/-- `DelayedCrop(sub, space_slice, chan_idxs)`, delayed_nodes.py:2668-2715: with a selection of channels, the names are
stored. -/
def newCrop (s : Tagged) (y0 y1 x0 x1 : Int) (c : Option (List Nat)) : Py Tagged :=
  match c, s.names with
  | some c, some ns =>
    if c.all (fun i => decide (i < ns.length)) then
      let y := normSlice s.bare.dsize.2 (some y0) (some y1)
      let x := normSlice s.bare.dsize.1 (some x0) (some x1)
      .ok (crop s y.1 y.2 x.1 x.2 (some c) (some (pick [] ns c)))
    else .error .indexError
  | c, _ =>
    let y := normSlice s.bare.dsize.2 (some y0) (some y1)
    let x := normSlice s.bare.dsize.1 (some x0) (some x1)
    .ok (crop s y.1 y.2 x.1 x.2 c none)

/-- A leaf of NaNs; the class of the leaf is kept. -/
def nans (l : Leaf) (d : Int × Int) (ns : Option (List Str)) : Tagged :=
  leaf ⟨l.id, d, (ns.map List.length).getD 0, ns, none, true⟩

/-- `DelayedNans._optimized_crop`, delayed_leafs.py:401-432. -/
def cropNans (l : Leaf) (y0 y1 x0 x1 : Int) (c : Option (List Nat)) : Py Tagged :=
  match (match c with
    | none => .ok l.names
    | some c =>
      match l.names with
      | none => .error .assertionError
      | some ns =>
        if c.all (fun i => decide (i < ns.length)) then .ok (some (pick [] ns c)) else .error .indexError :
      Py (Option (List Str))) with
  | .error e => .error e
  | .ok ns =>
    match embedSlice y0 y1 l.dsize.2 0 0 with
    | .error e => .error e
    | .ok (y, _) =>
      match embedSlice x0 x1 l.dsize.1 0 0 with
      | .error e => .error e
      | .ok (x, _) => .ok (nans l (x.2 - x.1, y.2 - y.1) ns)

/-- `DelayedWarp.optimize` once the source is optimized and warps are fused, delayed_nodes.py:2105-2135, without
overviews. -/
def restWarp (H : Heur) (rec : Tagged → Py Tagged) (s : Tagged) (tf : Affine) (d : Int × Int) (a : Algo)
    (lab : Option (List Str)) : Py Tagged :=
  if d = s.bare.dsize ∧ H.negl a.noopEps tf = true then .ok s
  else
    match s with
    | leaf l => if l.nan then rec (nans l d l.names) else .ok (warp s tf d a lab)
    | s => .ok (warp s tf d a lab)

/-- `DelayedWarp.optimize`, delayed_nodes.py:2049-2139: `copy.copy` keeps the names, `_opt_fuse_warps` (2144-2172)
builds a new warp. -/
def optWarp (H : Heur) (rec : Tagged → Py Tagged) (s : Tagged) (tf : Affine) (d : Int × Int) (a : Algo)
    (lab : Option (List Str)) : Py Tagged :=
  match rec s with
  | .error e => .error e
  | .ok (warp s1 tf1 _ _ _) => restWarp H rec s1 (tf * tf1) d a.common none
  | .ok s' => restWarp H rec s' tf d a lab

/-- `DelayedCrop.optimize` once the source is optimized and crops are fused, delayed_nodes.py:2774-2820:
`_opt_warp_after_crop` (2912-3046) builds a new crop and a new warp, `_opt_dequant_after_crop` (3048-3058) a copy of the
crop and a new dequantization. -/
def restCrop (rec : Tagged → Py Tagged) (s : Tagged) (y0 y1 x0 x1 : Int) (c : Option (List Nat))
    (lab : Option (List Str)) : Py Tagged :=
  match s with
  | warp x tf _ a _ =>
    if a.interp = .nearest then .ok (crop s y0 y1 x0 x1 c lab)
    else if x1 - x0 = 0 ∨ y1 - y0 = 0 then .ok (crop s y0 y1 x0 x1 c lab)
    else
      let r := innerSlice x.bare.dsize tf y0 y1 x0 x1
      match newCrop x r.1.1 r.1.2.1 r.1.2.2.1 r.1.2.2.2 c with
      | .error e => .error e
      | .ok inner => rec (warp inner r.2 (x1 - x0, y1 - y0) a.common none)
  | deq x q _ _ => rec (deq (crop x y0 y1 x0 x1 c lab) q (x1 - x0, y1 - y0) none)
  | s => .ok (crop s y0 y1 x0 x1 c lab)

/-- `DelayedCrop.optimize`, delayed_nodes.py:2740-2824: `_opt_fuse_crops` (2826-2910) builds a new crop. -/
def optCrop (rec : Tagged → Py Tagged) (s : Tagged) (y0 y1 x0 x1 : Int) (c : Option (List Nat))
    (lab : Option (List Str)) : Py Tagged :=
  match rec s with
  | .error e => .error e
  | .ok s' =>
    match (match s' with
      | crop s1 iy0 iy1 ix0 ix1 ic _ =>
        match fuseChans ic c with
        | .error e => .error e
        | .ok nc =>
          let y := fuseAxis iy0 iy1 y0 y1
          let x := fuseAxis ix0 ix1 x0 x1
          newCrop s1 y.1 y.2 x.1 x.2 nc
      | s' => .ok (crop s' y0 y1 x0 x1 c lab) : Py Tagged) with
    | .error e => .error e
    | .ok (crop s2 y0' y1' x0' x1' c' lab') =>
      match (match s2 with | leaf l => if l.nan then some l else none | _ => none : Option Leaf) with
      | some l =>
        match cropNans l y0 y1 x0 x1 c with
        | .error e => .error e
        | .ok r => rec r
      | none => restCrop rec s2 y0' y1' x0' x1' c' lab'
    | .ok n => .ok n

/-- `DelayedDequantize.optimize`, delayed_nodes.py:2572-2617: `_opt_dequant_before_other` (2619-2625) builds a copy of
the warp and a new dequantization. -/
def optDeq (rec : Tagged → Py Tagged) (s : Tagged) (q : Quantization) (d : Int × Int) (lab : Option (List Str)) :
    Py Tagged :=
  match rec s with
  | .error e => .error e
  | .ok (deq _ _ _ _) => .error .assertionError
  | .ok (warp x tf dw a lw) => rec (warp (deq x q x.bare.dsize none) tf dw a lw)
  | .ok s' => .ok (deq s' q d lab)

/-- `optimize`. -/
def opt (H : Heur) : Nat → Tagged → Py Tagged
  | 0, _ => .error .recursion
  | _ + 1, leaf l => .ok (leaf l)
  | n + 1, warp s tf d a lab => optWarp H (opt H n) s tf d a lab
  | n + 1, crop s y0 y1 x0 x1 c lab => optCrop (opt H n) s y0 y1 x0 x1 c lab
  | n + 1, deq s q d lab => optDeq (opt H n) s q d lab

/-! #### fitting names -/

/-- `k` names, if any. -/
def Count (k : Nat) (lab : Option (List Str)) : Prop := ∀ ns, lab = some ns → ns.length = k

/-- Leaves without overviews, names that are as many as the channels, selections of channels that exist. -/
def Fitting : Tagged → Prop
  | leaf l => l.WF ∧ (l.overviews = none ∨ l.overviews = some 0)
  | warp s _ _ _ lab => s.Fitting ∧ Count s.bare.nchan lab
  | crop s _ _ _ _ c lab => s.Fitting ∧ IdxOk s.bare.nchan c ∧ Count ((c.map List.length).getD s.bare.nchan) lab ∧
      (c ≠ none → s.names ≠ none → lab ≠ none)
  | deq s _ _ lab => s.Fitting ∧ Count s.bare.nchan lab

/-- Nobody assigned names to an operation: the entries are those of the constructors. -/
def Unassigned : Tagged → Prop
  | leaf _ => True
  | warp s _ _ _ lab => s.Unassigned ∧ lab = none
  | crop s _ _ _ _ c lab => s.Unassigned ∧ lab = c.bind fun c => s.names.map fun ns => pick [] ns c
  | deq s _ _ lab => s.Unassigned ∧ lab = none

/-- Every name that occurs somewhere. -/
def every : Tagged → List Str
  | leaf l => l.names.getD []
  | warp s _ _ _ lab => lab.getD [] ++ s.every
  | crop s _ _ _ _ _ lab => lab.getD [] ++ s.every
  | deq s _ _ lab => lab.getD [] ++ s.every

end Tagged
end Tree
end Verif
