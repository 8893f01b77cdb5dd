/-
Model of `optimize` for operation trees, `delayed_image/delayed_nodes.py`.

`opt H fuel n` is `n.optimize()`; `fuel` bounds the depth of the Python recursion (`.recursion` is raised
when it runs out).  The tests that depend on floating point tolerances or on a matrix decomposition are
parameters collected in `Heur`.  The memo and the sharing of metadata dictionaries are not part of this
model (see `Heap.lean`).  A crop reads its channels from its source instead of storing
them.
-/
import Verif.Node

namespace Verif
namespace Tree

open Helpers Node

/-- The numerical tests made by the optimizer. -/
structure Heur where
  /-- `transform.isclose_identity(rtol=eps, atol=eps)`, delayed_nodes.py:2110. -/
  negl : ℚ → Affine → Bool
  /-- `transform.isclose_identity()`, delayed_nodes.py:2495. -/
  closeId : Affine → Bool
  /-- `np.all(np.isclose(np.eye(3), translate(x, y)))`, delayed_nodes.py:3282. -/
  closeOff : ℚ → ℚ → Bool
  /-- `not (sx > 0.5 or sy > 0.5)`, delayed_nodes.py:2471-2474. -/
  canSplit : Affine → Bool
  /-- `_prepare_scale_residual(sx, sy)[0]`, delayed_nodes.py:2519-2531. -/
  downs : Affine → Int
  /-- `not (sx < twoish and sy < twoish)`, delayed_nodes.py:2234-2239. -/
  big : Affine → Bool

/-- The transforms accepted as identities are identities. -/
structure Heur.Exact (H : Heur) : Prop where
  negl : ∀ e m, H.negl e m = true → m = .id
  closeId : ∀ m, H.closeId m = true → m = .id
  closeOff : ∀ x y, H.closeOff x y = true → x = 0 ∧ y = 0

variable {Q : Type}

/-- `x.subdata`: `None` for a leaf, missing on a concat. -/
def subOf : Node Q → Py (Option (Node Q))
  | .leaf _ => .ok none
  | .concat _ _ => .error .attributeError
  | .warp s _ _ _ => .ok (some s)
  | .crop s _ _ _ _ _ => .ok (some s)
  | .overview s _ _ => .ok (some s)
  | .dequant s _ _ => .ok (some s)

/-- `x.subdata = s`. -/
def setSub : Node Q → Node Q → Node Q
  | .leaf l, _ => .leaf l
  | .concat ps d, _ => .concat ps d
  | .warp _ tf d a, s => .warp s tf d a
  | .crop _ y0 y1 x0 x1 c, s => .crop s y0 y1 x0 x1 c
  | .overview _ k d, s => .overview s k d
  | .dequant _ q d, s => .dequant s q d

/-- `self.__class__(p, **kwargs)` in `_push_operation_under`, delayed_nodes.py:1052 with the arguments
of 1495. -/
def reapply (op : Node Q) (p : Node Q) : Py (Node Q) :=
  match op with
  | .leaf _ => .error .typeError
  | .concat _ _ => .error .typeError
  | .warp _ tf d a => .ok (.warp p tf d a)
  | .crop _ y0 y1 x0 x1 c => mkCrop p (ints y0 y1 x0 x1) c
  | .overview _ k _ => .ok (mkOverview p k)
  | .dequant _ q _ => .ok (mkDequant p q)

/-- `_opt_push_under_concat` of a node over `concat ps`, delayed_nodes.py:1489-1502; `none` if the node
itself is returned. -/
def pushUnder (op : Node Q) (ps : List (Node Q)) : Py (Option (Node Q)) :=
  match mapAll (reapply op) ps with
  | .error e => .error e
  | .ok qs =>
    match mkConcat qs with
    | .ok c => .ok (some c)
    | .error .coordinateCompat => .ok none
    | .error e => .error e

/-- The last step of the `optimize` methods of dequantize (delayed_nodes.py:2608-2613) and overview
(3191-3196). -/
def finish (rec : Node Q → Py (Node Q)) (new : Node Q) : Py (Node Q) :=
  match subOf new with
  | .error e => .error e
  | .ok (some (.concat ps _)) =>
    match pushUnder new ps with
    | .error e => .error e
    | .ok none => .ok new
    | .ok (some p) => rec p
  | .ok _ => .ok new

/-! #### warps -/

/-- An operation between a warp and an overview. -/
inductive Link (Q : Type := Quantization) where
  | deq (q : Q) (d : Int × Int)
  | crop (y0 y1 x0 x1 : Int) (c : Option (List Nat))

def Link.isCrop : Link Q → Bool
  | .deq _ _ => false
  | .crop .. => true

/-- The lookahead loop, delayed_nodes.py:2257-2278: the operations before the first overview, its source,
level and size. -/
def look : Nat → Node Q → Option (List (Link Q) × Node Q × Int × (Int × Int))
  | 0, _ => none
  | _ + 1, .overview s k d => some ([], s, k, d)
  | n + 1, .dequant s q d => (look n s).map (fun r => (.deq q d :: r.1, r.2))
  | n + 1, .crop s y0 y1 x0 x1 c => (look n s).map (fun r => (.crop y0 y1 x0 x1 c :: r.1, r.2))
  | _ + 1, _ => none

/-- One axis of the fast path of `_opt_warp_after_crop`, delayed_nodes.py:2981-3022: start and stop of
the new inner slice and the offset of the new warp. -/
def axisFast (src : Int) (s t : ℚ) (r0 r1 : Int) : Int × Int × ℚ :=
  let f0 : ℚ := (r0 - t) / s
  let f1 : ℚ := (r1 - t) / s
  let len : ℚ := max (f1 - f0) 0
  let q0 : Int := max ⌊f0⌋ 0
  let q1 : Int := min ⌈f1⌉ src
  let root : Int := max (r1 - r0) 0
  let pad : Int := if root = 0 then 0 else ⌈len / root⌉
  let lo : Int := q0 - min q0 1
  (lo, min (q1 + pad) src, t + s * lo - r0)

/-- Smallest of four numbers. -/
def min4 (w x y z : ℚ) : ℚ := min (min w x) (min y z)

/-- `_swap_warp_after_crop`, helpers.py:155-338: the inner slice `(y0, y1, x0, x1)` and the new warp. -/
def swapWarpAfterCrop (tf : Affine) (y0 y1 x0 x1 : Int) : (Int × Int × Int × Int) × Affine :=
  let inv := tf.inv
  let p1 := inv.app (x0, y0)
  let p2 := inv.app (x1, y0)
  let p3 := inv.app (x0, y1)
  let p4 := inv.app (x1, y1)
  let l : Int := max 0 ⌊min4 p1.1 p2.1 p3.1 p4.1⌋
  let t : Int := max 0 ⌊min4 p1.2 p2.2 p3.2 p4.2⌋
  let r : Int := max 0 ⌈max4 p1.1 p2.1 p3.1 p4.1⌉
  let b : Int := max 0 ⌈max4 p1.2 p2.2 p3.2 p4.2⌉
  let padw : Int := if x1 - x0 = 0 then 0 else ⌈((r - l : Int) : ℚ) / ((x1 - x0 : Int) : ℚ)⌉
  let padh : Int := if y1 - y0 = 0 then 0 else ⌈((b - t : Int) : ℚ) / ((y1 - y0 : Int) : ℚ)⌉
  let lp : Int := min l 1
  let tp : Int := min t 1
  ((t - tp, b + padh, l - lp, r + padw),
   Affine.trans (-x0) (-y0) * tf * Affine.trans l t * Affine.trans (-lp) (-tp))

/-- The inner slice and the outer transform of `_opt_warp_after_crop`, delayed_nodes.py:2961-3033.  The
fast path is taken for matrices that are diagonal with positive entries (the code allows a tolerance of
1e-9 on the angles). -/
def innerSlice (src : Int × Int) (tf : Affine) (y0 y1 x0 x1 : Int) :
    (Int × Int × Int × Int) × Affine :=
  if tf.b = 0 ∧ tf.c = 0 ∧ 0 < tf.a ∧ 0 < tf.d then
    let x := axisFast src.1 tf.a tf.tx x0 x1
    let y := axisFast src.2 tf.d tf.ty y0 y1
    ((y.1, y.2.1, x.1, x.2.1), ⟨tf.a, 0, x.2.2, 0, tf.d, y.2.2⟩)
  else swapWarpAfterCrop tf y0 y1 x0 x1

/-- `_opt_warp_after_crop` of `crop(warp(s, tf, algo))`, delayed_nodes.py:2912-3046: the new inner crop
and the new transform; `none` if nothing is done. -/
def warpAfterCrop (s : Node Q) (tf : Affine) (y0 y1 x0 x1 : Int) (c : Option (List Nat)) :
    Py (Option (Node Q × Affine)) :=
  if x1 - x0 = 0 ∨ y1 - y0 = 0 then .ok none
  else
    let r := innerSlice s.dsize tf y0 y1 x0 x1
    match mkCrop s (ints r.1.1 r.1.2.1 r.1.2.2.1 r.1.2.2.2) c with
    | .error e => .error e
    | .ok inner => .ok (some (inner, r.2))

/-- The operations of a chain applied again, with sizes updated (delayed_nodes.py:2380-2403). -/
def relink : List (Link Q) → Node Q → Py (Node Q)
  | [], n => .ok n
  | .deq q _ :: ls, n =>
    match relink ls n with
    | .error e => .error e
    | .ok m => .ok (.dequant m q n.dsize)
  | .crop .. :: _, _ => .error .generic

/-- The scaling of an overview. -/
def ovScale (k : Int) : Affine := .scale ((2 : ℚ) ^ k)⁻¹

/-- `_opt_absorb_overview` of `warp(s, tf, d, a)`, delayed_nodes.py:2174-2420.  Chains with a crop that is
not last are outside the model (`.generic`; they do not occur, see `NF`). -/
def absorb (H : Heur) (s : Node Q) (tf : Affine) (d : Int × Int) (a : Algo) : Py (Node Q) :=
  if !H.big tf then .ok (.warp s tf d a)
  else
    match look 4 s with
    | none => .ok (.warp s tf d a)
    | some (chain, osub, k, _) =>
      if (chain.filter Link.isCrop).length > 1 then .ok (.warp s tf d a)
      else
        match chain.getLast? with
        | some (.crop y0 y1 x0 x1 c) =>
          match warpAfterCrop osub (ovScale k) y0 y1 x0 x1 c with
          | .error e => .error e
          | .ok none => .error .keyError
          | .ok (some (inner, tf1)) =>
            match relink chain.dropLast inner with
            | .error e => .error e
            | .ok head => .ok (.warp head (tf * tf1) d a.common)
        | _ =>
          match relink chain osub with
          | .error e => .error e
          | .ok head => .ok (.warp head (tf * ovScale k) d a.common)

/-- `_opt_split_warp_overview` of `warp(s, tf, d, a)`, delayed_nodes.py:2422-2516; `none` if nothing is
done. -/
def split (H : Heur) (rec : Node Q → Py (Node Q)) (s : Node Q) (tf : Affine) (d : Int × Int) (a : Algo) :
    Py (Option (Node Q)) :=
  match s.numOverviews with
  | .error e => .error e
  | .ok none => .ok none
  | .ok (some num) =>
    if num = 0 then .ok none
    else if !H.canSplit tf then .ok none
    else
      let nd := min num (H.downs tf)
      if nd = 0 then .ok none
      else
        let ov := mkOverview s nd
        let res := tf * (ovScale nd).inv
        if H.closeId res then
          if ov.dsize ≠ d then
            match paddedCrop ov 0 d.2 0 d.1 ((0, 0), (0, 0)) with
            | .error e => .error e
            | .ok c =>
              match rec c with
              | .error e => .error e
              | .ok r => .ok (some r)
          else .ok (some ov)
        else .ok (some (.warp ov res d a.common))

/-- The rest of `DelayedWarp.optimize` once the source is optimized and warps are fused,
delayed_nodes.py:2105-2135. -/
def warpRest (H : Heur) (rec : Node Q → Py (Node Q)) (s : Node Q) (tf : Affine) (d : Int × Int) (a : Algo) :
    Py (Node Q) :=
  if d = s.dsize ∧ H.negl a.noopEps tf = true then .ok s
  else
    match s with
    | .concat ps _ =>
      match pushUnder (.warp s tf d a) ps with
      | .error e => .error e
      | .ok none => .ok (.warp s tf d a)
      | .ok (some p) => rec p
    | s =>
      match (match s with | .leaf l => if l.nan then some l else none | _ => none : Option Leaf) with
      | some l => rec (nanLeaf l.id d l.names)
      | none =>
        match split H rec s tf d a with
        | .error e => .error e
        | .ok none => absorb H s tf d a
        | .ok (some new) =>
          match subOf new with
          | .error e => .error e
          | .ok none => .error .attributeError
          | .ok (some x) =>
            match rec x with
            | .error e => .error e
            | .ok x' => rec (setSub new x')

/-- `DelayedWarp.optimize`, delayed_nodes.py:2049-2139, with `_opt_fuse_warps` (2144-2172). -/
def optWarp (H : Heur) (rec : Node Q → Py (Node Q)) (s : Node Q) (tf : Affine) (d : Int × Int) (a : Algo) :
    Py (Node Q) :=
  match rec s with
  | .error e => .error e
  | .ok (.warp s1 tf1 _ _) => warpRest H rec s1 (tf * tf1) d a.common
  | .ok s' => warpRest H rec s' tf d a

/-! #### crops -/

/-- `list(ub.take(inner, outer))`. -/
def takeList (inner : List Nat) : List Nat → Py (List Nat)
  | [] => .ok []
  | i :: is =>
    match inner[i]? with
    | none => .error .indexError
    | some x =>
      match takeList inner is with
      | .error e => .error e
      | .ok xs => .ok (x :: xs)

/-- Channel indices of two crops, delayed_nodes.py:2895-2905. -/
def fuseChans (inner outer : Option (List Nat)) : Py (Option (List Nat)) :=
  match outer, inner with
  | none, none => .ok none
  | none, some i => .ok (some i)
  | some o, none => .ok (some o)
  | some o, some i =>
    match takeList i o with
    | .error e => .error e
    | .ok l => .ok (some l)

/-- One axis of `_opt_fuse_crops`, delayed_nodes.py:2889-2893. -/
def fuseAxis (i0 i1 o0 o1 : Int) : Int × Int := (min (i0 + o0) i1, min (i0 + o1) i1)

/-- `_opt_fuse_crops` of a crop with slices `y0:y1, x0:x1` and channels `c` of the crop
`s[iy0:iy1, ix0:ix1, ic]`, delayed_nodes.py:2826-2910. -/
def fuseCrops (s : Node Q) (iy0 iy1 ix0 ix1 : Int) (ic : Option (List Nat)) (y0 y1 x0 x1 : Int)
    (c : Option (List Nat)) : Py (Node Q) :=
  match fuseChans ic c with
  | .error e => .error e
  | .ok nc =>
    let y := fuseAxis iy0 iy1 y0 y1
    let x := fuseAxis ix0 ix1 x0 x1
    mkCrop s (ints y.1 y.2 x.1 x.2) nc

/-- `DelayedNans._optimized_crop`, delayed_leafs.py:401-432. -/
def nanCrop (l : Leaf) (y0 y1 x0 x1 : Int) (c : Option (List Nat)) : Py (Node Q) :=
  match (match c with
    | none => .ok l.names
    | some c =>
      match l.names with
      | none => .error .assertionError
      | some names =>
        if c.all (fun i => decide (i < names.length)) then .ok (some (pick [] names c))
        else .error .indexError : Py (Option (List Str))) with
  | .error e => .error e
  | .ok names =>
    match embedSlice y0 y1 l.dsize.2 0 0 with
    | .error e => .error e
    | .ok (y, _) =>
      match embedSlice x0 x1 l.dsize.1 0 0 with
      | .error e => .error e
      | .ok (x, _) => .ok (nanLeaf l.id (x.2 - x.1, y.2 - y.1) names)

/-- A crop of a concat, delayed_nodes.py:2790-2812. -/
def cropConcat (rec : Node Q → Py (Node Q)) (ps : List (Node Q)) (d : Int × Int) (y0 y1 x0 x1 : Int)
    (c : Option (List Nat)) : Py (Node Q) :=
  match (match c with
    | none => .ok (.concat ps d)
    | some c =>
      match takeIdx (.concat ps d) c with
      | .error e => .error e
      | .ok t => rec t : Py (Node Q)) with
  | .error e => .error e
  | .ok taken =>
    match mkCrop taken (ints y0 y1 x0 x1) none with
    | .error e => .error e
    | .ok cr =>
      match taken with
      | .concat qs _ =>
        match pushUnder cr qs with
        | .error e => .error e
        | .ok none => rec cr
        | .ok (some p) => rec p
      | _ => rec cr

/-- The last step of `DelayedCrop.optimize`, delayed_nodes.py:2790-2820. -/
def finishCrop (rec : Node Q → Py (Node Q)) (new : Node Q) : Py (Node Q) :=
  match new with
  | .crop (.concat ps d) y0 y1 x0 x1 c => cropConcat rec ps d y0 y1 x0 x1 c
  | new => finish rec new

/-- The rest of `DelayedCrop.optimize` once the source is optimized and crops are fused,
delayed_nodes.py:2774-2820. -/
def cropRest (rec : Node Q → Py (Node Q)) (s : Node Q) (y0 y1 x0 x1 : Int) (c : Option (List Nat)) : Py (Node Q) :=
  match s with
  | .warp x tf _ a =>
    if a.interp = .nearest then .ok (.crop s y0 y1 x0 x1 c)
    else
      match warpAfterCrop x tf y0 y1 x0 x1 c with
      | .error e => .error e
      | .ok none => .ok (.crop s y0 y1 x0 x1 c)
      | .ok (some (inner, tf')) =>
        match rec (.warp inner tf' (x1 - x0, y1 - y0) a.common) with
        | .error e => .error e
        | .ok r => finishCrop rec r
  | .dequant x q _ =>
    match rec (mkDequant (.crop x y0 y1 x0 x1 c) q) with
    | .error e => .error e
    | .ok r => finishCrop rec r
  | s => finishCrop rec (.crop s y0 y1 x0 x1 c)

/-- `DelayedCrop.optimize`, delayed_nodes.py:2740-2824. -/
def optCrop (rec : Node Q → Py (Node Q)) (s : Node Q) (y0 y1 x0 x1 : Int) (c : Option (List Nat)) : Py (Node Q) :=
  match rec s with
  | .error e => .error e
  | .ok s' =>
    match (match s' with
      | .crop s1 iy0 iy1 ix0 ix1 ic => fuseCrops s1 iy0 iy1 ix0 ix1 ic y0 y1 x0 x1 c
      | s' => .ok (.crop s' y0 y1 x0 x1 c) : Py (Node Q)) with
    | .error e => .error e
    | .ok (.crop s2 y0' y1' x0' x1' c') =>
      match (match s2 with | .leaf l => if l.nan then some l else none | _ => none : Option Leaf) with
      | some l =>
        match nanCrop l y0 y1 x0 x1 c with
        | .error e => .error e
        | .ok r => rec r
      | none => cropRest rec s2 y0' y1' x0' x1' c'
    | .ok n => .ok n

/-! #### overviews -/

/-- `_opt_crop_after_overview` of `overview(crop(s), k)`, delayed_nodes.py:3219-3287 and
`_swap_crop_after_warp`, helpers.py:341-409. -/
def cropAfterOverview (H : Heur) (s : Node Q) (y0 y1 x0 x1 : Int) (c : Option (List Nat)) (k : Int) :
    Py (Node Q) :=
  let sf : ℚ := ((2 : ℚ) ^ k)⁻¹
  let lx : Int := max 0 ⌊sf * x0⌋
  let ly : Int := max 0 ⌊sf * y0⌋
  match mkCrop (mkOverview s k) (ints ly (max 0 ⌈sf * y1⌉) lx (max 0 ⌈sf * x1⌉)) c with
  | .error e => .error e
  | .ok cr =>
    if H.closeOff (lx - sf * x0) (ly - sf * y0) then .ok cr
    else .ok (mkWarp cr (.trans (lx - sf * x0) (ly - sf * y0)) none .default)

/-- `_opt_warp_after_overview` of `overview(warp(s, tf), k)`, delayed_nodes.py:3310-3352. -/
def warpAfterOverview (s : Node Q) (tf : Affine) (k : Int) : Node Q :=
  mkWarp (mkOverview s k) (ovScale k * tf * (ovScale k).inv) none .default

/-- The rest of `DelayedOverview.optimize` once the source is optimized and overviews are fused,
delayed_nodes.py:3180-3196. -/
def overviewRest (H : Heur) (rec : Node Q → Py (Node Q)) (s : Node Q) (k : Int) (d : Int × Int) : Py (Node Q) :=
  if k = 0 then finish rec s
  else
    match s with
    | .crop x y0 y1 x0 x1 c =>
      match cropAfterOverview H x y0 y1 x0 x1 c k with
      | .error e => .error e
      | .ok m =>
        match rec m with
        | .error e => .error e
        | .ok r => finish rec r
    | .warp x tf _ _ =>
      match rec (warpAfterOverview x tf k) with
      | .error e => .error e
      | .ok r => finish rec r
    | .dequant x q _ =>
      match rec (mkDequant (.overview x k d) q) with
      | .error e => .error e
      | .ok r => finish rec r
    | s => finish rec (.overview s k d)

/-- `DelayedOverview.optimize`, delayed_nodes.py:3162-3200, with `_opt_fuse_overview` (3289-3297). -/
def optOverview (H : Heur) (rec : Node Q → Py (Node Q)) (s : Node Q) (k : Int) (d : Int × Int) : Py (Node Q) :=
  match rec s with
  | .error e => .error e
  | .ok (.overview s1 k1 _) =>
    overviewRest H rec s1 (k1 + k) (mkOverview s1 (k1 + k)).dsize
  | .ok s' => overviewRest H rec s' k d

/-! #### dequantization and concatenation -/

/-- `DelayedDequantize.optimize`, delayed_nodes.py:2572-2617, with `_opt_dequant_before_other`
(2619-2625). -/
def optDequant (rec : Node Q → Py (Node Q)) (s : Node Q) (q : Q) (d : Int × Int) : Py (Node Q) :=
  match rec s with
  | .error e => .error e
  | .ok (.dequant _ _ _) => .error .assertionError
  | .ok (.warp x tf dw a) =>
    match rec (.warp (mkDequant x q) tf dw a) with
    | .error e => .error e
    | .ok r => finish rec r
  | .ok s' => finish rec (.dequant s' q d)

/-- `DelayedChannelConcat.optimize`, delayed_nodes.py:794-818. -/
def optConcat (rec : Node Q → Py (Node Q)) (ps : List (Node Q)) (d : Int × Int) : Py (Node Q) :=
  match mapAll rec ps with
  | .error e => .error e
  | .ok qs =>
    match mkConcat qs with
    | .ok c => .ok c
    | .error .coordinateCompat => .ok (.concat ps d)
    | .error e => .error e

/-- One level of `optimize`, dispatching on the class of the node; leaves return themselves
(delayed_leafs.py:31-40). -/
def optStep (H : Heur) (rec : Node Q → Py (Node Q)) : Node Q → Py (Node Q)
  | .leaf l => .ok (.leaf l)
  | .concat ps d => optConcat rec ps d
  | .warp s tf d a => optWarp H rec s tf d a
  | .crop s y0 y1 x0 x1 c => optCrop rec s y0 y1 x0 x1 c
  | .overview s k d => optOverview H rec s k d
  | .dequant s q d => optDequant rec s q d

/-- `optimize`. -/
def opt (H : Heur) : Nat → Node Q → Py (Node Q)
  | 0, _ => .error .recursion
  | n + 1, x => optStep H (opt H n) x

/-! #### the numerical tests in exact arithmetic -/

/-- `np.isclose(x, y, rtol, atol)`. -/
def isclose (rtol atol x y : ℚ) : Bool := decide (|x - y| ≤ atol + rtol * |y|)

/-- `Affine.isclose_identity(rtol, atol)` (external). -/
def iscloseIdentity (rtol atol : ℚ) (m : Affine) : Bool :=
  isclose rtol atol m.a 1 && isclose rtol atol m.b 0 && isclose rtol atol m.tx 0 &&
  isclose rtol atol m.c 0 && isclose rtol atol m.d 1 && isclose rtol atol m.ty 0

/-- `scale <= t` for both components of `decompose()['scale']`, which are `sx = hypot(a, c)` and
`sy = det / sx` (external). -/
def scalesLe (m : Affine) (t : ℚ) : Bool :=
  decide (m.a ^ 2 + m.c ^ 2 ≤ t ^ 2) && decide (m.det ≤ 0 ∨ m.det ^ 2 ≤ t ^ 2 * (m.a ^ 2 + m.c ^ 2))

/-- `scale < t` for both components. -/
def scalesLt (m : Affine) (t : ℚ) : Bool :=
  decide (m.a ^ 2 + m.c ^ 2 < t ^ 2) && decide (m.det ≤ 0 ∨ m.det ^ 2 < t ^ 2 * (m.a ^ 2 + m.c ^ 2))

/-- Largest `n ≤ b` such that both scales are at most `2 ** -n`. -/
def downsUpTo (m : Affine) : Nat → Nat
  | 0 => 0
  | n + 1 => if scalesLe m ((2 : ℚ) ^ (n + 1))⁻¹ then n + 1 else downsUpTo m n

/-- The tests with the tolerances of the code.  For `downs`, which is `int(log2(1 / max(sx, sy)))`, no number above
`log2` of the denominator of `sx ** 2` can be the result (`C63_downs`). -/
def Heur.code : Heur where
  negl e m := iscloseIdentity e e m
  closeId m := iscloseIdentity (1 / 100000) (1 / 100000000) m
  closeOff x y := isclose (1 / 100000) (1 / 100000000) 0 x && isclose (1 / 100000) (1 / 100000000) 0 y
  canSplit m := scalesLe m (1 / 2)
  downs m := downsUpTo m (Nat.log2 (m.a ^ 2 + m.c ^ 2).den)
  big m := !scalesLt m (2 - 1 / 100000000)

/-- The same tests with exact comparisons with the identity. -/
def Heur.exact : Heur :=
  { Heur.code with
    negl := fun _ m => decide (m.a = 1 ∧ m.b = 0 ∧ m.tx = 0 ∧ m.c = 0 ∧ m.d = 1 ∧ m.ty = 0)
    closeId := fun m => decide (m.a = 1 ∧ m.b = 0 ∧ m.tx = 0 ∧ m.c = 0 ∧ m.d = 1 ∧ m.ty = 0)
    closeOff := fun x y => decide (x = 0 ∧ y = 0) }

theorem Heur.exact_exact : Heur.exact.Exact := by
  refine ⟨fun _ m h => ?_, fun m h => ?_, fun x y h => ?_⟩
  · simp only [Heur.exact, decide_eq_true_eq] at h
    obtain ⟨h1, h2, h3, h4, h5, h6⟩ := h
    ext <;> simp_all [Affine.id]
  · simp only [Heur.exact, decide_eq_true_eq] at h
    obtain ⟨h1, h2, h3, h4, h5, h6⟩ := h
    ext <;> simp_all [Affine.id]
  · simpa [Heur.exact] using h

end Tree
end Verif
