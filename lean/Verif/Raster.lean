/-
Model of `_finalize`: the arrays computed from an operation tree, `delayed_image/delayed_nodes.py` and
`delayed_leafs.py`.

Simplifications.  An array is its shape and a function from row, column and channel to a value.  The
arrays of leaves, the dequantization of one value, the resampling done by `kwimage.warp_affine` and
`kwimage.imresize` and the reading of overviews are given by an environment.  The dtype of the array is
not described: the border colour is given by the environment, too.  A lazy file is treated as the array it
stands for (its indexing is the subject of `Loader.lean`, and `Props/Files.lean` proves this simplification).
-/
import Verif.Opt
import Verif.Props.Loader

namespace Verif
namespace Tree

open Helpers Node

/-- An array of shape `(h, w, n)`. -/
structure Img (V : Type) where
  h : Nat
  w : Nat
  n : Nat
  px : Nat → Nat → Nat → V

/-- Arrays with the same shape and contents. -/
structure Img.Same {V : Type} (a b : Img V) : Prop where
  h : a.h = b.h
  w : a.w = b.w
  n : a.n = b.n
  px : ∀ y x k, y < a.h → x < a.w → k < a.n → a.px y x k = b.px y x k

/-- What is outside of the repository. -/
structure Env (V : Type) where
  /-- the array of a file or an in-memory array -/
  img : Nat → Img V
  /-- `helpers.dequantize` of one value -/
  deq : Quantization → V → V
  /-- `np.nan` -/
  nan : V
  /-- the border colour, delayed_nodes.py:1792-1822 -/
  border : Algo → V
  /-- `kwimage.warp_affine` -/
  warp : Affine → Int × Int → Algo → Img V → Img V
  /-- `kwimage.imresize(arr, dsize, interpolation='nearest')` -/
  resize : Int × Int → Img V → Img V
  /-- `np.isfinite` -/
  finite : V → Bool
  /-- `np.unique(values).size` -/
  unique : List V → Nat
  /-- reading or simulating an overview, delayed_nodes.py:3132-3160 -/
  overview : Node → Int → Img V → Img V

variable {V : Type}

/-- `arr[ysl, xsl]` of numpy. -/
def Img.slice (a : Img V) (ysl xsl : Option Int × Option Int) : Img V :=
  let rows := Props.npSlice a.h ysl.1 ysl.2
  let cols := Props.npSlice a.w xsl.1 xsl.2
  ⟨rows.length, cols.length, a.n, fun y x k => a.px (rows.getD y 0) (cols.getD x 0) k⟩

/-- `arr[:, :, idxs]` of numpy. -/
def Img.select (a : Img V) : Option (List Nat) → Py (Img V)
  | none => .ok a
  | some c =>
    if c.all (fun i => decide (i < a.n)) then
      .ok ⟨a.h, a.w, c.length, fun y x k => a.px y x (c.getD k 0)⟩
    else .error .indexError

/-- `np.concatenate([a, b], axis=2)`. -/
def Img.cat (a b : Img V) : Img V :=
  ⟨a.h, a.w, a.n + b.n, fun y x k => if k < a.n then a.px y x k else b.px y x (k - a.n)⟩

/-- `np.concatenate` of several arrays. -/
def catAll : List (Img V) → Py (Img V)
  | [] => .error .valueError
  | [a] => .ok a
  | a :: as =>
    match catAll as with
    | .error e => .error e
    | .ok b => if a.h = b.h ∧ a.w = b.w then .ok (a.cat b) else .error .valueError

/-- `is_axis_aligned`, delayed_nodes.py:1838-1842.  (The code tests with a tolerance of 1e-9.) -/
def axisAligned (tf : Affine) : Bool := decide (tf.b = 0 ∧ tf.c = 0 ∧ 0 < tf.a ∧ 0 < tf.d)

/-- `has_translation`, delayed_nodes.py:1843. -/
def hasOffset (tf : Affine) : Bool := decide (tf.tx ≠ 0 ∨ tf.ty ≠ 0)

/-- `np.floor((np.arange(out) - t) / s)`, delayed_nodes.py:1852-1855. -/
def nearestIdx (s t : ℚ) (i : Nat) : Int := ⌊((i : ℚ) - t) / s⌋

/-- One axis of `prewarp[yy, xx]`: numpy accepts indices from `-D` to `D - 1`. -/
def fancyOk (s t : ℚ) (D out : Nat) : Bool :=
  (List.range out).all (fun i => decide (-D ≤ nearestIdx s t i ∧ nearestIdx s t i < D))

/-- Some index is in the array. -/
def someValid (s t : ℚ) (D out : Nat) : Bool :=
  (List.range out).any (fun i => decide (0 ≤ nearestIdx s t i ∧ nearestIdx s t i < D))

/-- Nearest neighbours for axis aligned transforms with a translation, delayed_nodes.py:1850-1892. -/
def nearestWarp (a : Img V) (tf : Affine) (d : Int × Int) (fill : V) : Py (Img V) :=
  if d.1 < 0 ∨ d.2 < 0 then .error .valueError
  else
    let ow := d.1.toNat
    let oh := d.2.toNat
    let out : Img V := ⟨oh, ow, a.n, fun y x k =>
      let xi := nearestIdx tf.a tf.tx x
      let yi := nearestIdx tf.d tf.ty y
      if 0 ≤ yi ∧ yi < a.h ∧ 0 ≤ xi ∧ xi < a.w then a.px yi.toNat xi.toNat k else fill⟩
    if someValid tf.a tf.tx a.w ow && someValid tf.d tf.ty a.h oh then
      if fancyOk tf.a tf.tx a.w ow && fancyOk tf.d tf.ty a.h oh then .ok out
      else .error .indexError
    else .ok out

/-- All values of an array. -/
def Img.values (a : Img V) : List V :=
  (List.range a.h).flatMap (fun y => (List.range a.w).flatMap (fun x =>
    (List.range a.n).map (fun k => a.px y x k)))

/-- `_score`, delayed_nodes.py:1987-1994: share of finite values, closeness of the number of distinct
values to the number `src` of the source, number of distinct values. -/
def score (E : Env V) (src : Nat) (a : Img V) : ℚ × Int × Int :=
  let vals := a.values
  let fins := vals.filter E.finite
  let ratio : ℚ := if vals = [] then 0 else (fins.length : ℚ) / vals.length
  let uniq : Int := if fins = [] then 0 else E.unique fins
  (ratio, -|uniq - src|, uniq)

/-- `score1 >= score2` for tuples. -/
def scoreGe (p q : ℚ × Int × Int) : Bool :=
  decide (q.1 < p.1 ∨ (p.1 = q.1 ∧ (q.2.1 < p.2.1 ∨ (p.2.1 = q.2.1 ∧ q.2.2 ≤ p.2.2))))

/-- Nearest neighbours for the other transforms, delayed_nodes.py:1957-2006: the array is warped by the
transform and by its inverse, and the better looking result is kept; if hardly any value is finite the
array is resized instead. -/
def nearestGuess (E : Env V) (tf : Affine) (d : Int × Int) (a : Algo) (i : Img V) : Img V :=
  let c1 := E.warp tf d a i
  let c2 := E.warp tf.inv d a i
  let fins := i.values.filter E.finite
  let src : Nat := if fins = [] then 0 else E.unique fins
  let s1 := score E src c1
  let s2 := score E src c2
  if max s1.1 s2.1 < 5 / 100 then E.resize d i
  else if scoreGe s1 s2 then c1 else c2

/-- `DelayedWarp._finalize` after the pixels of the source are known, delayed_nodes.py:1783-2047. -/
def finWarp (E : Env V) (tf : Affine) (d : Int × Int) (a : Algo) (i : Img V) : Py (Img V) :=
  if a.interp = .nearest then
    if axisAligned tf then
      if hasOffset tf then nearestWarp i tf d (E.border a)
      else .ok (E.resize d i)
    else .ok (nearestGuess E tf d a i)
  else .ok (E.warp tf d a i)

mutual
/-- `_finalize`: delayed_leafs.py:305-333, 389-399 and 520-522 for leaves; delayed_nodes.py:781-792 for
concats, 1770-2047 for warps, 2558-2570 for dequantizations, 2717-2732 for crops and 3132-3160 for
overviews. -/
def fin (E : Env V) : Node → Py (Img V)
  | .leaf l =>
    if l.nan then
      if l.dsize.1 < 0 ∨ l.dsize.2 < 0 then .error .valueError
      else .ok ⟨l.dsize.2.toNat, l.dsize.1.toNat, l.nchan, fun _ _ _ => E.nan⟩
    else .ok (E.img l.id)
  | .concat ps _ =>
    match finL E ps with
    | .error e => .error e
    | .ok as => catAll as
  | .warp s tf d a =>
    match fin E s with
    | .error e => .error e
    | .ok i => finWarp E tf d a i
  | .crop s y0 y1 x0 x1 c =>
    match fin E s with
    | .error e => .error e
    | .ok i => (i.slice (some y0, some y1) (some x0, some x1)).select c
  | .overview s k _ =>
    match fin E s with
    | .error e => .error e
    | .ok i => .ok (E.overview s k i)
  | .dequant s q _ =>
    match fin E s with
    | .error e => .error e
    | .ok i => .ok { i with px := fun y x k => E.deq q (i.px y x k) }
def finL (E : Env V) : List Node → Py (List (Img V))
  | [] => .ok []
  | p :: ps =>
    match fin E p with
    | .error e => .error e
    | .ok a =>
      match finL E ps with
      | .error e => .error e
      | .ok as => .ok (a :: as)
end

/-- `finalize(optimize=True)`, delayed_base.py:405-449. -/
def finalize (H : Heur) (E : Env V) (fuel : Nat) (n : Node) : Py (Img V) :=
  match opt H fuel n with
  | .error e => .error e
  | .ok m => fin E m

/-! #### the methods of `ImageOpsMixin` -/

/-- The padding argument of `crop`. -/
inductive Pad where
  | int (p : Int)
  | pairs (y x : Int × Int)
deriving DecidableEq, Repr

/-- `bool(pad)`. -/
def Pad.truthy : Pad → Bool
  | .int p => decide (p ≠ 0)
  | .pairs _ _ => true

/-- Padding before and after along y and x. -/
def Pad.get : Pad → (Int × Int) × (Int × Int)
  | .int p => ((p, p), (p, p))
  | .pairs y x => (y, x)

/-- Nothing to do, delayed_nodes.py:331-339. -/
def cropNoop (n : Node) (sl : Space) (pad : Pad) : Bool :=
  decide ((sl.1.1 = none ∨ sl.1.1 = some 0) ∧ (sl.1.2 = none ∨ sl.1.2 = some n.dsize.2) ∧
    (sl.2.1 = none ∨ sl.2.1 = some 0) ∧ (sl.2.2 = none ∨ sl.2.2 = some n.dsize.1)) && !pad.truthy

/-- `crop`, delayed_nodes.py:195-363.  Missing bounds of a padded crop are taken as the bounds of the
image (this is decided by `kwarray.embed_slice`, external). -/
def crop (n : Node) (sl : Option Space) (c : Option (List Nat)) (clip wrap : Bool) (pad : Pad)
    (isLazy : Bool) : Py Node :=
  match isLazy, sl with
  | true, none => .error .assertionError
  | isLazy, sl =>
    if isLazy && (match sl with | none => false | some s => cropNoop n s pad) then .ok n
    else if !clip || !wrap || pad.truthy then
      if clip || wrap then .error .notImplemented
      else
        match sl with
        | none => .error .typeError
        | some ((ya, yb), (xa, xb)) =>
          paddedCrop n (ya.getD 0) (yb.getD n.dsize.2) (xa.getD 0) (xb.getD n.dsize.1) pad.get
    else mkCrop n sl c

/-- `warp`, delayed_nodes.py:452-529; `close` is `isclose_identity()`. -/
def warp (close : Affine → Bool) (n : Node) (tf : Option Affine) (d : Option (Int × Int)) (a : Algo)
    (isLazy : Bool) : Node :=
  let keep := isLazy &&
    (match d with
     | some d => if n.dsize ≠ d then false else (match tf with | none => true | some tf => close tf)
     | none => match tf with | none => true | some tf => close tf)
  if keep then n else mkWarp n (tf.getD .id) d a

/-- `scale`, delayed_nodes.py:531-537. -/
def scale (close : Affine → Bool) (n : Node) (sx sy : ℚ) (d : Option (Int × Int)) (a : Algo)
    (isLazy : Bool) : Node :=
  warp close n (some ⟨sx, 0, 0, 0, sy, 0⟩) d a isLazy

/-- `resize`, delayed_nodes.py:539-549 (numpy's division by zero is not described: the size of the image
must not be zero). -/
def resize (close : Affine → Bool) (n : Node) (d : Int × Int) (a : Algo) (isLazy : Bool) : Node :=
  warp close n (some ⟨(d.1 : ℚ) / n.dsize.1, 0, 0, 0, (d.2 : ℚ) / n.dsize.2, 0⟩) (some d) a isLazy

/-- `evaluate`, delayed_nodes.py:1476-1487 with `DelayedIdentity.__init__`, delayed_leafs.py:512-518: a
leaf that holds the finalized array, and the environment in which the new object has this array. -/
def evaluate (H : Heur) (E : Env V) (fuel : Nat) (n : Node) (fresh : Nat) : Py (Node × Env V) :=
  match finalize H E fuel n with
  | .error e => .error e
  | .ok i =>
    .ok (.leaf ⟨fresh, n.dsize, i.n, n.channels, none, false⟩,
      { E with img := fun k => if k = fresh then i else E.img k })

end Tree
end Verif
