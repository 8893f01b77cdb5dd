/-
Model of the readers of `delayed_image/lazy_loaders.py` that go through rasterio and spectral, and of
`_validate_nonzero_data`.
-/
import Verif.Loader

namespace Verif
namespace Loader

/-- `index + [None] * n`, lazy_loaders.py:331-334 and 446-449. -/
def padIndex (index : List Part) : List Part :=
  if index.length < 3 then index ++ List.replicate (3 - index.length) .none else index

/-- `part.start, part.stop`, lazy_loaders.py:351-352 and 465-466; a list has no `start`. -/
def boundsOf : RPart → Py (Int × Int)
  | .slice a b => .ok (a, b)
  | .list _ => .error .attributeError

/-- What an external library does with requests that are not plain: windows along an axis that are empty or
leave the raster, bands that do not exist. -/
structure Beyond where
  window : Nat → Int → Int → Py (List Nat)
  bands : Nat → List Int → Py (List Int)

/-- An external read of the rows from `a` to `b`. -/
def windowRead (o : Beyond) (D : Nat) (w : Int × Int) : Py (List Nat) :=
  if 0 ≤ w.1 ∧ w.1 < w.2 ∧ w.2 ≤ D then .ok ((List.range (w.2 - w.1).toNat).map (fun k => w.1.toNat + k))
  else o.window D w.1 w.2

/-- `LazySpectralFrameFile.__getitem__`, lazy_loaders.py:323-358: rows, columns and bands that are read.
`read_subregion` of spectral counts bands from zero. -/
def spectralItem (o : Beyond) (index : List Part) (H W C : Nat) : Py (List Nat × List Nat × List Int) := do
  let index := padIndex index
  let y ← rectify (index.getD 0 .none) H
  let x ← rectify (index.getD 1 .none) W
  let c ← rectify (index.getD 2 .none) C
  let wy ← boundsOf y
  let wx ← boundsOf x
  let rows ← windowRead o H wy
  let cols ← windowRead o W wx
  let bands := bandsOf C c
  if bands.all (fun b => decide (0 ≤ b ∧ b < C)) then .ok (rows, cols, bands)
  else do
    let bands ← o.bands C bands
    .ok (rows, cols, bands)

/-- `LazyRasterIOFrameFile.__getitem__`, lazy_loaders.py:436-473.  `read` of rasterio counts bands from one
and raises IndexError for others. -/
def rasterioItem (o : Beyond) (index : List Part) (H W C : Nat) : Py (List Nat × List Nat × List Int) := do
  let index := padIndex index
  let y ← rectify (index.getD 0 .none) H
  let x ← rectify (index.getD 1 .none) W
  let c ← rectify (index.getD 2 .none) C
  let wy ← boundsOf y
  let wx ← boundsOf x
  let rows ← windowRead o H wy
  let cols ← windowRead o W wx
  let indexes : List Int := (bandsOf C c).map (· + 1)
  if indexes.all (fun b => decide (1 ≤ b ∧ b ≤ C)) then .ok (rows, cols, indexes.map (· - 1))
  else .error .indexError

/-! #### is there data -/

/-- `partial_data.sum()`: the sum over the selected pixels of the file. -/
def total (f : Nat → Nat → Int → Int) (sel : List Nat × List Nat × List Int) : Int :=
  (sel.1.flatMap fun y => sel.2.1.flatMap fun x => sel.2.2.map (f y x)).sum

/-- The loop of `_validate_nonzero_data`, lazy_loaders.py:1126-1131: windows around the centre. -/
def scan (skip : Bool) (f : Nat → Nat → Int → Int) (H W C : Nat) : List Int → Int → Py Int
  | [], t => .ok t
  | d :: ds, _ =>
    let cy : Int := (H / 2 : Nat)
    let cx : Int := (W / 2 : Nat)
    match getItem skip [.slice (some (cy - d)) (some (cy + d)), .slice (some (cx - d)) (some (cx + d))] H W C with
    | .error e => .error e
    | .ok sel => if 0 < total f sel then .ok (total f sel) else scan skip f H W C ds (total f sel)

/-- `_validate_nonzero_data`, lazy_loaders.py:1105-1137, for a file read through GDAL without nodata handling;
pixels are integers. -/
def hasData (skip : Bool) (f : Nat → Nat → Int → Int) (H W C : Nat) : Bool :=
  match scan skip f H W C [8, 512, 2048, 5000] 0 with
  | .error _ => false
  | .ok t =>
    if t = 0 then
      match getItem skip [.slice none none] H W C with
      | .error _ => false
      | .ok sel => decide (0 < total f sel)
    else decide (0 < t)

end Loader
end Verif
