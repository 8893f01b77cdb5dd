/-
Model of `LazyGDalFrameFile` and of the vendored reader in `delayed_image/lazy_loaders.py`: overviews,
band selection, the two read strategies and no-data handling.

GDAL itself is external.  A raster band is its type, its no-data value and its pixels; reading a window
of it copies pixels into a buffer, converting them to the type of the buffer.
-/
import Verif.Loader
import Mathlib.Algebra.Order.Field.Rat

namespace Verif
namespace Gdal

open Loader (Part RPart)

/-- `_GDAL_DTYPE_LUT`, lazy_loaders.py:105-117, without the complex types. -/
inductive DType where
  | uint8 | uint16 | int16 | uint32 | int32 | float32 | float64
deriving DecidableEq, Repr

/-- The integer range of a type; floats have none. -/
def DType.range : DType → Option (Int × Int)
  | .uint8 => some (0, 255)
  | .uint16 => some (0, 65535)
  | .int16 => some (-32768, 32767)
  | .uint32 => some (0, 4294967295)
  | .int32 => some (-2147483648, 2147483647)
  | .float32 => none
  | .float64 => none

/-- A pixel value.  Floats are exact (simplification). -/
inductive Val where
  | num (q : ℚ)
  | nan
deriving DecidableEq

/-- Conversion of a pixel to a type (external: GDAL rounds and clamps to integer types). -/
def DType.cast (d : DType) (v : Val) : Val :=
  match d.range with
  | none => v
  | some (lo, hi) =>
    match v with
    | .nan => .num 0
    | .num q => .num ((max lo (min hi (q + 1 / 2).floor) : Int) : ℚ)

/-- `np.result_type(dtype, np.float32)`, lazy_loaders.py:271 and 751. -/
def DType.promote : DType → DType
  | .uint8 => .float32
  | .uint16 => .float32
  | .int16 => .float32
  | .uint32 => .float64
  | .int32 => .float64
  | .float32 => .float32
  | .float64 => .float64

/-- A raster band at one resolution: `DataType`, `GetNoDataValue()`, `XSize`, `YSize`, pixels by row and
column. -/
structure Plane where
  dtype : DType
  nodata : Option Val
  w : Nat
  h : Nat
  px : Nat → Nat → Val

/-- A band with its overviews. -/
structure Band extends Plane where
  ovs : List Plane

/-- An opened file: its bands (at least one), whether GDAL can name the dataset of an overview (the bands
of that dataset are the overviews of the bands), whether there are subdatasets, and whether the
interleave metadata says `BAND`. -/
structure File where
  first : Band
  rest : List Band
  ownDataset : Nat → Bool
  subdatasets : Bool
  bandInterleave : Bool

/-- The raster bands in order. -/
def File.bands (f : File) : List Band := f.first :: f.rest

/-- `band.GetOverview(i)`: `None` for an index that does not exist. -/
def Band.getOverview (b : Band) (i : Int) : Option Plane :=
  if 0 ≤ i then b.ovs[i.toNat]? else none

/-- A lazy reference to a file, lazy_loaders.py:565-571. -/
structure Lazy where
  file : File
  overview : Int
  method : Option Str

/-- `LazyGDalFrameFile.__init__`, lazy_loaders.py:565-571. -/
def Lazy.new (file : File) (method : Option Str) (overview : Option Int) : Lazy :=
  { file := file, method := method, overview := match overview with | none => 0 | some k => k }

/-- `get_absolute_overview`, lazy_loaders.py:616-624. -/
def Lazy.getAbsoluteOverview (l : Lazy) (k : Int) : Lazy := Lazy.new l.file l.method (some k)

/-- `get_overview`, lazy_loaders.py:610-614. -/
def Lazy.getOverview (l : Lazy) (k : Int) : Lazy := l.getAbsoluteOverview (k + l.overview)

/-- `num_overviews`, lazy_loaders.py:848-857. -/
def Lazy.numOverviews (l : Lazy) : Int := (l.file.first.ovs.length : Int) - l.overview

/-- `shape`, lazy_loaders.py:859-883: height, width, bands. -/
def Lazy.shape (l : Lazy) : Py (Nat × Nat × Nat) :=
  let band0 := l.file.first
  let c := l.file.bands.length
  if l.overview ≠ 0 then
    let load := min l.overview (band0.ovs.length : Int)
    if load ≠ 0 then
      if l.overview - load ≠ 0 then .error .valueError
      else
        match band0.getOverview (load - 1) with
        | none => .error .attributeError
        | some p => .ok (p.h, p.w, c)
    else .ok (band0.h, band0.w, c)
  else .ok (band0.h, band0.w, c)

/-- `_read_ds`, lazy_loaders.py:637-660: the bands of the dataset that the fast strategy reads; a band
without that overview is absent from it. -/
def Lazy.readDs (l : Lazy) : Py (List (Option Plane)) :=
  if l.overview ≤ 0 then .ok (l.file.bands.map (fun b => some b.toPlane))
  else if l.overview > (l.file.first.ovs.length : Int) then .error .valueError
  else if l.file.ownDataset (l.overview - 1).toNat then
    .ok (l.file.bands.map (fun b => b.getOverview (l.overview - 1)))
  else .ok (l.file.bands.map (fun b => some b.toPlane))

/-- All present. -/
def allSome {α} : List (Option α) → Option (List α)
  | [] => some []
  | none :: _ => none
  | some a :: rest =>
    match allSome rest with
    | none => none
    | some as => some (a :: as)

/-- `_read_bands`, lazy_loaders.py:662-681. -/
def Lazy.readBands (l : Lazy) : Py (List Plane) :=
  if l.overview ≤ 0 then .ok (l.file.bands.map (·.toPlane))
  else if l.overview > (l.file.first.ovs.length : Int) then .error .valueError
  else
    match allSome (l.file.bands.map (fun b => b.getOverview (l.overview - 1))) with
    | none => .error .assertionError
    | some ps => .ok ps

/-- An array that was read: its type, whether it is two-dimensional (rows of columns, one channel) or
three-dimensional, whether it is a masked array, and for each row, column and channel the value and
whether it is masked out. -/
structure Arr where
  dtype : DType
  flat : Bool
  masked : Bool
  data : List (List (List (Val × Bool)))
deriving DecidableEq

/-- `np.equal` on pixels. -/
def npEqual : Val → Val → Bool
  | .num a, .num b => decide (a = b)
  | _, _ => false

/-- Read one band into a buffer of a type: rows of values. -/
def readPlane (skip : Bool) (d : DType) (y x : Int × Int) (p : Plane) : Py (List (List Val)) :=
  match Loader.gdalRead skip p.h y with
  | .error e => .error e
  | .ok rows =>
    match Loader.gdalRead skip p.w x with
    | .error e => .error e
    | .ok cols => .ok (rows.map (fun i => cols.map (fun j => d.cast (p.px i j))))

/-- Read several bands, in order. -/
def readPlanes (skip : Bool) (d : DType) (y x : Int × Int) : List Plane → Py (List (List (List Val)))
  | [] => .ok []
  | p :: ps =>
    match readPlane skip d y x p with
    | .error e => .error e
    | .ok im =>
      match readPlanes skip d y x ps with
      | .error e => .error e
      | .ok ims => .ok (im :: ims)

/-- The mask of a band, lazy_loaders.py:730-746 and 226-233, 262-265. -/
def maskOf (p : Plane) (im : List (List Val)) : List (List Bool) :=
  match p.nodata with
  | none => im.map (fun row => row.map (fun _ => false))
  | some nd => im.map (fun row => row.map (fun v => npEqual v nd))

/-- Band-major images as rows of columns of channels, `transpose(1, 2, 0)`, lazy_loaders.py:727. -/
def toHWC {α} (dflt : α) (h w : Nat) (ims : List (List (List α))) : List (List (List α)) :=
  (List.range h).map (fun i => (List.range w).map (fun j => ims.map (fun im => (im.getD i []).getD j dflt)))

/-- The end of both strategies, lazy_loaders.py:748-755 and 267-275, on band-major images. -/
def applyMethod (method : Option Str) (d : DType) (h w : Nat) (ps : List Plane)
    (ims : List (List (List Val))) : Py Arr :=
  let flat := decide (ps.length = 1)
  match method with
  | none =>
    .ok { dtype := d, flat := flat, masked := false,
          data := (toHWC .nan h w ims).map (List.map (List.map (fun v => (v, false)))) }
  | some m =>
    let masks := List.zipWith maskOf ps ims
    let both := List.zipWith (List.zipWith (List.zipWith (fun v b => (v, b)))) (toHWC .nan h w ims)
      (toHWC false h w masks)
    if m = p! "ma" then .ok { dtype := d, flat := flat, masked := true, data := both }
    else if m = p! "float" ∨ m = p! "nan" then
      .ok { dtype := d.promote, flat := flat, masked := false,
            data := both.map (List.map (List.map
              (fun vb => (if vb.2 then .nan else d.promote.cast vb.1, false)))) }
    else .error .keyError

/-- Bands of the dataset by one-based number (external: an unknown number is an error). -/
def pickDs (ds : List (Option Plane)) : List Int → Py (List Plane)
  | [] => .ok []
  | b :: bs =>
    if 0 ≤ b then
      match ds[b.toNat]? with
      | some (some p) =>
        match pickDs ds bs with
        | .error e => .error e
        | .ok ps => .ok (p :: ps)
      | _ => .error .generic
    else .error .generic

/-- The type of the buffer, lazy_loaders.py:710-721: one band is read as it is, several into an array of
the type of the first band of the file (`dtype`, 885-889). -/
def bufferType (f : File) (ps : List Plane) : DType :=
  match ps with
  | [p] => p.dtype
  | _ => f.first.dtype

/-- `_dataset_read_as_array`, lazy_loaders.py:687-771. -/
def fastRead (skip : Bool) (l : Lazy) (y x : Int × Int) (bands : List Int) (method : Option Str) :
    Py Arr :=
  if bands = [] then
    if y.2 < 0 ∨ x.2 < 0 then .error .valueError
    else .ok { dtype := l.file.first.dtype, flat := false, masked := false,
               data := List.replicate y.2.toNat (List.replicate x.2.toNat []) }
  else
    match l.readDs with
    | .error e => .error e
    | .ok ds =>
      match pickDs ds bands with
      | .error e => .error e
      | .ok ps =>
        let d := bufferType l.file ps
        match readPlanes skip d y x ps with
        | .error e => .error e
        | .ok ims => applyMethod method d y.2.toNat x.2.toNat ps ims

/-- A Python tuple indexed by an integer. -/
def pyGet {α} (xs : List α) (i : Int) : Py α :=
  let j := if i < 0 then i + xs.length else i
  if j < 0 then .error .indexError
  else
    match xs[j.toNat]? with
    | none => .error .indexError
    | some a => .ok a

/-- The same for several indices. -/
def pyGets {α} (xs : List α) : List Int → Py (List α)
  | [] => .ok []
  | i :: is =>
    match pyGet xs i with
    | .error e => .error e
    | .ok a =>
      match pyGets xs is with
      | .error e => .error e
      | .ok as => .ok (a :: as)

/-- `_gdal_read_kwimage_compatible` with preloaded bands and the colour table ignored,
lazy_loaders.py:121-277. -/
def vendoredRead (skip : Bool) (l : Lazy) (y x : Int × Int) (ps : List Plane) (method : Option Str) :
    Py Arr :=
  if l.file.subdatasets then .error .notImplemented
  else
    match ps with
    | [] => .error .indexError
    | p0 :: _ =>
      match readPlanes skip p0.dtype y x ps with
      | .error e => .error e
      | .ok ims => applyMethod method p0.dtype y.2.toNat x.2.toNat ps ims

/-- What is not decided here: whether the fast path is switched on (`GDAL_FAST_PATH`), whether GDAL
accepts empty windows, and what kwimage's own reader answers. -/
structure World where
  fast : Bool
  skip : Bool
  upstream : File → Int → (Int × Int) → (Int × Int) → List Int → Option Str → Py Arr

/-- `_compat_gdal_read`, lazy_loaders.py:773-823. -/
def compatRead (W : World) (l : Lazy) (y x : Int × Int) (bands : List Int) (method : Option Str) :
    Py Arr :=
  match l.readBands with
  | .error e => .error e
  | .ok bs =>
    match pyGets bs bands with
    | .error e => .error e
    | .ok ps =>
      match vendoredRead W.skip l y x ps method with
      | .ok a => .ok a
      | .error _ => W.upstream l.file l.overview y x bands method

/-- `LazyGDalFrameFile.__getitem__`, lazy_loaders.py:989-1073. -/
def getItem (W : World) (l : Lazy) (index : List Part) : Py Arr :=
  match l.shape with
  | .error e => .error e
  | .ok (h, w, c) =>
    if l.file.bandInterleave ∧ l.file.subdatasets then .error .notImplemented
    else
      match Loader.expandIndex index with
      | .error e => .error e
      | .ok index =>
        match Loader.rectify (index.getD 0 .none) h with
        | .error e => .error e
        | .ok yp =>
          match Loader.rectify (index.getD 1 .none) w with
          | .error e => .error e
          | .ok xp =>
            match Loader.rectify (index.getD 2 .none) c with
            | .error e => .error e
            | .ok cp =>
              match Loader.windowOf yp with
              | .error e => .error e
              | .ok y =>
                match Loader.windowOf xp with
                | .error e => .error e
                | .ok x =>
                  let bands := Loader.bandsOf c cp
                  let method := if l.method = some (p! "auto") then some (p! "float") else l.method
                  if W.fast then
                    match fastRead W.skip l y x bands method with
                    | .ok a => .ok a
                    | .error _ => compatRead W l y x bands method
                  else compatRead W l y x bands method

end Gdal
end Verif
