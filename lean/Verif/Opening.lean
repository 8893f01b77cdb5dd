/-
Opening lazy files, lazy_loaders.py:563-632: the dataset is opened at the first access, kept by the object,
handed to its overviews, and put into an optional global cache.  The disk may change at any time.

Simplified: file modes and threads are left out; exceptions of the operating system and of GDAL are `generic`.
-/
import Verif.Envi
import Verif.Loader

namespace Verif
namespace Opening

open Loader

/-- The disk as the code sees it: the text of a file (`open(file).read()`) and what `gdal.Open` returns. -/
structure Disk (D : Type) where
  text : Str → Option Str
  gdal : Str → Option D

/-- `path.endswith(suffix)`. -/
def endsWith (s suffix : Str) : Bool := suffix.reverse.isPrefixOf s.reverse

/-- The characters after the last slash. -/
def baseName (s : Str) : Str := (s.reverse.takeWhile (fun c => decide (c ≠ '/'))).reverse

/-- `ub.augpath(path, ext=ext)` for a path that ends with '.hdr': the extension is replaced, unless the name
is only dots before it, which `os.path.splitext` takes as a name without an extension. -/
def augHdr (path ext : Str) : Str :=
  if ((baseName path).take ((baseName path).length - 4)).all (fun c => decide (c = '.')) then path ++ ext
  else path.take (path.length - 4) ++ ext

/-- The file that is opened, lazy_loaders.py:583-588. -/
def dataPath {D : Type} (disk : Disk D) (fpath : Str) : Py Str :=
  if endsWith fpath (p! ".hdr") then
    match disk.text fpath with
    | none => .error .generic
    | some t =>
      match Envi.dataExt t with
      | .error e => .error e
      | .ok ext => .ok (augHdr fpath ext)
  else .ok fpath

/-- `GLOBAL_GDAL_CACHE`, lazy_loaders.py:59-62: `None`, or a `CacheDict` with its length. -/
structure Cache (D : Type) where
  len : Nat
  items : List (Str × D)

/-- `_reload_cache`, lazy_loaders.py:580-608: the cache afterwards, and the dataset. -/
def reload {D : Type} (disk : Disk D) (cache : Option (Cache D)) (fpath : Str) : Option (Cache D) × Py D :=
  match dataPath disk fpath with
  | .error e => (cache, .error e)
  | .ok path =>
    match cache.bind (fun c => odGet c.items path) with
    | some d => (cache.map (fun c => { c with items := (cacheGet c.items path).1 }), .ok d)
    | none =>
      match disk.gdal path with
      | none => (cache, .error .generic)
      | some d => (cache.map (fun c => { c with items := cacheSet c.len c.items path d }), .ok d)

/-- A `LazyGDalFrameFile`, lazy_loaders.py:563-569: its path and `_ds_cache`. -/
structure Obj (D : Type) where
  fpath : Str
  ds : Option D

/-- All objects, the disk and the cache. -/
structure State (D : Type) where
  disk : Disk D
  cache : Option (Cache D)
  objs : List (Obj D)

/-- What can happen: a new object (lazy_loaders.py:563-569), an access to the dataset of an object (`_ds`,
625-630), an overview of an object (`get_absolute_overview`, 616-624), a change of the disk. -/
inductive Act (D : Type) where
  | create (fpath : Str)
  | access (i : Nat)
  | overview (i : Nat)
  | change (disk : Disk D)

/-- One action: the state afterwards, and what an access returns. -/
def act {D : Type} (s : State D) : Act D → State D × Option (Py D)
  | .create p => ({ s with objs := s.objs ++ [⟨p, none⟩] }, none)
  | .access i =>
    match s.objs[i]? with
    | none => (s, none)
    | some o =>
      match o.ds with
      | some d => (s, some (.ok d))
      | none =>
        match reload s.disk s.cache o.fpath with
        | (c, .error e) => ({ s with cache := c }, some (.error e))
        | (c, .ok d) => ({ s with cache := c, objs := s.objs.set i ⟨o.fpath, some d⟩ }, some (.ok d))
  | .overview i =>
    match s.objs[i]? with
    | none => (s, none)
    | some o => ({ s with objs := s.objs ++ [⟨o.fpath, o.ds⟩] }, none)
  | .change disk => ({ s with disk := disk }, none)

/-- A sequence of actions: the state at the end and what the accesses return. -/
def perform {D : Type} (s : State D) : List (Act D) → State D × List (Py D)
  | [] => (s, [])
  | a :: as =>
    let r := act s a
    let rest := perform r.1 as
    (rest.1, r.2.toList ++ rest.2)

end Opening
end Verif
