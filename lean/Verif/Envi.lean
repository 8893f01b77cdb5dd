/-
Model of `_read_envi_header`, lazy_loaders.py:1140-1224, and of the choice of the data file in
`LazyGDalFrameFile._reload_cache`, lazy_loaders.py:580-588.

Simplifications.  The text of the file is given (no binary files), with `\n` between lines (Python translates
other line ends).  White space and upper case are those of ASCII.  The warning about upper case keys is left out.
-/
import Verif.Chan

namespace Verif
namespace Envi

/-- `s.lower()`. -/
def lower (s : Str) : Str := s.map Char.toLower

/-- A value of the dictionary: a string or a list of strings. -/
inductive Value where
  | text (s : Str)
  | list (l : List Str)
deriving DecidableEq, Repr

abbrev Header := List (Str × Value)

def isBrace (c : Char) : Bool := c = '{' || c = '}'

/-- `s.strip('{}')`. -/
def stripBraces (s : Str) : Str := ((s.dropWhile isBrace).reverse.dropWhile isBrace).reverse

/-- `dict[key] = ...` for a complete braced value, lazy_loaders.py:1199-1205. -/
def store (d : Header) (key s : Str) : Header :=
  if key = p! "description" then dictSet d key (.text (strip (stripBraces s)))
  else dictSet d key (.list ((splitOn ',' (s.drop 1).dropLast).map strip))

/-- The loop over the lines, lazy_loaders.py:1176-1207, as one pass: `open_` is the key and the text of a
braced value that is not closed yet (the inner loop 1194-1198).  `lines.pop(0)` raises IndexError if the file
ends inside of braces. -/
def readLines : Option (Str × Str) → Header → List Str → Py Header
  | none, d, [] => .ok d
  | some _, _, [] => .error .indexError
  | none, d, line :: rest =>
    match splitOnce '=' line with
    | none => readLines none d rest
    | some (k, v) =>
      if line.head? = some ';' then readLines none d rest
      else
        let key := lower (strip k)
        let val := strip v
        if val.head? = some '{' then
          if val.getLast? = some '}' then readLines none (store d key val) rest
          else readLines (some (key, val)) d rest
        else readLines none (dictSet d key (.text val)) rest
  | some (key, s), d, line :: rest =>
    if line.head? = some ';' then readLines (some (key, s)) d rest
    else
      let s' := s ++ '\n' :: strip line
      if s'.getLast? = some '}' then readLines none (store d key s') rest
      else readLines (some (key, s')) d rest

/-- `_read_envi_header`, lazy_loaders.py:1153-1224. -/
def readHeader (text : Str) : Py Header :=
  match splitOn '\n' text with
  | [] => .error .generic
  | first :: rest =>
    if (p! "ENVI").isPrefixOf (strip first) then readLines none [] rest else .error .generic

/-- The extension of the data file of a header, lazy_loaders.py:584-588. -/
def dataExt (text : Str) : Py Str :=
  match readHeader text with
  | .error e => .error e
  | .ok d =>
    match dictGet d (p! "interleave") with
    | none => .error .keyError
    | some (.list _) => .error .typeError
    | some (.text s) => .ok ('.' :: s)

end Envi
end Verif
