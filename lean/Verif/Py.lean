/-
Basic Python vocabulary used by the model: exceptions as values, strings as lists of
characters, `str.split`, `str.join`, decimal integers and `range`.
-/

namespace Verif

/-- The Python exceptions that the modelled code can raise. -/
inductive PyErr where
  | valueError | keyError | typeError | indexError | attributeError | assertionError
  | notImplemented | coordinateCompat | recursion | generic
deriving DecidableEq, Repr

/-- A Python computation: a value or an exception. -/
abbrev Py := Except PyErr

instance {α} [DecidableEq α] : DecidableEq (Py α) := fun a b =>
  match a, b with
  | .ok x, .ok y => if h : x = y then isTrue (by rw [h]) else isFalse (by simpa using h)
  | .error x, .error y => if h : x = y then isTrue (by rw [h]) else isFalse (by simpa using h)
  | .ok _, .error _ => isFalse (by simp)
  | .error _, .ok _ => isFalse (by simp)

/-- A Python string, as its sequence of code points. -/
abbrev Str := List Char

/-- `p! "abc"` is the character list `['a', 'b', 'c']`. -/
macro "p! " s:str : term => do
  let cs := s.getString.toList.map (fun c => Lean.Syntax.mkCharLit c)
  `(([$(cs.toArray),*] : Str))

/-- `s.split(c)` for a one character separator. -/
def splitOn (c : Char) : Str → List Str
  | [] => [[]]
  | x :: xs =>
    if x = c then [] :: splitOn c xs
    else match splitOn c xs with
      | [] => [[x]]
      | w :: ws => (x :: w) :: ws

/-- `c.join(parts)` for a one character separator. -/
def joinWith (c : Char) : List Str → Str
  | [] => []
  | [w] => w
  | w :: w' :: ws => w ++ c :: joinWith c (w' :: ws)

/-- `a, b = s.split(c, 1)`: text before and after the first `c`; `none` if there is no `c`. -/
def splitOnce (c : Char) : Str → Option (Str × Str)
  | [] => none
  | x :: xs =>
    if x = c then some ([], xs)
    else match splitOnce c xs with
      | none => none
      | some (a, b) => some (x :: a, b)

/-! ### Decimal integers -/

/-- The digit character of `d < 10`. -/
def digitChar (d : Nat) : Char := Char.ofNat (48 + d)

/-- Value of a decimal digit character. -/
def digitVal? (c : Char) : Option Nat :=
  if 48 ≤ c.toNat ∧ c.toNat ≤ 57 then some (c.toNat - 48) else none

/-- Decimal digits of `n`, `fuel > n` suffices. -/
def natStrF : Nat → Nat → Str
  | 0, _ => []
  | f + 1, n => if n < 10 then [digitChar n] else natStrF f (n / 10) ++ [digitChar (n % 10)]

/-- `str(n)` for a natural number. -/
def natStr (n : Nat) : Str := natStrF (n + 1) n

/-- `str(i)` for an integer. -/
def intStr : Int → Str
  | .ofNat n => natStr n
  | .negSucc n => '-' :: natStr (n + 1)

/-- Digits (with single underscores between digits) after the first digit, as accepted by
`int(...)`.  Simplification: only ASCII digits. -/
def goDigits (acc : Nat) : Str → Option Nat
  | [] => some acc
  | c :: cs =>
    match digitVal? c with
    | some d => goDigits (acc * 10 + d) cs
    | none =>
      if c = '_' then
        match cs with
        | [] => none
        | c' :: cs' =>
          match digitVal? c' with
          | some d => goDigits (acc * 10 + d) cs'
          | none => none
      else none

/-- A nonempty digit string. -/
def parseNat? : Str → Option Nat
  | [] => none
  | c :: cs =>
    match digitVal? c with
    | some d => goDigits d cs
    | none => none

/-- ASCII white space, stripped by `int(...)`. -/
def isWs (c : Char) : Bool := c = ' ' || c = '\t' || c = '\n' || c = '\r' || c.toNat = 11 || c.toNat = 12

/-- `s.strip()` restricted to ASCII white space. -/
def strip (s : Str) : Str := ((s.dropWhile isWs).reverse.dropWhile isWs).reverse

/-- `int(s)`: optional white space, sign and ASCII digits with underscores, else `ValueError`. -/
def pyInt (s : Str) : Py Int :=
  match strip s with
  | '-' :: cs => match parseNat? cs with
    | some n => .ok (-(n : Int))
    | none => .error .valueError
  | '+' :: cs => match parseNat? cs with
    | some n => .ok n
    | none => .error .valueError
  | cs => match parseNat? cs with
    | some n => .ok n
    | none => .error .valueError

/-! ### range -/

/-- The values of `range(a, b, s)` for `s > 0`, by stepping; `fuel` bounds the number of steps. -/
def rangeUp : Nat → Int → Int → Int → List Int
  | 0, _, _, _ => []
  | f + 1, a, b, s => if a < b then a :: rangeUp f (a + s) b s else []

/-- The values of `range(a, b, s)` for `s < 0`. -/
def rangeDown : Nat → Int → Int → Int → List Int
  | 0, _, _, _ => []
  | f + 1, a, b, s => if b < a then a :: rangeDown f (a + s) b s else []

/-- `list(range(a, b, s))`; `range` with a zero step raises `ValueError`. -/
def pyRange (a b s : Int) : Py (List Int) :=
  if s = 0 then .error .valueError
  else if 0 < s then .ok (rangeUp (b - a).toNat a b s)
  else .ok (rangeDown (a - b).toNat a b s)

/-- `len(range(a, b, s))` by CPython's closed formula (Objects/rangeobject.c,
`compute_range_length`). -/
def pyRangeLen (a b s : Int) : Py Nat :=
  if s = 0 then .error .valueError
  else if 0 < s then .ok (if a < b then ((b - a - 1) / s + 1).toNat else 0)
  else .ok (if b < a then ((a - b - 1) / (-s) + 1).toNat else 0)

end Verif
