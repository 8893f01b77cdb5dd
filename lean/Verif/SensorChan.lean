/-
Model of `delayed_image/sensorchan_spec.py`: the grammar, the tree transformer, `SensorChanSpec`
and `FusedSensorChanSpec`.

The LALR parser of the external `lark` package is modelled as a function on strings that accepts the
grammar in sensorchan_spec.py:42-88.  One LALR detail is included: after `"(" IDEN` the grammar has a
shift/reduce conflict on `","` which lark resolves as shift, so a parenthesised channel sequence
without sensor whose first entry is a bare identifier is rejected.
-/
import Verif.Chan

namespace Verif
namespace SC

/-- `LETTER` of lark's common grammar (ASCII), sensorchan_spec.py:86. -/
def isLetter (c : Char) : Bool :=
  decide ((65 ≤ c.toNat ∧ c.toNat ≤ 90) ∨ (97 ≤ c.toNat ∧ c.toNat ≤ 122))

/-- `DIGIT`, sensorchan_spec.py:85. -/
def isDigit (c : Char) : Bool := decide (48 ≤ c.toNat ∧ c.toNat ≤ 57)

/-- First character of `IDEN`, sensorchan_spec.py:48. -/
def idenStart (c : Char) : Bool := c = '_' || c = '*' || isLetter c

/-- Later characters of `IDEN`, sensorchan_spec.py:48. -/
def idenChar (c : Char) : Bool :=
  c = '_' || c = ' ' || c = '-' || c = '*' || isLetter c || isDigit c

/-- `IDEN`, sensorchan_spec.py:48. -/
def isIden : Str → Bool
  | [] => false
  | c :: cs => idenStart c && cs.all idenChar

/-- `INT`, sensorchan_spec.py:87. -/
def isInt (s : Str) : Bool := decide (s ≠ []) && s.all isDigit

/-- `['{}.{}'.format(code, index) for index in range(a, b)]`, sensorchan_spec.py:697-706. -/
def sliceCodes (root : Str) (a b : Int) : List Str :=
  (rangeUp (b - a).toNat a b 1).map (dotted root)

/-- `chan_code` with its four alternatives and their transformations, sensorchan_spec.py:50-57,
689-709. -/
def codeOf (s : Str) : Py (List Str) :=
  match splitOnce '.' s with
  | some (r, suf) =>
    if isIden r then
      match splitOn ':' suf with
      | [a] => if isInt a then .ok [r ++ '.' :: a] else .error .generic
      | [a, b] =>
        if isInt a && isInt b then do
          let i ← pyInt a
          let j ← pyInt b
          .ok (sliceCodes r i j)
        else .error .generic
      | _ => .error .generic
    else .error .generic
  | none =>
    match splitOn ':' s with
    | [r] => if isIden r then .ok [r] else .error .generic
    | [r, b] =>
      if isIden r && isInt b then do
        let j ← pyInt b
        .ok (sliceCodes r 0 j)
      else .error .generic
    | [r, a, b] =>
      if isIden r && isInt a && isInt b then do
        let i ← pyInt a
        let j ← pyInt b
        .ok (sliceCodes r i j)
      else .error .generic
    | _ => .error .generic

/-- Concatenated results of a list of computations (`ub.flatten` of the children's results). -/
def flatMapM {α β} (f : α → Py (List β)) : List α → Py (List β)
  | [] => .ok []
  | x :: xs => do
    let a ← f x
    let b ← flatMapM f xs
    .ok (a ++ b)

/-- Results of a list of computations. -/
def mapAll {α β} (f : α → Py β) : List α → Py (List β)
  | [] => .ok []
  | x :: xs => do
    let a ← f x
    let b ← mapAll f xs
    .ok (a :: b)

/-- `fused`, sensorchan_spec.py:59-60 and 718-719: the codes of the `FusedChanNode`. -/
def fusedOf (s : Str) : Py (List Str) := flatMapM codeOf (splitOn '|' s)

/-- Text before the closing parenthesis that ends the string. -/
def unparen (s : Str) : Py Str :=
  match splitOnce ')' s with
  | some (inner, []) => .ok inner
  | _ => .error .generic

/-- `channel_rhs`, sensorchan_spec.py:62-71 and 724-731. -/
def parseRhs (s : Str) : Py (List (List Str)) :=
  match s with
  | '(' :: rest => do
    let inner ← unparen rest
    mapAll fusedOf (splitOn ',' inner)
  | _ => do
    let f ← fusedOf s
    .ok [f]

/-- The optional right hand side of `sensor_chan`, sensorchan_spec.py:73, 747-749. -/
def parseRhsOpt (s : Str) : Py (List (List Str)) := if s = [] then .ok [[]] else parseRhs s

/-- `it.product(lhs, rhs)`, sensorchan_spec.py:753. -/
def product (lhs : List Str) (rhs : List (List Str)) : List (Str × List Str) :=
  lhs.flatMap (fun a => rhs.map (fun b => (a, b)))

/-- The text starts with a digit (lookahead of the LALR parser after `IDEN ":"`). -/
def startsDigit : Str → Bool
  | [] => false
  | c :: _ => isDigit c

/-- `stream_item`, sensorchan_spec.py:65-77 and 711-759, as the list of (sensor, codes). -/
def parseItem (s : Str) : Py (List (Str × List Str)) :=
  match s with
  | '(' :: rest =>
    match splitOnce ')' rest with
    | none => .error .generic
    | some (inner, after) =>
      match after with
      | ':' :: rhs =>
        if (splitOn ',' inner).all isIden then do
          let r ← parseRhsOpt rhs
          .ok (product (splitOn ',' inner) r)
        else .error .generic
      | [] =>
        if decide (2 ≤ (splitOn ',' inner).length) && isIden ((splitOn ',' inner).headD []) then
          .error .generic
        else do
          let r ← mapAll fusedOf (splitOn ',' inner)
          .ok (product [p! "*"] r)
      | _ => .error .generic
  | _ =>
    match splitOnce ':' s with
    | some (a, rhs) =>
      if isIden a && !startsDigit rhs then do
        let r ← parseRhsOpt rhs
        .ok (product [a] r)
      else do
        let f ← fusedOf s
        .ok (product [p! "*"] [f])
    | none => do
      let f ← fusedOf s
      .ok (product [p! "*"] [f])

/-- `stream : stream_item ("," stream_item)*`, sensorchan_spec.py:82: split at the commas outside
parentheses. -/
def splitTop : Nat → Str → List Str
  | _, [] => [[]]
  | d, c :: cs =>
    if c = ',' ∧ d = 0 then [] :: splitTop 0 cs
    else
      let d' := if c = '(' then d + 1 else if c = ')' then d - 1 else d
      match splitTop d' cs with
      | [] => [[c]]
      | w :: ws => (c :: w) :: ws

/-- The parse of a spec as a flat list of (sensor, codes): `sensorchan_normalized_parts`,
sensorchan_spec.py:881-897 with 761-762, 788-790. -/
def nodes (spec : Str) : Py (List (Str × List Str)) := flatMapM parseItem (splitTop 0 spec)

/-- `str` of a node, sensorchan_spec.py:600-602. -/
def nodeSpec (n : Str × List Str) : Str := n.1 ++ ':' :: joinWith '|' n.2

/-- A `FusedSensorChanSpec`, sensorchan_spec.py:506-509. -/
structure FSC where
  sensor : Str
  chans : Fused
deriving DecidableEq, Repr

/-- `FusedSensorChanSpec.spec`, sensorchan_spec.py:583-585. -/
def FSC.spec (f : FSC) : Str := f.sensor ++ ':' :: f.chans.spec

/-- `streams`, sensorchan_spec.py:290-301. -/
def streams (spec : Str) : Py (List FSC) :=
  (nodes spec).map (fun ns => ns.map (fun n => ⟨n.1, ⟨n.2, false⟩⟩))

/-- `normalize_sensor_chan`, sensorchan_spec.py:814-839. -/
def normalize (spec : Str) : Py Str := do
  let ns ← nodes (if spec = [] then p! "*:" else spec)
  .ok (joinWith ',' (ns.map nodeSpec))

/-- Sum of the sizes of the streams. -/
def numelLoop : List FSC → Py Nat
  | [] => .ok 0
  | s :: ss => do
    let a ← s.chans.numel
    let b ← numelLoop ss
    .ok (a + b)

/-- `numel`, sensorchan_spec.py:211-212. -/
def numel (spec : Str) : Py Nat := do
  let ss ← streams spec
  numelLoop ss

/-! #### concise -/

/-- `ub.group_items(items, groupids)`: values grouped by key, keys in order of first appearance
(modelled from its documentation). -/
def groupItems {κ α} [DecidableEq κ] (l : List (κ × α)) : List (κ × List α) :=
  (Fused.oset (l.map Prod.fst)).map (fun k => (k, (l.filter (fun p => decide (p.1 = k))).map Prod.snd))

/-- `fused` with `concise_channels`, sensorchan_spec.py:719-722, and `str` of the node. -/
def conciseChan (codes : List Str) : Py Str := do
  let g ← (⟨codes, false⟩ : Fused).concise
  .ok g.spec

/-- Flat list of (channel text, sensor), sensorchan_spec.py:765-766.  Simplification: the channels of
a node are made concise once per node instead of once per parse tree node; the result is the same. -/
def conciseNodes : List (Str × List Str) → Py (List (Str × Str))
  | [] => .ok []
  | n :: ns => do
    let c ← conciseChan n.2
    let r ← conciseNodes ns
    .ok ((c, n.1) :: r)

/-- First pass for one channel text, sensorchan_spec.py:771-776. -/
def sensePart (sensors : List Str) : Str :=
  let p := joinWith ',' (Chan.sortStr (Fused.oset sensors))
  if 1 < sensors.length then '(' :: (p ++ [')']) else p

/-- Second pass for one sensor text, sensorchan_spec.py:780-784. -/
def chanPart (sensor : Str) (chans : List Str) : Str :=
  let p := joinWith ',' chans
  sensor ++ ':' :: (if 1 < chans.length then '(' :: (p ++ [')']) else p)

/-- Groups of the first pass, as (sensor text, channel text), sensorchan_spec.py:767-776. -/
def pass1 (flat : List (Str × Str)) : List (Str × Str) :=
  (groupItems flat).map (fun g => (sensePart g.2, g.1))

/-- `stream` with `concise_sensors`, sensorchan_spec.py:765-787. -/
def conciseParts (flat : List (Str × Str)) : List Str :=
  Chan.sortStr ((groupItems (pass1 flat)).map (fun g => chanPart g.1 g.2))

/-- `concise_sensor_chan`, sensorchan_spec.py:842-858. -/
def concise (spec : Str) : Py Str := do
  let ns ← nodes spec
  let flat ← conciseNodes ns
  .ok (joinWith ',' (conciseParts flat))

/-! #### late fusion, matching -/

/-- `late_fuse` on the spec strings, sensorchan_spec.py:329-396. -/
def lateFuse (specs : List Str) : Str := joinWith ',' (specs.filter (fun s => decide (s ≠ [])))

/-- The result of `matching_sensor`: the spec itself, one stream, or a late fused spec. -/
inductive Match where
  | same (spec : Str)
  | one (f : FSC)
  | many (spec : Str)
deriving DecidableEq, Repr

/-- `sum(matching_streams)`: `0 + s0 + s1 + ...` with `__radd__` and `__add__`,
sensorchan_spec.py:398-410, 451. -/
def sumStreams : List FSC → Option Match
  | [] => none
  | [f] => some (.one f)
  | f :: g :: rest => some (.many (rest.foldl (fun acc h => lateFuse [acc, h.spec]) (lateFuse [f.spec, g.spec])))

/-- `matching_sensor`, sensorchan_spec.py:412-458. -/
def matchingSensor (spec : Str) (sensor : Str) : Py Match :=
  if sensor = p! "*" then .ok (.same spec)
  else do
    let ss ← streams spec
    match sumStreams (ss.filter (fun s => decide (s.sensor = sensor ∨ s.sensor = p! "*"))) with
    | some m => .ok m
    | none => .ok (.one ⟨sensor, ⟨[], false⟩⟩)

/-- The spec string of the result. -/
def Match.spec : Match → Str
  | .same s => s
  | .one f => f.spec
  | .many s => s

/-! #### split -/

/-- Inner loop of `split` for one stream, sensorchan_spec.py:320-324: `chans.split()` is
`ChannelSpec(','.join(normalized codes))` (channel_spec.py:904-922) and `streams()` splits it at the
commas. -/
def splitStream (f : FSC) : Py (List Str) := do
  let l ← f.chans.asList
  .ok (((⟨joinWith ',' l, none⟩ : Chan).streams).map (fun g => f.sensor ++ ':' :: g.spec))

/-- `split`, sensorchan_spec.py:303-327. -/
def split (spec : Str) : Py Str := do
  let ss ← streams spec
  let l ← flatMapM splitStream ss
  .ok (joinWith ',' l)

end SC
end Verif
