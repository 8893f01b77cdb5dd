/-
Model of the conversions between channel specs and sensor-channel specs in
`delayed_image/sensorchan_spec.py`: `SensorChanSpec.chans`, `SensorChanSpec.coerce` and the
constructors and methods of `FusedSensorChanSpec`.
-/
import Verif.SensorChan

namespace Verif
namespace SC

/-- `ub.allsame(items)`: every item equals the first one (modelled from its documentation). -/
def allSame : List Str → Bool
  | [] => true
  | a :: rest => rest.all (fun b => decide (b = a))

/-- `SensorChanSpec.chans`, sensorchan_spec.py:460-486.  `none` is the number `0`, the sum of no
specs. -/
def chans (spec : Str) : Py (Option AnySpec) := do
  let ss ← streams spec
  if allSame (ss.map FSC.sensor) then .ok (AnySpec.sumSpecs (ss.map (fun f => .fused f.chans)))
  else .error .generic

/-- What `SensorChanSpec.coerce` accepts besides a `SensorChanSpec`, sensorchan_spec.py:243-261. -/
inductive Data where
  | str (s : Str)
  | spec (s : AnySpec)
  | int (n : Nat)
deriving DecidableEq, Repr

/-- `SensorChanSpec.coerce`, sensorchan_spec.py:222-261: the text of the result.  Simplification: a
number that is not a natural number (rejected or refused later by `ChannelSpec.coerce`) is left out. -/
def coerce : Data → Str
  | .str s => s
  | .spec s => s.spec
  | .int n => (Chan.ofInt n).spec

/-- `FusedSensorChanSpec.from_spec` (and `coerce` of a string), sensorchan_spec.py:511-522 and
539-546.  `node.chan.spec` joins the codes, `FusedChannelSpec.coerce` splits them again. -/
def fscFromSpec (spec : Str) : Py FSC := do
  let ns ← nodes spec
  match ns with
  | [n] => .ok ⟨n.1, Fused.parse (joinWith '|' n.2)⟩
  | _ => .error .valueError

/-- `FusedSensorChanSpec.normalize`, sensorchan_spec.py:551-555. -/
def FSC.normalize (f : FSC) : Py FSC := do
  let t ← SC.normalize f.spec
  fscFromSpec t

/-- `FusedSensorChanSpec.concise`, sensorchan_spec.py:557-561. -/
def FSC.concise (f : FSC) : Py FSC := do
  let t ← SC.concise f.spec
  fscFromSpec t

end SC
end Verif
