/-
Equality and length of fused channel specs.

`ChannelSpec` and the sensor-channel specs define no equality; two such objects are equal only if they are the
same object.
-/
import Verif.ChannelSpec

namespace Verif
namespace Fused

/-- `__eq__`, channel_spec.py:455-458, for two fused specs: the codes are compared as they are written.  Objects
that are not fused specs are left out: `None` is different and others without `parsed` raise AttributeError. -/
def eq (f g : Fused) : Bool := decide (f.parsed = g.parsed)

/-- `__len__`, channel_spec.py:408-422: the number of codes as they are written (and a warning if the spec is not
normalized). -/
def len (f : Fused) : Nat := f.parsed.length

end Fused
end Verif
