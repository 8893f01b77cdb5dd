/-
Slices with a step, `lst[a:b:k]`, and fused channel specs indexed by them.
-/
import Verif.ChannelSpec

namespace Verif
namespace Fused

/-- `PySlice_AdjustIndices` of CPython for one bound of a slice with step `k`; `missing` is the value of a bound
that is left out. -/
def strideBound (n : Nat) (k missing : Int) : Option Int → Int
  | none => missing
  | some i =>
    if i < 0 then
      if i + n < 0 then (if k < 0 then -1 else 0) else i + n
    else if i ≥ n then (if k < 0 then n - 1 else n) else i

/-- The number of elements of a slice with adjusted bounds (`PySlice_AdjustIndices`). -/
def strideLen (start stop k : Int) : Nat :=
  if k < 0 then (if stop < start then ((start - stop - 1) / (-k) + 1).toNat else 0)
  else if start < stop then ((stop - start - 1) / k + 1).toNat else 0

/-- The positions `lst[a:b:k]` takes out of a list of length `n`; the same for an axis of a numpy array. -/
def stride (n : Nat) (a b : Option Int) (k : Int) : Py (List Nat) :=
  if k = 0 then .error .valueError
  else
    let start := strideBound n k (if k < 0 then n - 1 else 0) a
    let stop := strideBound n k (if k < 0 then -1 else n) b
    .ok ((List.range (strideLen start stop k)).map fun (j : Nat) => (start + j * k).toNat)

/-- `lst[a:b:k]`. -/
def pyStride {α} (l : List α) (a b : Option Int) (k : Int) : Py (List α) :=
  match stride l.length a b k with
  | .error e => .error e
  | .ok ps => .ok (ps.filterMap fun p => l[p]?)

/-- `__getitem__` with a slice with a step, channel_spec.py:424-427. -/
def getStride (f : Fused) (a b : Option Int) (k : Int) : Py Fused :=
  match f.normalize with
  | .error e => .error e
  | .ok n =>
    match pyStride n.parsed a b k with
    | .error e => .error e
    | .ok l => .ok ⟨l, false⟩

end Fused
end Verif
