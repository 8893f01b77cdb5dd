/-
Warps whose size is not given in whole numbers: delayed_nodes.py, helpers.py.

The size a warp is given is kept as it is in its metadata and announced; only `_finalize` makes integers of it.
`optimize` of such warps is not described.
-/
import Verif.Raster

namespace Verif
namespace Tree

open Verif.Helpers Node

variable {V : Type}

/-- Python's `int(x)` for floats: towards zero. -/
def toInt (x : ℚ) : Int := if 0 ≤ x then ⌊x⌋ else ⌈x⌉

/-- `_ensure_valid_dsize`, helpers.py:96-111 (sizes without `None`). -/
def validDsize (d : ℚ × ℚ) : Int × Int := (toInt d.1, toInt d.2)

/-- A `DelayedWarp` with any numbers as size: `DelayedWarp.__init__`, delayed_nodes.py:1700-1752, stores them. -/
structure FloatWarp where
  sub : Node
  tf : Affine
  /-- `dsize`, which is what is announced. -/
  dsize : ℚ × ℚ
  algo : Algo

/-- `_finalize`, delayed_nodes.py:1770-2047; sizes become integers in 1824-1826. -/
def FloatWarp.fin (E : Env V) (w : FloatWarp) : Py (Img V) :=
  match Tree.fin E w.sub with
  | .error e => .error e
  | .ok i => finWarp E w.tf (validDsize w.dsize) w.algo i

/-- `resize`, delayed_nodes.py:539-549, with any numbers. -/
def resizeFloat (n : Node) (d : ℚ × ℚ) (a : Algo) : FloatWarp :=
  ⟨n, ⟨d.1 / n.dsize.1, 0, 0, 0, d.2 / n.dsize.2, 0⟩, d, a⟩

/-- `_coordinate_crop`, delayed_nodes.py:365-419, for the box with this corner, width and height. -/
def coordinateCrop (n : Node) (x y w h : ℚ) : FloatWarp := ⟨n, .trans (-x) (-y), (w, h), .default⟩

end Tree
end Verif
