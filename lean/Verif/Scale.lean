/-
The scales of a transform, as real numbers.

`decompose()` of kwimage and `_decompose_scale` compute the scales with square roots and angles.  The model of the
optimizer (`Opt.lean`) compares their squares instead; here the computation is modelled as it is written, with
real numbers for floats.
-/
import Verif.Opt
import Mathlib.Analysis.SpecialFunctions.Complex.Arg
import Mathlib.Analysis.SpecialFunctions.Log.Base

namespace Verif
namespace Tree
open Helpers

/-- `math.atan2(y, x)`. -/
noncomputable def atan2 (y x : ℝ) : ℝ := Complex.arg ⟨x, y⟩

/-- `_decompose_scale`, helpers.py:608-630 (the same computation as in `Affine.decompose`). -/
noncomputable def decomposeScale (m : Affine) : ℝ × ℝ :=
  let a11 : ℝ := m.a
  let a12 : ℝ := m.b
  let a21 : ℝ := m.c
  let a22 : ℝ := m.d
  let sx := Real.sqrt (a11 * a11 + a21 * a21)
  let theta := atan2 a21 a11
  let sin_t := Real.sin theta
  let cos_t := Real.cos theta
  let msy := a12 * cos_t + a22 * sin_t
  let sy := if |cos_t| < |sin_t| then (msy * cos_t - a12) / sin_t else (a22 - msy * sin_t) / cos_t
  (sx, sy)

/-- `_prepare_scale_residual(sx, sy)[0]`, delayed_nodes.py:2519-2531, for scales that are at most one. -/
noncomputable def prepareDowns (sx sy : ℝ) : Int :=
  max ⌊Real.logb 2 (1 / max sx sy)⌋ 0

end Tree
end Verif
