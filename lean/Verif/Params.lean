/-
`finalize(**kwargs)` and `_set_nested_params`, delayed_base.py:405-470, for the resampling parameters of
warps (`interpolation`, `antialias`, `border_value`, `noop_eps`, `backend`).

Simplification: only these keys are described.  All nodes of the tree are changed in place; the new tree is
the state of the object after the call.
-/
import Verif.Raster

namespace Verif
namespace Tree

open Helpers Node

/-- Keyword arguments of `finalize`; `none` if the key is not given. -/
structure Kwargs where
  interp : Option Interp
  antialias : Option Bool
  border : Option (Option ℚ)
  noopEps : Option ℚ
  backend : Option Nat

/-- `item.meta.update(ub.dict_isect(kwargs, item.meta))` for a warp, delayed_base.py:463-464. -/
def Kwargs.update (k : Kwargs) (a : Algo) : Algo :=
  ⟨k.interp.getD a.interp, k.antialias.getD a.antialias, k.border.getD a.border, k.noopEps.getD a.noopEps,
    k.backend.getD a.backend⟩

mutual
/-- `_set_nested_params`, delayed_base.py:458-464: the other nodes have none of these keys. -/
def setParams (k : Kwargs) : Node → Node
  | .leaf l => .leaf l
  | .concat ps d => .concat (setParamsL k ps) d
  | .warp s tf d a => .warp (setParams k s) tf d (k.update a)
  | .crop s y0 y1 x0 x1 c => .crop (setParams k s) y0 y1 x0 x1 c
  | .overview s l d => .overview (setParams k s) l d
  | .dequant s q d => .dequant (setParams k s) q d
def setParamsL (k : Kwargs) : List Node → List Node
  | [] => []
  | p :: ps => setParams k p :: setParamsL k ps
end

/-- `finalize(**kwargs)`, delayed_base.py:405-449: the array and the state of the image afterwards. -/
def finalizeWith {V : Type} (H : Heur) (E : Env V) (fuel : Nat) (k : Kwargs) (n : Node) : Py (Img V) × Node :=
  let n := setParams k n
  (finalize H E fuel n, n)

end Tree
end Verif
