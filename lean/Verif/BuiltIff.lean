/-
The trees a user can build are exactly the well formed ones.
-/
import Verif.Built
import Verif.Total

namespace Verif
namespace Tree

open Helpers Node

mutual
theorem built_of : ∀ n : Node, WF n → Fit n → Built n
  | .leaf l, h, f => .leaf l h f
  | .concat ps d, h, f => by
    obtain ⟨hne, h⟩ := h
    obtain ⟨p, ps, rfl⟩ := List.exists_cons_of_ne_nil hne
    refine .concat (p :: ps) _ (builtL_of d (p :: ps) h f.2) ?_
    rw [WFL_iff] at h
    simp only [mkConcat]
    rw [if_pos, (h p (by simp)).2]
    rw [List.all_eq_true]
    intro q hq
    exact decide_eq_true ((h q (by simp [hq])).2.trans (h p (by simp)).2.symm)
  | .warp s tf d a, h, f => .warp s tf (some d) a (built_of s h.1 f.2) h.2 f.1
  | .crop s y0 y1 x0 x1 c, h, f => by
    obtain ⟨h1, h2, h3, h4⟩ := h
    obtain ⟨f1, f2, f3, f4, f5⟩ := f
    obtain ⟨t, ht⟩ := mkCrop_total' h1 h4 (ints y0 y1 x0 x1)
    have e := mkCrop_fit ht h2 h3 f2 f3 f4 f5
    subst e
    exact .crop s _ (ints y0 y1 x0 x1) c (built_of s h1 f1) h4 ht
  | .overview s k d, h, f => by
    obtain ⟨f1, f2⟩ := f
    subst f2
    exact .overview s k (built_of s h f1)
  | .dequant s q d, h, f => by
    obtain ⟨f1, f2⟩ := f
    subst f2
    exact .dequant s q (built_of s h f1)
theorem builtL_of (d : Int × Int) : ∀ ps : List Node, WFL d ps → FitL ps → ∀ p ∈ ps, Built p
  | [], _, _, _, hp => by cases hp
  | p :: ps, h, f, q, hq => by
    rcases List.mem_cons.1 hq with e | hq
    · rw [e]
      exact built_of p h.1 f.1
    · exact builtL_of d ps h.2.2 f.2 q hq
end

theorem built_iff (n : Node) : Built n ↔ WF n ∧ Fit n := ⟨fun h => h.ok, fun h => built_of n h.1 h.2⟩

end Tree
end Verif
