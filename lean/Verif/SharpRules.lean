/-
When the comparisons of the optimizer with the identity are exact.  Warps are compared with the tolerance
`noop_eps`, which is 0 by default (delayed_nodes.py:1708, 2106-2112); the other tolerances concern overviews only.
-/
import Verif.KeepRules
import Verif.SimRules
import Verif.SizeRules

namespace Verif
namespace Tree

open Helpers Node

mutual
/-- All warps have `noop_eps=0`. -/
def NoSlack : Node → Prop
  | .leaf _ => True
  | .concat ps _ => NoSlackL ps
  | .warp s _ _ a => a.noopEps = 0 ∧ NoSlack s
  | .crop s _ _ _ _ _ => NoSlack s
  | .overview s _ _ => NoSlack s
  | .dequant s _ _ => NoSlack s
def NoSlackL : List Node → Prop
  | [] => True
  | p :: ps => NoSlack p ∧ NoSlackL ps
end

theorem NoSlackL_iff (ps : List Node) : NoSlackL ps ↔ ∀ p ∈ ps, NoSlack p := by
  induction ps with
  | nil => simp [NoSlackL]
  | cons p ps ih => simp [NoSlackL, ih]

theorem stable_noSlack : Stable (fun n => NoOv n ∧ NoSlack n) where
  sub := by
    intro n x hn h
    cases n with
    | leaf l => simp [subOf] at h
    | concat _ _ => simp [subOf] at h
    | warp s _ _ a => cases h; exact ⟨hn.1, hn.2.2⟩
    | crop s _ _ _ _ _ => cases h; exact hn
    | overview s _ _ => exact hn.1.elim
    | dequant s _ _ => cases h; exact hn
  parts := fun h p hp => ⟨(NoOvL_iff _).1 h.1 p hp, (NoSlackL_iff _).1 h.2 p hp⟩
  concat := fun _ _ hq => ⟨(NoOvL_iff _).2 fun q h => (hq q h).1, (NoSlackL_iff _).2 fun q h => (hq q h).2⟩
  nan := fun _ _ => ⟨.inl rfl, trivial⟩
  nanLike := fun _ _ _ _ => ⟨.inl rfl, trivial⟩
  crop := fun _ _ _ _ _ h => h
  deq := fun _ _ h => h
  warp := fun _ _ h h' => ⟨h'.1, h.2.1, h'.2⟩
  common := fun h => h
  ovOfWarp := fun _ _ h hn h0 => absurd (numOverviews_noOv _ h.1 _ hn) h0
  ov := fun _ _ h => h.1.elim
  warpOfOv := fun _ _ h => h.1.elim

/-- The comparisons made while this image is optimized are exact: they are exact anyway, or those without
a tolerance are and the image has no overviews and no warp with a tolerance. -/
def Sharp (H : Heur) (n : Node) : Prop :=
  H.Exact ∨ (∀ m, H.negl 0 m = true → m = .id) ∧ NoOv n ∧ NoSlack n

/-- The tests restricted to the identity. -/
def Heur.sharpen (H : Heur) : Heur :=
  { H with
    negl := fun e m => H.negl e m && Heur.exact.negl e m
    closeId := Heur.exact.closeId
    closeOff := Heur.exact.closeOff }

theorem Heur.sharpen_exact (H : Heur) : H.sharpen.Exact :=
  ⟨fun e m h => Heur.exact_exact.negl e m (Bool.and_eq_true_iff.1 h).2, Heur.exact_exact.closeId,
    Heur.exact_exact.closeOff⟩

theorem sharpRules (H : Heur) (hH : ∀ m, H.negl 0 m = true → m = .id) :
    Rules H (fun n => WF n ∧ NoOv n ∧ NoSlack n) Sim := by
  have R := keepRules H.sharpen (simRules _ H.sharpen_exact) stable_noSlack
  exact
    { refl := R.refl, trans := R.trans, sub := R.sub, parts := R.parts, same := R.same, nan := R.nan
      cong := R.cong, concat := R.concat, push := R.push, fuseWarps := R.fuseWarps
      idWarp := by
        intro s tf d a h _ hn
        rw [h.2.2.1] at hn
        rw [hH _ hn]
        exact sim_idWarp s d a
      nanWarp := R.nanWarp
      splitWarp := fun h h1 h0 _ => absurd (numOverviews_noOv _ h.2.1 _ h1) h0
      splitOv := fun h h1 h0 _ _ _ => absurd (numOverviews_noOv _ h.2.1 _ h1) h0
      splitCrop := fun h h1 h0 _ _ _ => absurd (numOverviews_noOv _ h.2.1 _ h1) h0
      absorb := fun h h1 hr => R.absorb h h1 hr
      nanCrop := R.nanCrop, fuseCrops := R.fuseCrops, warpAfterCrop := R.warpAfterCrop
      dequantCrop := R.dequantCrop, take := R.take, renorm := R.renorm
      cropAfterOverview := fun h _ => h.2.1.elim
      warpAfterOverview := R.warpAfterOverview, dequantOverview := R.dequantOverview, ov0 := R.ov0
      fuseOv := R.fuseOv, dequantWarp := R.dequantWarp }

/-- With exact comparisons an optimized image shows everything the image shows. -/
theorem Sharp.opt {H : Heur} {n m : Node} (hS : Sharp H n) (hw : WF n) {fuel : Nat} (h : opt H fuel n = .ok m) :
    Sim n m ∧ WF m ∧ Sharp H m := by
  rcases hS with hE | ⟨h0, ho, hz⟩
  · have g := opt_good (deep := false) (simRules H hE) (by simp) fuel n m hw h
    exact ⟨g.rel, g.inv, .inl hE⟩
  · have g := opt_good (deep := false) (sharpRules H h0) (by simp) fuel n m ⟨hw, ho, hz⟩ h
    exact ⟨g.rel, g.inv.1, .inr ⟨h0, g.inv.2⟩⟩

theorem code_negl_zero {m : Affine} (h : Heur.code.negl 0 m = true) : m = .id := by
  have hz : ∀ x y : ℚ, isclose 0 0 x y = true → x = y := by
    intro x y hxy
    simp only [isclose, decide_eq_true_eq, zero_mul, add_zero] at hxy
    have := abs_nonpos_iff.1 hxy
    linarith
  simp only [Heur.code, iscloseIdentity, Bool.and_eq_true] at h
  obtain ⟨⟨⟨⟨⟨h1, h2⟩, h3⟩, h4⟩, h5⟩, h6⟩ := h
  ext <;> simp [Affine.id, hz _ _ h1, hz _ _ h2, hz _ _ h3, hz _ _ h4, hz _ _ h5, hz _ _ h6]

/-- The comparisons of the code are exact on images without overviews whose warps have the default tolerance. -/
theorem sharp_code {n : Node} (ho : NoOv n) (hz : NoSlack n) : Sharp Heur.code n :=
  .inr ⟨fun _ => code_negl_zero, ho, hz⟩

theorem sharp_exact (n : Node) : Sharp Heur.exact n := .inl Heur.exact_exact

theorem Sharp.sub {H : Heur} {n x : Node} (h : Sharp H n) (hx : subOf n = .ok (some x)) : Sharp H x :=
  h.imp_right fun h => ⟨h.1, stable_noSlack.sub h.2 hx⟩

theorem Sharp.warp {H : Heur} {n : Node} (h : Sharp H n) (tf : Affine) (d : Int × Int) {a : Algo}
    (ha : a.noopEps = 0) : Sharp H (.warp n tf d a) := h.imp_right fun h => ⟨h.1, h.2.1, ha, h.2.2⟩

theorem Sharp.negl {H : Heur} {n : Node} {tf t : Affine} {d : Int × Int} {a : Algo} (h : Sharp H (.warp n tf d a))
    (ht : H.negl a.noopEps t = true) : t = .id := by
  rcases h with h | ⟨h, _, h0, _⟩
  · exact h.negl _ _ ht
  · rw [h0] at ht
    exact h _ ht

theorem Sharp.crop {H : Heur} {n : Node} (h : Sharp H n) (y0 y1 x0 x1 : Int) (c : Option (List Nat)) :
    Sharp H (.crop n y0 y1 x0 x1 c) := h

theorem Sharp.dequant {H : Heur} {n : Node} (h : Sharp H n) (q : Quantization) (d : Int × Int) :
    Sharp H (.dequant n q d) := h

end Tree
end Verif
