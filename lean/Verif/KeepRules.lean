/-
Properties of trees that `optimize` keeps because they only depend on which kinds of operations and which
leaves occur.
-/
import Verif.RasterLemmas

namespace Verif
namespace Tree

open Helpers Node

/-- A property that does not depend on the parameters of the operations. -/
structure Firm (Q : Node → Prop) : Prop where
  sub : ∀ {n x}, Q n → subOf n = .ok (some x) → Q x
  parts : ∀ {ps d}, Q (.concat ps d) → ∀ p ∈ ps, Q p
  concat : ∀ {ps d qs} d', Q (.concat ps d) → (∀ q ∈ qs, Q q) → Q (.concat qs d')
  crop : ∀ {s} y0 y1 x0 x1 c, Q s → Q (.crop s y0 y1 x0 x1 c)
  deq : ∀ {s} q d, Q s → Q (.dequant s q d)
  warp : ∀ {s tf d a s'} tf' d', Q (.warp s tf d a) → Q s' → Q (.warp s' tf' d' a)
  common : ∀ {s tf d a}, Q (.warp s tf d a) → Q (.warp s tf d a.common)
  ovOfWarp : ∀ {s tf d a num} k d', Q (.warp s tf d a) → s.numOverviews = .ok (some num) → num ≠ 0 →
    Q (.overview s k d')
  ov : ∀ {s k d s'} k' d', Q (.overview s k d) → Q s' → Q (.overview s' k' d')
  warpOfOv : ∀ {s k d s'} tf' d', Q (.overview s k d) → Q s' → Q (.warp s' tf' d' .default)

/-- A property that all NaN images have, too. -/
structure Stable (Q : Node → Prop) : Prop extends Firm Q where
  nan : ∀ d names, Q (nanLeaf 0 d names)
  nanLike : ∀ {l} d names, Q (.leaf l) → l.nan = true → Q (nanLeaf l.id d names)

variable {Q : Node → Prop}

theorem Stable.take (hQ : Stable Q) : TakeStable Q where
  parts := hQ.parts
  concat := by
    intro ps qs d c hn hq hc
    obtain ⟨d', rfl, _, _⟩ := mkConcat_ok hc
    exact hQ.concat _ hn fun q hq' => (hq q hq').1
  nan := fun _ => hQ.nan _ _
  crop := by
    intro p idxs t _ hp _ h
    rw [mkCrop_none_form h]; exact hQ.crop _ _ _ _ _ hp

theorem Firm.mkCrop (hQ : Firm Q) {s r : Node} {sl : Option Space} {c : Option (List Nat)} (hs : Q s)
    (h : mkCrop s sl c = .ok r) : Q r := by
  unfold Tree.mkCrop at h
  split at h
  · cases h
  · split at h
    · cases h; exact hQ.crop _ _ _ _ _ hs
    · cases h; exact hQ.crop _ _ _ _ _ hs

theorem Firm.paddedCrop (hQ : Firm Q) {s r : Node} {y0 y1 x0 x1 : Int}
    {pad : (Int × Int) × (Int × Int)} (hs : Q s) (hw : ∀ s' tf' d', Q s' → Q (.warp s' tf' d' .default))
    (h : paddedCrop s y0 y1 x0 x1 pad = .ok r) : Q r := by
  unfold Tree.paddedCrop at h
  split at h
  · cases h
  · split at h
    · cases h
    · split at h
      · cases h
      · rename_i new hnew
        have hn := hQ.mkCrop hs hnew
        simp only at h
        split at h
        · cases h; exact hw _ _ _ hn
        · cases h; exact hn

theorem Firm.relink (hQ : Firm Q) : ∀ (ls : List Link) {n r : Node}, Q n → relink ls n = .ok r → Q r
  | [], n, r, hn, h => by cases h; exact hn
  | .deq q d :: ls, n, r, hn, h => by
    simp only [Tree.relink] at h
    split at h
    · cases h
    · rename_i m hm
      cases h
      exact hQ.deq _ _ (hQ.relink ls hn hm)
  | .crop .. :: _, n, r, _, h => by simp [Tree.relink] at h

theorem Firm.unlink (hQ : Firm Q) : ∀ (ls : List Link) {n : Node}, Q (unlink ls n) → Q n
  | [], n, h => h
  | .deq q d :: ls, n, h => hQ.unlink ls (hQ.sub h rfl)
  | .crop .. :: ls, n, h => hQ.unlink ls (hQ.sub h rfl)

theorem Firm.setSub (hQ : Firm Q) {n x x' : Node} (hn : Q n) (h : subOf n = .ok (some x)) (hx : Q x') :
    Q (setSub n x') := by
  cases n with
  | leaf l => simp [subOf] at h
  | concat _ _ => simp [subOf] at h
  | warp s _ _ _ => exact hQ.warp _ _ hn hx
  | crop s _ _ _ _ _ => exact hQ.crop _ _ _ _ _ hx
  | overview s _ _ => exact hQ.ov _ _ hn hx
  | dequant s _ _ => exact hQ.deq _ _ hx

theorem Firm.warpAfterCrop (hQ : Firm Q) {s inner : Node} {tf tf' : Affine} {y0 y1 x0 x1 : Int}
    {c : Option (List Nat)} (hs : Q s) (h : warpAfterCrop s tf y0 y1 x0 x1 c = .ok (some (inner, tf'))) :
    Q inner := by
  simp only [Tree.warpAfterCrop] at h
  split at h
  · cases h
  · split at h
    · cases h
    · rename_i i hi
      simp only [Except.ok.injEq, Option.some.injEq, Prod.mk.injEq] at h
      obtain ⟨rfl, _⟩ := h
      exact hQ.mkCrop hs hi

/-- `optimize` keeps such properties, if the NaN images it makes have them. -/
theorem keepRulesIn (H : Heur) {P : Node → Prop} {R : Node → Node → Prop} (hR : Rules H P R) (hQ : Firm Q)
    (hT : ∀ {ps d y0 y1 x0 x1 c t}, P (.crop (.concat ps d) y0 y1 x0 x1 (some c)) → Q (.concat ps d) →
      takeIdx (.concat ps d) c = .ok t → Q t)
    (hW : ∀ {l tf d a}, P (.warp (.leaf l) tf d a) → l.nan = true → Q (.leaf l) → Q (nanLeaf l.id d l.names))
    (hC : ∀ {l y0 y1 x0 x1 c r}, P (.crop (.leaf l) y0 y1 x0 x1 c) → l.nan = true → Q (.leaf l) →
      nanCrop l y0 y1 x0 x1 c = .ok r → Q r) :
    Rules H (fun n => P n ∧ Q n) R where
  refl := hR.refl
  trans := hR.trans
  sub := fun h hs => ⟨hR.sub h.1 hs, hQ.sub h.2 hs⟩
  parts := fun h p hp => ⟨hR.parts h.1 p hp, hQ.parts h.2 p hp⟩
  same := fun h => hR.same h.1
  nan := fun h => hR.nan h.1
  cong := by
    intro n x x' hn hx hx' hs
    obtain ⟨w1, w2⟩ := hR.cong hn.1 hx hx'.1 hs
    exact ⟨⟨w1, hQ.setSub hn.2 hx hx'.2⟩, w2⟩
  concat := by
    intro ps d qs c hn hf hc
    obtain ⟨w1, w2⟩ := hR.concat hn.1 (hf.imp fun _ _ h => ⟨h.1.1, h.2⟩) hc
    refine ⟨⟨w1, ?_⟩, w2⟩
    obtain ⟨d', rfl, _, _⟩ := mkConcat_ok hc
    refine hQ.concat _ hn.2 ?_
    intro q hq
    obtain ⟨p, _, h⟩ := forall₂_mem_right hf hq
    exact h.1.2
  push := by
    intro n ps d c hn hsub hsel h
    obtain ⟨w1, w2⟩ := hR.push hn.1 hsub hsel h
    refine ⟨⟨w1, ?_⟩, w2⟩
    unfold pushUnder at h
    split at h
    · cases h
    · rename_i qs hqs
      split at h
      · rename_i c' hc'
        cases h
        obtain ⟨d', rfl, _, _⟩ := mkConcat_ok hc'
        refine hQ.concat _ (hQ.sub hn.2 hsub) ?_
        intro q hq
        obtain ⟨p, hp, e⟩ := forall₂_mem_right (mapAll_ok hqs) hq
        have hp' : Q p := hQ.parts (hQ.sub hn.2 hsub) p hp
        have hnq := hn.2
        cases n with
        | leaf l => simp [subOf] at hsub
        | concat _ _ => simp [subOf] at hsub
        | warp s tf dw a => cases e; exact hQ.warp _ _ hnq hp'
        | crop s y0 y1 x0 x1 ci => rw [reapply] at e; exact hQ.mkCrop hp' e
        | overview s k dw => cases e; exact hQ.ov _ _ hnq hp'
        | dequant s k dw => cases e; exact hQ.deq _ _ hp'
      · cases h
      · cases h
  fuseWarps := by
    intro s t1 d1 a1 t2 d2 a2 h
    obtain ⟨w1, w2⟩ := hR.fuseWarps h.1
    exact ⟨⟨w1, hQ.common (hQ.warp _ _ h.2 (hQ.sub (hQ.sub h.2 rfl) rfl))⟩, w2⟩
  idWarp := fun h hd hn => hR.idWarp h.1 hd hn
  nanWarp := by
    intro l tf d a h hn
    obtain ⟨w1, w2⟩ := hR.nanWarp h.1 hn
    exact ⟨⟨w1, hW h.1 hn (hQ.sub h.2 rfl)⟩, w2⟩
  splitWarp := by
    intro s tf d a num k h h1 h2 hk
    obtain ⟨w1, w2⟩ := hR.splitWarp (k := k) h.1 h1 h2 hk
    exact ⟨⟨w1, hQ.common (hQ.warp _ _ h.2 (hQ.ovOfWarp _ _ h.2 h1 h2))⟩, w2⟩
  splitOv := by
    intro s tf d a num k h h1 h2 hk h3 h4
    obtain ⟨w1, w2⟩ := hR.splitOv (k := k) h.1 h1 h2 hk h3 h4
    exact ⟨⟨w1, hQ.ovOfWarp _ _ h.2 h1 h2⟩, w2⟩
  splitCrop := by
    intro s tf d a num k c h h1 h2 hk h3 h4
    obtain ⟨w1, w2⟩ := hR.splitCrop (k := k) h.1 h1 h2 hk h3 h4
    exact ⟨⟨w1, hQ.paddedCrop (hQ.ovOfWarp _ _ h.2 h1 h2)
      (fun s' tf' d' hs' => hQ.warpOfOv _ _ (hQ.ovOfWarp k d h.2 h1 h2) hs') h4⟩, w2⟩
  absorb := by
    intro s tf d a num r h hnum hr
    obtain ⟨w1, w2⟩ := hR.absorb h.1 hnum hr
    refine ⟨⟨w1, ?_⟩, w2⟩
    unfold absorb at hr
    split at hr
    · cases hr; exact h.2
    · split at hr
      · cases hr; exact h.2
      · rename_i chain osub k dk hlook
        have hsp := look_spec _ _ _ _ _ _ hlook
        have hos : Q osub := by
          have : Q s := hQ.sub h.2 rfl
          rw [hsp] at this
          exact hQ.sub (hQ.unlink _ this) rfl
        split at hr
        · cases hr; exact h.2
        · split at hr
          · split at hr
            · cases hr
            · cases hr
            · rename_i inner tf1 hin
              split at hr
              · cases hr
              · rename_i head hhead
                cases hr
                exact hQ.common (hQ.warp _ _ h.2 (hQ.relink _ (hQ.warpAfterCrop hos hin) hhead))
          · split at hr
            · cases hr
            · rename_i head hhead
              cases hr
              exact hQ.common (hQ.warp _ _ h.2 (hQ.relink _ hos hhead))
  nanCrop := by
    intro l y0 y1 x0 x1 c r h hn hr
    obtain ⟨w1, w2⟩ := hR.nanCrop h.1 hn hr
    exact ⟨⟨w1, hC h.1 hn (hQ.sub h.2 rfl) hr⟩, w2⟩
  fuseCrops := by
    intro s iy0 iy1 ix0 ix1 ic y0 y1 x0 x1 c r h hr
    obtain ⟨w1, w2⟩ := hR.fuseCrops h.1 hr
    refine ⟨⟨w1, ?_⟩, w2⟩
    unfold fuseCrops at hr
    split at hr
    · cases hr
    · exact hQ.mkCrop (hQ.sub (hQ.sub h.2 rfl) rfl) hr
  warpAfterCrop := by
    intro s tf d a y0 y1 x0 x1 c inner tf' h hr
    obtain ⟨w1, w2⟩ := hR.warpAfterCrop h.1 hr
    have hwq : Q (.warp s tf d a) := hQ.sub h.2 rfl
    exact ⟨⟨w1, hQ.common (hQ.warp _ _ hwq (hQ.warpAfterCrop (hQ.sub hwq rfl) hr))⟩, w2⟩
  dequantCrop := by
    intro s q d y0 y1 x0 x1 c h
    obtain ⟨w1, w2⟩ := hR.dequantCrop h.1
    exact ⟨⟨w1, hQ.deq _ _ (hQ.crop _ _ _ _ _ (hQ.sub (hQ.sub h.2 rfl) rfl))⟩, w2⟩
  take := by
    intro ps d y0 y1 x0 x1 c t h ht
    obtain ⟨w1, w2⟩ := hR.take h.1 ht
    have hc : Q (.concat ps d) := hQ.sub h.2 rfl
    refine ⟨⟨w1, hT h.1 hc ht⟩, ?_⟩
    intro t' cr ht' hs hcr
    obtain ⟨v1, v2⟩ := w2 t' cr ht'.1 hs hcr
    exact ⟨⟨v1, hQ.mkCrop ht'.2 hcr⟩, v2⟩
  renorm := by
    intro ps d y0 y1 x0 x1 cr h hcr
    obtain ⟨w1, w2⟩ := hR.renorm h.1 hcr
    exact ⟨⟨w1, hQ.mkCrop (hQ.sub h.2 rfl) hcr⟩, w2⟩
  cropAfterOverview := by
    intro s y0 y1 x0 x1 c k d r h hr
    obtain ⟨w1, w2⟩ := hR.cropAfterOverview h.1 hr
    refine ⟨⟨w1, ?_⟩, w2⟩
    simp only [cropAfterOverview] at hr
    split at hr
    · cases hr
    · rename_i cr hcr
      have h1 := hQ.mkCrop (hQ.ov _ _ h.2 (hQ.sub (hQ.sub h.2 rfl) rfl)) hcr
      split at hr
      · cases hr; exact h1
      · cases hr; exact hQ.warpOfOv _ _ h.2 h1
  warpAfterOverview := by
    intro s tf dw a k d h
    obtain ⟨w1, w2⟩ := hR.warpAfterOverview h.1
    exact ⟨⟨w1, hQ.warpOfOv _ _ h.2 (hQ.ov _ _ h.2 (hQ.sub (hQ.sub h.2 rfl) rfl))⟩, w2⟩
  dequantOverview := by
    intro s q dq k d h
    obtain ⟨w1, w2⟩ := hR.dequantOverview h.1
    exact ⟨⟨w1, hQ.deq _ _ (hQ.ov _ _ h.2 (hQ.sub (hQ.sub h.2 rfl) rfl))⟩, w2⟩
  ov0 := fun h => hR.ov0 h.1
  fuseOv := by
    intro s k1 d1 k d h
    obtain ⟨w1, w2⟩ := hR.fuseOv h.1
    exact ⟨⟨w1, hQ.ov _ _ h.2 (hQ.sub (hQ.sub h.2 rfl) rfl)⟩, w2⟩
  dequantWarp := by
    intro s tf dw a q d h
    obtain ⟨w1, w2⟩ := hR.dequantWarp h.1
    have hwq : Q (.warp s tf dw a) := hQ.sub h.2 rfl
    exact ⟨⟨w1, hQ.warp _ _ hwq (hQ.deq _ _ (hQ.sub hwq rfl))⟩, w2⟩

/-- `optimize` keeps stable properties of well formed trees. -/
theorem keepRules (H : Heur) {R : Node → Node → Prop} (hR : Rules H WF R) (hQ : Stable Q) :
    Rules H (fun n => WF n ∧ Q n) R := by
  refine keepRulesIn H hR hQ.toFirm (fun h hc ht => takeIdx_stable hQ.take _ h.1 hc _ _ h.2.2.2 ht)
    (fun _ hn h => hQ.nanLike _ _ h hn) ?_
  intro l y0 y1 x0 x1 c r _ hn h hr
  unfold nanCrop at hr
  split at hr
  · cases hr
  · split at hr
    · cases hr
    · split at hr
      · cases hr
      · cases hr; exact hQ.nanLike _ _ h hn

/-! #### examples of stable properties -/

theorem EachL_iff (f : Leaf → Prop) (ps : List Node) : EachL f ps ↔ ∀ p ∈ ps, Each f p := by
  induction ps with
  | nil => simp [EachL]
  | cons p ps ih => simp [EachL, ih]

theorem firm_each (f : Leaf → Prop) : Firm (Each f) where
  sub := by
    intro n x hn h
    cases n with
    | leaf l => simp [subOf] at h
    | concat _ _ => simp [subOf] at h
    | warp s _ _ _ => cases h; exact hn
    | crop s _ _ _ _ _ => cases h; exact hn
    | overview s _ _ => cases h; exact hn
    | dequant s _ _ => cases h; exact hn
  parts := fun h p hp => (EachL_iff _ _).1 h p hp
  concat := fun _ _ h => (EachL_iff _ _).2 h
  crop := fun _ _ _ _ _ h => h
  deq := fun _ _ h => h
  warp := fun _ _ _ h => h
  common := fun h => h
  ovOfWarp := fun _ _ h _ _ => h
  ov := fun _ _ _ h => h
  warpOfOv := fun _ _ _ h => h

/-- `optimize` invents no leaves except NaN ones. -/
theorem stable_each_like (f : Leaf → Prop) (hf : ∀ d names, Each f (nanLeaf 0 d names))
    (hl : ∀ {l} d names, f l → l.nan = true → Each f (nanLeaf l.id d names)) : Stable (Each f) where
  toFirm := firm_each f
  nan := hf
  nanLike := fun d names h hn => hl d names h hn

theorem stable_each (f : Leaf → Prop) (hf : ∀ k d names, Each f (nanLeaf k d names)) : Stable (Each f) :=
  stable_each_like f (hf 0) fun _ _ _ _ => hf _ _ _

mutual
/-- Only crops, dequantizations and concats over leaves. -/
def Flat : Node → Prop
  | .leaf _ => True
  | .concat ps _ => FlatL ps
  | .warp _ _ _ _ => False
  | .crop s _ _ _ _ _ => Flat s
  | .overview _ _ _ => False
  | .dequant s _ _ => Flat s
def FlatL : List Node → Prop
  | [] => True
  | p :: ps => Flat p ∧ FlatL ps
end

theorem FlatL_iff (ps : List Node) : FlatL ps ↔ ∀ p ∈ ps, Flat p := by
  induction ps with
  | nil => simp [FlatL]
  | cons p ps ih => simp [FlatL, ih]

theorem stable_flat : Stable Flat where
  sub := by
    intro n x hn h
    cases n with
    | leaf l => simp [subOf] at h
    | concat _ _ => simp [subOf] at h
    | warp s _ _ _ => exact hn.elim
    | crop s _ _ _ _ _ => cases h; exact hn
    | overview s _ _ => exact hn.elim
    | dequant s _ _ => cases h; exact hn
  parts := fun h p hp => (FlatL_iff _).1 h p hp
  concat := fun _ _ h => (FlatL_iff _).2 h
  nan := fun _ _ => trivial
  nanLike := fun _ _ _ _ => trivial
  crop := fun _ _ _ _ _ h => h
  deq := fun _ _ h => h
  warp := fun _ _ h => h.elim
  common := fun h => h.elim
  ovOfWarp := fun _ _ h => h.elim
  ov := fun _ _ h => h.elim
  warpOfOv := fun _ _ h => h.elim

mutual
theorem Flat.pix : ∀ {n : Node}, Flat n → Pix n
  | .leaf _, _ => trivial
  | .concat ps _, h => FlatL.pixL h
  | .warp _ _ _ _, h => h.elim
  | .crop s _ _ _ _ _, h => Flat.pix (n := s) h
  | .overview _ _ _, h => h.elim
  | .dequant s _ _, h => Flat.pix (n := s) h
theorem FlatL.pixL : ∀ {ps : List Node}, FlatL ps → PixL ps
  | [], _ => trivial
  | _ :: _, h => ⟨Flat.pix h.1, FlatL.pixL h.2⟩
end

mutual
theorem Flat.noWarp : ∀ {n : Node}, Flat n → NoWarp n
  | .leaf _, _ => trivial
  | .concat ps _, h => FlatL.noWarpL h
  | .warp _ _ _ _, h => h.elim
  | .crop s _ _ _ _ _, h => Flat.noWarp (n := s) h
  | .overview _ _ _, h => h.elim
  | .dequant s _ _, h => Flat.noWarp (n := s) h
theorem FlatL.noWarpL : ∀ {ps : List Node}, FlatL ps → NoWarpL ps
  | [], _ => trivial
  | _ :: _, h => ⟨Flat.noWarp h.1, FlatL.noWarpL h.2⟩
end

/-! #### warps that take pixels to pixels -/

theorem PixL_iff (ps : List Node) : PixL ps ↔ ∀ p ∈ ps, Pix p := by
  induction ps with
  | nil => simp [PixL]
  | cons p ps ih => simp [PixL, ih]

theorem pix_sub {n x : Node} (hn : Pix n) (h : subOf n = .ok (some x)) : Pix x := by
  cases n with
  | leaf l => simp [subOf] at h
  | concat _ _ => simp [subOf] at h
  | warp s _ _ _ => cases h; exact hn.2.2
  | crop s _ _ _ _ _ => cases h; exact hn
  | overview s _ _ => exact hn.elim
  | dequant s _ _ => cases h; exact hn

theorem pix_mkCrop {s r : Node} {sl : Option Space} {c : Option (List Nat)} (hs : Pix s)
    (h : mkCrop s sl c = .ok r) : Pix r := by
  unfold Tree.mkCrop at h
  split at h
  · cases h
  · split at h
    · cases h; exact hs
    · cases h; exact hs

theorem pix_take : TakeStable Pix where
  parts := fun h p hp => (PixL_iff _).1 h p hp
  concat := by
    intro ps qs d c _ hq hc
    obtain ⟨d', rfl, _, _⟩ := mkConcat_ok hc
    exact (PixL_iff _).2 fun q hq' => (hq q hq').1
  nan := fun _ => trivial
  crop := fun _ hp _ h => pix_mkCrop hp h

/-- The inner slice of a warp that takes pixels to pixels is reached by such a map. -/
theorem innerSlice_turn (src : Int × Int) {tf : Affine} (ht : Turn tf) (y0 y1 x0 x1 : Int) :
    Turn (innerSlice src tf y0 y1 x0 x1).2 := by
  unfold innerSlice
  split
  · rename_i hp
    obtain ⟨hb, hc, ha, hd⟩ := hp
    obtain ⟨h, ⟨tx, ex⟩, ty, ey⟩ := ht
    rcases h with ⟨h1, h2, _, _⟩ | ⟨h1, _, _, _⟩
    · have e1 : tf.a = 1 := by rcases h1 with h | h <;> rw [h] at ha <;> first | exact h | norm_num at ha
      have e2 : tf.d = 1 := by rcases h2 with h | h <;> rw [h] at hd <;> first | exact h | norm_num at hd
      refine ⟨.inl ⟨.inl e1, .inl e2, rfl, rfl⟩, ⟨tx + (axisFast src.1 1 tx x0 x1).1 - x0, ?_⟩,
        ty + (axisFast src.2 1 ty y0 y1).1 - y0, ?_⟩
      · simp only [axisFast, e1, ex]; push_cast; ring
      · simp only [axisFast, e2, ey]; push_cast; ring
    · rw [hb] at h1; norm_num at h1
  · unfold swapWarpAfterCrop
    simp only
    refine ((Turn.mul ?_ ht).mul (Turn.trans _ _)).mul ?_
    · exact_mod_cast Turn.trans (-x0) (-y0)
    · rw [← Int.cast_neg, ← Int.cast_neg]; exact Turn.trans _ _

theorem warpAfterCrop_turn {s inner : Node} {tf tf' : Affine} {y0 y1 x0 x1 : Int}
    {c : Option (List Nat)} (ht : Turn tf) (hs : Pix s)
    (h : warpAfterCrop s tf y0 y1 x0 x1 c = .ok (some (inner, tf'))) : Pix inner ∧ Turn tf' := by
  simp only [warpAfterCrop] at h
  split at h
  · cases h
  · split at h
    · cases h
    · rename_i i hi
      simp only [Except.ok.injEq, Option.some.injEq, Prod.mk.injEq] at h
      obtain ⟨rfl, rfl⟩ := h
      exact ⟨pix_mkCrop hs hi, innerSlice_turn _ ht _ _ _ _⟩

/-- `optimize` only makes warps that take pixels to pixels from such warps. -/
theorem pixRules (H : Heur) :
    Rules H (fun n => Plain n ∧ Pix n) (fun n n' => n'.dsize = n.dsize ∧ n'.nchan = n.nchan) where
  refl := (sizeRules H).refl
  trans := (sizeRules H).trans
  sub := fun h hs => ⟨plain_sub h.1 hs, pix_sub h.2 hs⟩
  parts := fun h p hp => ⟨(sizeRules H).parts h.1 p hp, (PixL_iff _).1 h.2 p hp⟩
  same := fun h p hp => (sizeRules H).same h.1 p hp
  nan := fun h hn => (sizeRules H).nan h.1 hn
  cong := by
    intro n x x' hn hx hx' hs
    obtain ⟨w1, w2⟩ := (sizeRules H).cong hn.1 hx hx'.1 hs
    refine ⟨⟨w1, ?_⟩, w2⟩
    have hp := hn.2
    cases n with
    | leaf l => simp [subOf] at hx
    | concat _ _ => simp [subOf] at hx
    | warp s _ _ _ => exact ⟨hp.1, hp.2.1, hx'.2⟩
    | crop s _ _ _ _ _ => exact hx'.2
    | overview s _ _ => exact hp.elim
    | dequant s _ _ => exact hx'.2
  concat := by
    intro ps d qs c hn hf hc
    obtain ⟨w1, w2⟩ := (sizeRules H).concat hn.1 (hf.imp fun _ _ h => ⟨h.1.1, h.2⟩) hc
    refine ⟨⟨w1, ?_⟩, w2⟩
    obtain ⟨d', rfl, _, _⟩ := mkConcat_ok hc
    refine (PixL_iff _).2 fun q hq => ?_
    obtain ⟨p, _, h⟩ := forall₂_mem_right hf hq
    exact h.1.2
  push := by
    intro n ps d c hn hsub hsel h
    obtain ⟨w1, w2⟩ := (sizeRules H).push hn.1 hsub hsel h
    refine ⟨⟨w1, ?_⟩, w2⟩
    unfold pushUnder at h
    split at h
    · cases h
    · rename_i qs hqs
      split at h
      · rename_i c' hc'
        cases h
        obtain ⟨d', rfl, _, _⟩ := mkConcat_ok hc'
        refine (PixL_iff _).2 fun q hq => ?_
        obtain ⟨p, hp, e⟩ := forall₂_mem_right (mapAll_ok hqs) hq
        have hp' : Pix p := (PixL_iff _).1 (pix_sub hn.2 hsub) p hp
        have hnq := hn.2
        cases n with
        | leaf l => simp [subOf] at hsub
        | concat _ _ => simp [subOf] at hsub
        | warp s tf dw a => cases e; exact ⟨hnq.1, hnq.2.1, hp'⟩
        | crop s y0 y1 x0 x1 ci => rw [reapply] at e; exact pix_mkCrop hp' e
        | overview s k dw => exact hnq.elim
        | dequant s k dw => cases e; exact hp'
      · cases h
      · cases h
  fuseWarps := by
    intro s t1 d1 a1 t2 d2 a2 h
    obtain ⟨w1, w2⟩ := (sizeRules H).fuseWarps h.1
    refine ⟨⟨w1, ?_⟩, w2⟩
    obtain ⟨h2, hn2, h1, _, hs⟩ := h.2
    exact ⟨h2.mul h1, hn2, hs⟩
  idWarp := fun h hd hn => (sizeRules H).idWarp h.1 hd hn
  nanWarp := by
    intro l tf d a h hn
    obtain ⟨w1, w2⟩ := (sizeRules H).nanWarp h.1 hn
    exact ⟨⟨w1, trivial⟩, w2⟩
  splitWarp := fun h hnum hne => absurd (numOverviews_noOv _ h.1.noOv _ hnum) hne
  splitOv := fun h hnum hne => absurd (numOverviews_noOv _ h.1.noOv _ hnum) hne
  splitCrop := fun h hnum hne => absurd (numOverviews_noOv _ h.1.noOv _ hnum) hne
  absorb := by
    intro s tf d a num r h _ hr
    unfold absorb at hr
    split at hr
    · cases hr; exact ⟨h, rfl, rfl⟩
    · rw [look_noOv 4 s h.1.noOv] at hr
      cases hr; exact ⟨h, rfl, rfl⟩
  nanCrop := by
    intro l y0 y1 x0 x1 c r h hn hr
    obtain ⟨w1, w2⟩ := (sizeRules H).nanCrop h.1 hn hr
    refine ⟨⟨w1, ?_⟩, w2⟩
    unfold nanCrop at hr
    split at hr
    · cases hr
    · split at hr
      · cases hr
      · split at hr
        · cases hr
        · cases hr; trivial
  fuseCrops := by
    intro s iy0 iy1 ix0 ix1 ic y0 y1 x0 x1 c r h hr
    obtain ⟨w1, w2⟩ := (sizeRules H).fuseCrops h.1 hr
    refine ⟨⟨w1, ?_⟩, w2⟩
    unfold fuseCrops at hr
    split at hr
    · cases hr
    · exact pix_mkCrop (s := s) h.2 hr
  warpAfterCrop := by
    intro s tf d a y0 y1 x0 x1 c inner tf' h hr
    obtain ⟨w1, w2⟩ := (sizeRules H).warpAfterCrop h.1 hr
    obtain ⟨ht, hn, hs⟩ : Pix (.warp s tf d a) := h.2
    obtain ⟨k1, k2⟩ := warpAfterCrop_turn ht hs hr
    exact ⟨⟨w1, k2, hn, k1⟩, w2⟩
  dequantCrop := by
    intro s q d y0 y1 x0 x1 c h
    obtain ⟨w1, w2⟩ := (sizeRules H).dequantCrop h.1
    exact ⟨⟨w1, h.2⟩, w2⟩
  take := by
    intro ps d y0 y1 x0 x1 c t h ht
    obtain ⟨w1, w2⟩ := (sizeRules H).take h.1 ht
    refine ⟨⟨w1, takeIdx_stable pix_take _ h.1.wf.1 h.2 c t h.1.wf.2.2.2 ht⟩, ?_⟩
    intro t' cr ht' hs hcr
    obtain ⟨v1, v2⟩ := w2 t' cr ht'.1 hs hcr
    exact ⟨⟨v1, pix_mkCrop ht'.2 hcr⟩, v2⟩
  renorm := by
    intro ps d y0 y1 x0 x1 cr h hcr
    obtain ⟨w1, w2⟩ := (sizeRules H).renorm h.1 hcr
    exact ⟨⟨w1, pix_mkCrop (s := .concat ps d) h.2 hcr⟩, w2⟩
  cropAfterOverview := fun h => h.2.elim
  warpAfterOverview := fun h => h.2.elim
  dequantOverview := fun h => h.2.elim
  ov0 := fun h => h.2.elim
  fuseOv := fun h => h.2.elim
  dequantWarp := by
    intro s tf dw a q d h
    obtain ⟨w1, w2⟩ := (sizeRules H).dequantWarp h.1
    exact ⟨⟨w1, h.2⟩, w2⟩

end Tree
end Verif
