/-
`optimize` keeps the element type of the array of an image, if no channels are selected from several images put
together.
-/
import Verif.Types
import Verif.NameRules
import Verif.KeepRules
import Verif.Total

namespace Verif
namespace Tree

open Helpers Node

/-- Arrays of one type put together have that type. -/
def Np.Single (N : Np) : Prop := ∀ l t, l ≠ [] → (∀ a ∈ l, a = t) → N.result l = t

mutual
/-- No crop selects channels of several images put together. -/
def Unpicked : Node → Prop
  | .leaf _ => True
  | .concat ps _ => UnpickedL ps
  | .warp s _ _ _ => Unpicked s
  | .crop s _ _ _ _ c => Unpicked s ∧ (c = none ∨ Solo s)
  | .overview s _ _ => Unpicked s
  | .dequant s _ _ => Unpicked s
def UnpickedL : List Node → Prop
  | [] => True
  | p :: ps => Unpicked p ∧ UnpickedL ps
end

theorem unpickedL_iff (ps : List Node) : UnpickedL ps ↔ ∀ p ∈ ps, Unpicked p := by
  induction ps with
  | nil => simp [UnpickedL]
  | cons p ps ih => simp [UnpickedL, ih]

/-- The same names, the same type, and no concats where there were none. -/
structure Typed (N : Np) (a b : Node) : Prop where
  names : Names a b
  elem : elem N b = elem N a
  solo : Solo a → Solo b

theorem elemL_map (N : Np) (ps : List Node) : elemL N ps = ps.map (elem N) := by
  induction ps with
  | nil => rfl
  | cons p ps ih => rw [elemL, ih, List.map_cons]

theorem elemL_forall₂ {N : Np} {ps qs : List Node} (h : List.Forall₂ (fun p q => elem N q = elem N p) ps qs) :
    elemL N qs = elemL N ps := by
  induction h with
  | nil => rfl
  | cons h _ ih => rw [elemL, elemL, h, ih]

theorem mkCrop_typed (N : Np) {s r : Node} {y0 y1 x0 x1 : Int} {c : Option (List Nat)} (hs : Unpicked s)
    (hc : c = none ∨ Solo s) (h : mkCrop s (ints y0 y1 x0 x1) c = .ok r) :
    Unpicked r ∧ elem N r = elem N s ∧ (Solo s → Solo r) := by
  rw [mkCrop_ints h]
  exact ⟨⟨hs, hc⟩, rfl, fun h => h⟩

theorem fuseChans_none {i o nc : Option (List Nat)} (h : fuseChans i o = .ok nc) (hn : nc ≠ none) : i ≠ none ∨ o ≠ none := by
  cases i <;> cases o <;> simp_all [fuseChans]

theorem relink_typed (N : Np) : ∀ (ls : List Link) {n r n' : Node}, Unpicked n → elem N n = elem N n' → (Solo n' → Solo n) →
    relink ls n = .ok r → Unpicked r ∧ elem N r = elem N (unlink ls n') ∧ (Solo (unlink ls n') → Solo r)
  | [], n, r, n', h1, h2, h3, h => by cases h; exact ⟨h1, h2, h3⟩
  | .deq q d :: ls, n, r, n', h1, h2, h3, h => by
    simp only [Tree.relink] at h
    split at h
    · cases h
    · rename_i m hm
      cases h
      obtain ⟨i1, i2, i3⟩ := relink_typed N ls h1 h2 h3 hm
      exact ⟨i1, rfl, i3⟩
  | .crop .. :: _, n, r, _, _, _, _, h => by simp [Tree.relink] at h

theorem unlink_unpicked : ∀ (ls : List Link) {n : Node}, Unpicked (unlink ls n) → Unpicked n
  | [], n, h => h
  | .deq q d :: ls, n, h => unlink_unpicked ls h
  | .crop .. :: ls, n, h => unlink_unpicked ls h.1

theorem typeRules (H : Heur) {N : Np} (hN : Np.Single N) : Rules H (fun n => WF n ∧ Unpicked n) (Typed N) := by
  have nr := nameRules H
  refine
  { refl := fun n => ⟨nr.refl n, rfl, fun h => h⟩
    trans := fun h1 h2 => ⟨nr.trans h1.names h2.names, h2.elem.trans h1.elem, fun h => h2.solo (h1.solo h)⟩
    sub := ?sub
    parts := fun h p hp => ⟨nr.parts h.1 p hp, (unpickedL_iff _).1 h.2 p hp⟩
    same := fun h => nr.same h.1
    nan := fun h => nr.nan h.1
    cong := ?cong
    concat := ?concat
    push := ?push
    fuseWarps := fun h => ⟨⟨(nr.fuseWarps h.1).1, h.2⟩, (nr.fuseWarps h.1).2, rfl, fun h => h⟩
    idWarp := fun h h1 h2 => ⟨nr.idWarp h.1 h1 h2, rfl, fun h => h⟩
    nanWarp := fun {l tf d a} h hn => ⟨⟨(nr.nanWarp h.1 hn).1, trivial⟩, (nr.nanWarp h.1 hn).2, by
      simp only [elem, nanLeaf, hn, if_true], fun _ => trivial⟩
    splitWarp := fun h h1 h2 h3 => ⟨⟨(nr.splitWarp h.1 h1 h2 h3).1, h.2⟩, (nr.splitWarp h.1 h1 h2 h3).2, rfl, fun h => h⟩
    splitOv := fun h h1 h2 h3 h4 h5 => ⟨⟨(nr.splitOv h.1 h1 h2 h3 h4 h5).1, h.2⟩, (nr.splitOv h.1 h1 h2 h3 h4 h5).2, rfl,
      fun h => h⟩
    splitCrop := ?splitCrop
    absorb := ?absorb
    nanCrop := ?nanCrop
    fuseCrops := ?fuseCrops
    warpAfterCrop := ?warpAfterCrop
    dequantCrop := fun h => ⟨⟨(nr.dequantCrop h.1).1, h.2⟩, (nr.dequantCrop h.1).2, rfl, fun h => h⟩
    take := ?take
    renorm := ?renorm
    cropAfterOverview := ?cropAfterOverview
    warpAfterOverview := fun h => ⟨⟨(nr.warpAfterOverview h.1).1, h.2⟩, (nr.warpAfterOverview h.1).2, rfl, fun h => h⟩
    dequantOverview := fun h => ⟨⟨(nr.dequantOverview h.1).1, h.2⟩, (nr.dequantOverview h.1).2, rfl, fun h => h⟩
    ov0 := fun h => ⟨nr.ov0 h.1, rfl, fun h => h⟩
    fuseOv := fun h => ⟨⟨(nr.fuseOv h.1).1, h.2⟩, (nr.fuseOv h.1).2, rfl, fun h => h⟩
    dequantWarp := fun h => ⟨⟨(nr.dequantWarp h.1).1, h.2⟩, (nr.dequantWarp h.1).2, rfl, fun h => h⟩ }
  case sub =>
    intro n x h hx
    refine ⟨nr.sub h.1 hx, ?_⟩
    cases n with
    | leaf l => simp [subOf] at hx
    | concat _ _ => simp [subOf] at hx
    | warp s _ _ _ => cases hx; exact h.2
    | crop s _ _ _ _ _ => cases hx; exact h.2.1
    | overview s _ _ => cases hx; exact h.2
    | dequant s _ _ => cases hx; exact h.2
  case cong =>
    intro n x x' hn hx hx' hs
    obtain ⟨w1, w2⟩ := nr.cong hn.1 hx hx'.1 hs.names
    cases n with
    | leaf l => simp [subOf] at hx
    | concat _ _ => simp [subOf] at hx
    | warp s _ _ _ => cases hx; exact ⟨⟨w1, hx'.2⟩, w2, hs.elem, hs.solo⟩
    | crop s _ _ _ _ _ => cases hx; exact ⟨⟨w1, hx'.2, hn.2.2.imp id hs.solo⟩, w2, hs.elem, hs.solo⟩
    | overview s _ _ => cases hx; exact ⟨⟨w1, hx'.2⟩, w2, hs.elem, hs.solo⟩
    | dequant s _ _ => cases hx; exact ⟨⟨w1, hx'.2⟩, w2, rfl, hs.solo⟩
  case concat =>
    intro ps d qs c hn hf hc
    obtain ⟨w1, w2⟩ := nr.concat hn.1 (hf.imp fun _ _ h => ⟨h.1.1, h.2.names⟩) hc
    obtain ⟨d', rfl, _, _⟩ := mkConcat_ok hc
    refine ⟨⟨w1, (unpickedL_iff _).2 fun q hq => ?_⟩, w2, ?_, fun h => h.elim⟩
    · obtain ⟨p, _, h⟩ := forall₂_mem_right hf hq
      exact h.1.2
    · rw [elem, elem, elemL_forall₂ (hf.imp fun _ _ h => h.2.elem)]
  case push =>
    intro n ps d c hn hsub hsel h
    obtain ⟨w1, w2⟩ := nr.push hn.1 hsub hsel h
    have hu : ∀ p ∈ ps, Unpicked p := by
      have : Unpicked (.concat ps d) := by
        cases n with
        | leaf l => simp [subOf] at hsub
        | concat _ _ => simp [subOf] at hsub
        | warp s _ _ _ => cases hsub; exact hn.2
        | crop s _ _ _ _ _ => cases hsub; exact hn.2.1
        | overview s _ _ => cases hsub; exact hn.2
        | dequant s _ _ => cases hsub; exact hn.2
      exact (unpickedL_iff _).1 this
    have hne : ps ≠ [] := (nr.sub hn.1 hsub).1
    unfold pushUnder at h
    split at h
    · cases h
    · rename_i qs hqs
      split at h
      · rename_i c' hc'
        cases h
        obtain ⟨d', rfl, hq0, _⟩ := mkConcat_ok hc'
        have hf := mapAll_ok hqs
        cases n with
        | leaf l => simp [subOf] at hsub
        | concat _ _ => simp [subOf] at hsub
        | warp s tf dw a =>
          cases hsub
          refine ⟨⟨w1, (unpickedL_iff _).2 fun q hq => ?_⟩, w2, ?_, fun h => h.elim⟩
          · obtain ⟨p, hp, e⟩ := forall₂_mem_right hf hq
            cases e; exact hu p hp
          · simp only [elem]
            rw [elemL_forall₂ (hf.imp fun p q e => by cases e; rfl)]
        | crop s y0 y1 x0 x1 ci =>
          cases hsub
          cases ci with
          | some _ => exact (hsel trivial).elim
          | none =>
            refine ⟨⟨w1, (unpickedL_iff _).2 fun q hq => ?_⟩, w2, ?_, fun h => h.elim⟩
            · obtain ⟨p, hp, e⟩ := forall₂_mem_right hf hq
              rw [reapply] at e
              exact (mkCrop_typed N (hu p hp) (.inl rfl) e).1
            · simp only [elem]
              rw [elemL_forall₂ (hf.imp fun p q e => by rw [reapply] at e; rw [mkCrop_ints e]; rfl)]
        | overview s k dw =>
          cases hsub
          refine ⟨⟨w1, (unpickedL_iff _).2 fun q hq => ?_⟩, w2, ?_, fun h => h.elim⟩
          · obtain ⟨p, hp, e⟩ := forall₂_mem_right hf hq
            cases e; exact hu p hp
          · simp only [elem]
            rw [elemL_forall₂ (hf.imp fun p q e => by cases e; rfl)]
        | dequant s q dw =>
          cases hsub
          refine ⟨⟨w1, (unpickedL_iff _).2 fun q hq => ?_⟩, w2, ?_, fun h => h.elim⟩
          · obtain ⟨p, hp, e⟩ := forall₂_mem_right hf hq
            cases e; exact hu p hp
          · simp only [elem]
            refine hN _ _ (by rw [elemL_map]; simpa using hq0) fun t ht => ?_
            rw [elemL_map] at ht
            obtain ⟨q', hq', rfl⟩ := List.mem_map.1 ht
            obtain ⟨p, hp, e⟩ := forall₂_mem_right hf hq'
            cases e; rfl
      · cases h
      · cases h
  case splitCrop =>
    intro s tf d a num k c h h1 h2 hk h3 h4
    obtain ⟨w1, w2⟩ := nr.splitCrop h.1 h1 h2 hk h3 h4
    unfold paddedCrop at h4
    split at h4
    · cases h4
    · split at h4
      · cases h4
      · split at h4
        · cases h4
        · rename_i new hnew
          obtain ⟨c1, c2, c3⟩ := mkCrop_typed N (s := mkOverview s k) h.2 (.inl rfl) hnew
          simp only at h4
          split at h4
          · cases h4; exact ⟨⟨w1, c1⟩, w2, c2, c3⟩
          · cases h4; exact ⟨⟨w1, c1⟩, w2, c2, c3⟩
  case absorb =>
    intro s tf d a num r h hnum hr
    obtain ⟨w1, w2⟩ := nr.absorb h.1 hnum hr
    unfold absorb at hr
    split at hr
    · cases hr; exact ⟨h, w2, rfl, fun h => h⟩
    · split at hr
      · cases hr; exact ⟨h, w2, rfl, fun h => h⟩
      · rename_i chain osub k dk hlook
        have hsp := look_spec _ _ _ _ _ _ hlook
        have hs : Unpicked s := h.2
        rw [hsp] at hs
        split at hr
        · cases hr; exact ⟨h, w2, rfl, fun h => h⟩
        · split at hr
          · rename_i y0 y1 x0 x1 c hlast
            split at hr
            · cases hr
            · cases hr
            · rename_i inner tf1 hin
              split at hr
              · cases hr
              · rename_i head hhead
                cases hr
                have hch : chain = chain.dropLast ++ [.crop y0 y1 x0 x1 c] := by
                  obtain ⟨ys, e⟩ := List.getLast?_eq_some_iff.1 hlast
                  rw [e, List.dropLast_concat]
                rw [hch, unlink_append] at hs hsp
                have hcr : Unpicked (unlink [.crop y0 y1 x0 x1 c] (.overview osub k dk)) := unlink_unpicked _ hs
                simp only [Tree.warpAfterCrop] at hin
                split at hin
                · cases hin
                · split at hin
                  · cases hin
                  · rename_i i hi
                    simp only [Except.ok.injEq, Option.some.injEq, Prod.mk.injEq] at hin
                    obtain ⟨rfl, _⟩ := hin
                    obtain ⟨c1, c2, c3⟩ := mkCrop_typed N (s := osub) hcr.1 hcr.2 hi
                    obtain ⟨r1, r2, r3⟩ := relink_typed N _ (n' := unlink [.crop y0 y1 x0 x1 c] (.overview osub k dk)) c1 c2
                      c3 hhead
                    refine ⟨⟨w1, r1⟩, w2, ?_, fun hl => ?_⟩
                    · show elem N head = elem N s
                      rw [r2, hsp]
                    · exact r3 (by rw [← hsp]; exact hl)
          · split at hr
            · cases hr
            · rename_i head hhead
              cases hr
              obtain ⟨r1, r2, r3⟩ := relink_typed N _ (n' := .overview osub k dk) (n := osub) (unlink_unpicked _ hs :) rfl
                (fun h => h) hhead
              refine ⟨⟨w1, r1⟩, w2, ?_, fun hl => ?_⟩
              · show elem N head = elem N s
                rw [r2, hsp]
              · exact r3 (by rw [← hsp]; exact hl)
  case nanCrop =>
    intro l y0 y1 x0 x1 c r h hn hr
    obtain ⟨w1, w2⟩ := nr.nanCrop h.1 hn hr
    unfold nanCrop at hr
    split at hr
    · cases hr
    · split at hr
      · cases hr
      · split at hr
        · cases hr
        · cases hr
          exact ⟨⟨w1, trivial⟩, w2, by simp only [elem, nanLeaf, hn, if_true], fun _ => trivial⟩
  case fuseCrops =>
    intro s iy0 iy1 ix0 ix1 ic y0 y1 x0 x1 c r h hr
    obtain ⟨w1, w2⟩ := nr.fuseCrops h.1 hr
    unfold fuseCrops at hr
    split at hr
    · cases hr
    · rename_i nc hnc
      obtain ⟨h1, h2⟩ := h.2
      obtain ⟨c1, c2, c3⟩ := mkCrop_typed N (s := s) h1.1 (by
        by_cases e : nc = none
        · exact .inl e
        · right
          rcases fuseChans_none hnc e with e | e
          · exact h1.2.resolve_left e
          · exact h2.resolve_left e) hr
      exact ⟨⟨w1, c1⟩, w2, c2, c3⟩
  case warpAfterCrop =>
    intro s tf d a y0 y1 x0 x1 c inner tf' h hr
    obtain ⟨w1, w2⟩ := nr.warpAfterCrop h.1 hr
    simp only [Tree.warpAfterCrop] at hr
    split at hr
    · cases hr
    · split at hr
      · cases hr
      · rename_i i hi
        simp only [Except.ok.injEq, Option.some.injEq, Prod.mk.injEq] at hr
        obtain ⟨rfl, _⟩ := hr
        obtain ⟨c1, c2, c3⟩ := mkCrop_typed N (s := s) h.2.1 h.2.2 hi
        exact ⟨⟨w1, c1⟩, w2, c2, c3⟩
  case take =>
    intro ps d y0 y1 x0 x1 c t h ht
    rcases h.2.2 with e | e
    · cases e
    · exact e.elim
  case renorm =>
    intro ps d y0 y1 x0 x1 cr h hcr
    obtain ⟨w1, w2⟩ := nr.renorm h.1 hcr
    obtain ⟨c1, c2, c3⟩ := mkCrop_typed N (s := .concat ps d) h.2.1 (.inl rfl) hcr
    exact ⟨⟨w1, c1⟩, w2, c2, c3⟩
  case cropAfterOverview =>
    intro s y0 y1 x0 x1 c k d r h hr
    obtain ⟨w1, w2⟩ := nr.cropAfterOverview h.1 hr
    simp only [cropAfterOverview] at hr
    split at hr
    · cases hr
    · rename_i cr hcr
      obtain ⟨c1, c2, c3⟩ := mkCrop_typed N (s := mkOverview s k) h.2.1 h.2.2 hcr
      split at hr
      · cases hr; exact ⟨⟨w1, c1⟩, w2, c2, c3⟩
      · cases hr; exact ⟨⟨w1, c1⟩, w2, c2, c3⟩

end Tree
end Verif
