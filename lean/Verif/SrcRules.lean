/-
Where the channels of a tree come from: the leaf and the channel of the leaf, or nowhere (a NaN leaf), and
the dequantizations on the way.  `optimize` keeps this for every channel, whatever the tolerances of its tests
are, and whether or not the channel has data inside the canvas.
-/
import Verif.NameRules
import Verif.TakeView
import Verif.Terminate

namespace Verif
namespace Tree

open Helpers Node

/-- The origin of one channel: leaf and channel of the leaf (`none`: NaN), and the dequantizations, the one
nearest to the leaf first. -/
structure Src where
  leaf : Option (Nat × Nat)
  qs : List Quantization
deriving DecidableEq

/-- The origin after a dequantization. -/
def Src.deq (q : Quantization) (c : Src) : Src := ⟨c.leaf, c.qs ++ [q]⟩

/-- The channels of a crop. -/
def selSrc (l : List Src) : Option (List Nat) → List Src
  | none => l
  | some c => pick ⟨none, []⟩ l c

mutual
/-- The origins of the channels of a tree. -/
def src : Node → List Src
  | .leaf l => (List.range l.nchan).map (fun i => ⟨if l.nan then none else some (l.id, i), []⟩)
  | .concat ps _ => srcL ps
  | .warp s _ _ _ => src s
  | .crop s _ _ _ _ c => selSrc (src s) c
  | .overview s _ _ => src s
  | .dequant s q _ => (src s).map (Src.deq q)
def srcL : List Node → List Src
  | [] => []
  | p :: ps => src p ++ srcL ps
end

theorem src_warp (s : Node) (tf : Affine) (d : Int × Int) (a : Algo) : src (.warp s tf d a) = src s := by
  simp only [src]
theorem src_crop (s : Node) (y0 y1 x0 x1 : Int) (c : Option (List Nat)) :
    src (.crop s y0 y1 x0 x1 c) = selSrc (src s) c := by simp only [src]
theorem src_overview (s : Node) (k : Int) (d : Int × Int) : src (.overview s k d) = src s := by simp only [src]
theorem src_dequant (s : Node) (q : Quantization) (d : Int × Int) :
    src (.dequant s q d) = (src s).map (Src.deq q) := by simp only [src]
theorem src_concat (ps : List Node) (d : Int × Int) : src (.concat ps d) = srcL ps := by simp only [src]
theorem src_mkOverview (s : Node) (k : Int) : src (mkOverview s k) = src s := by simp only [mkOverview, src]
theorem src_mkDequant (s : Node) (q : Quantization) : src (mkDequant s q) = (src s).map (Src.deq q) := by
  simp only [mkDequant, src]

theorem srcL_eq (ps : List Node) : srcL ps = ps.flatMap src := by
  induction ps with
  | nil => rfl
  | cons p ps ih => simp [srcL, ih]

mutual
theorem src_length : ∀ n : Node, (src n).length = n.nchan
  | .leaf l => by simp [src, nchan]
  | .concat ps _ => by simpa [src, nchan] using srcL_length ps
  | .warp s _ _ _ => by simpa [src, nchan] using src_length s
  | .crop s _ _ _ _ c => by
    cases c with
    | none => simpa [src, selSrc, nchan] using src_length s
    | some c => simp [src, selSrc, nchan, pick]
  | .overview s _ _ => by simpa [src, nchan] using src_length s
  | .dequant s _ _ => by simpa [src, nchan] using src_length s
theorem srcL_length : ∀ ps : List Node, (srcL ps).length = nchans ps
  | [] => rfl
  | p :: ps => by simp [srcL, nchans, src_length p, srcL_length ps]
end

theorem srcL_forall₂ {ps qs : List Node} (h : List.Forall₂ (fun p q => src q = src p) ps qs) :
    srcL qs = srcL ps := by
  induction h with
  | nil => rfl
  | cons h _ ih => rw [srcL, srcL, h, ih]

theorem src_nanLeaf (kind : Nat) (d : Int × Int) (names : List Str) :
    src (nanLeaf kind d (some names)) = names.map (fun _ => ⟨none, []⟩) := by
  simp only [nanLeaf, src, Option.map_some, Option.getD_some, if_true]
  apply List.ext_getElem <;> simp

/-- The channels of a NaN leaf. -/
theorem src_nan {l : Leaf} (h : l.nan = true) : src (.leaf l) = (List.range l.nchan).map (fun _ => ⟨none, []⟩) := by
  simp only [src, h, if_true]

theorem src_mkCrop {s r : Node} {sl : Option Space} {c : Option (List Nat)} (h : mkCrop s sl c = .ok r) :
    src r = selSrc (src s) c := by
  unfold mkCrop at h
  split at h
  · cases h
  · split at h
    · cases h; rw [src_crop]
    · cases h; rw [src_crop]

/-! #### channel selection -/

theorem srcView : View (fun _ => True) src ⟨none, []⟩ ⟨none, []⟩ where
  len := fun _ => src_length _
  parts := fun _ _ _ => trivial
  concat := fun ps d => by rw [src_concat, srcL_eq]
  crop := fun _ _ _ => by rw [src_crop]; rfl
  nan := fun d l _ => by rw [src_nanLeaf]; simp

theorem takeIdx_src (n : Node) (idxs : List Nat) (t : Node) (hi : ∀ i ∈ idxs, i < nchan n)
    (h : takeIdx n idxs = .ok t) : src t = pick ⟨none, []⟩ (src n) idxs :=
  takeIdx_view srcView n trivial idxs t hi h

/-! #### the rewrites -/

theorem paddedCrop_src {s r : Node} {y0 y1 x0 x1 : Int} {pad : (Int × Int) × (Int × Int)}
    (h : paddedCrop s y0 y1 x0 x1 pad = .ok r) : src r = src s := by
  obtain ⟨a, b, e, f, rfl | ⟨x, y, d, al, rfl⟩⟩ := paddedCrop_form h
  · rw [src_crop]; rfl
  · rw [src_warp, src_crop]; rfl

theorem push_src {n c : Node} {ps : List Node} {d : Int × Int} (hsub : subOf n = .ok (some (.concat ps d)))
    (hsel : ¬ selects n) (h : pushUnder n ps = .ok (some c)) : src c = src n := by
  unfold pushUnder at h
  split at h
  · cases h
  · rename_i qs hqs
    split at h
    · rename_i c' hc
      cases h
      obtain ⟨d', rfl, h5, h6⟩ := mkConcat_ok hc
      clear h5 h6
      have hm := mapAll_ok hqs
      cases n with
      | leaf l => simp [subOf] at hsub
      | concat _ _ => simp [subOf] at hsub
      | warp s tf dw a =>
        cases hsub
        rw [src_warp, src_concat, src_concat]
        exact srcL_forall₂ (hm.imp fun p q e => by cases e; rw [src_warp])
      | crop s y0 y1 x0 x1 ci =>
        cases hsub
        cases ci with
        | some ci => exact absurd trivial hsel
        | none =>
          rw [src_crop, src_concat, src_concat]
          exact srcL_forall₂ (hm.imp fun p q e => by simp only [reapply] at e; rw [src_mkCrop e]; rfl)
      | overview s k dw =>
        cases hsub
        rw [src_overview, src_concat, src_concat]
        exact srcL_forall₂ (hm.imp fun p q e => by cases e; rw [src_mkOverview])
      | dequant s k dw =>
        cases hsub
        rw [src_dequant, src_concat, src_concat]
        clear hc hqs hsel
        induction hm with
        | nil => rfl
        | cons e _ ih => cases e; rw [srcL, srcL, ih, src_mkDequant, List.map_append]
    · cases h
    · cases h

theorem unlink_src : ∀ (ls : List Link) {m n : Node}, src m = src n → src (unlink ls m) = src (unlink ls n)
  | [], _, _, h => h
  | .deq q d :: ls, m, n, h => by simp only [unlink]; rw [src_dequant, src_dequant, unlink_src ls h]
  | .crop y0 y1 x0 x1 c :: ls, m, n, h => by simp only [unlink]; rw [src_crop, src_crop, unlink_src ls h]

theorem relink_src : ∀ (ls : List Link) {n head : Node}, relink ls n = .ok head → src head = src (unlink ls n)
  | [], _, _, h => by cases h; rfl
  | .deq q d :: ls, n, head, h => by
    simp only [relink] at h
    split at h
    · cases h
    · rename_i m hm
      cases h
      simp only [unlink]
      rw [src_dequant, src_dequant, relink_src ls hm]
  | .crop .. :: _, _, _, h => by simp [relink] at h

theorem warpAfterCrop_src {s inner : Node} {tf tf' : Affine} {y0 y1 x0 x1 : Int} {c : Option (List Nat)}
    (h : warpAfterCrop s tf y0 y1 x0 x1 c = .ok (some (inner, tf'))) : src inner = selSrc (src s) c := by
  simp only [warpAfterCrop] at h
  split at h
  · cases h
  · split at h
    · cases h
    · rename_i i hi
      simp only [Except.ok.injEq, Option.some.injEq, Prod.mk.injEq] at h
      obtain ⟨rfl, _⟩ := h
      exact src_mkCrop hi

theorem absorb_src {H : Heur} {s : Node} {tf : Affine} {d : Int × Int} {a : Algo} {r : Node}
    (h : absorb H s tf d a = .ok r) : src r = src s := by
  unfold absorb at h
  split at h
  · cases h; rw [src_warp]
  · split at h
    · cases h; rw [src_warp]
    · rename_i chain osub k dk hlook
      have hsp := look_spec _ _ _ _ _ _ hlook
      split at h
      · cases h; rw [src_warp]
      · split at h
        · rename_i y0 y1 x0 x1 c hlast
          have hchain : chain = chain.dropLast ++ [.crop y0 y1 x0 x1 c] := by
            obtain ⟨ys, rfl⟩ := List.getLast?_eq_some_iff.1 hlast
            simp
          split at h
          · cases h
          · cases h
          · rename_i inner tf1 hin
            split at h
            · cases h
            · rename_i head hhead
              cases h
              rw [src_warp, relink_src _ hhead, hsp, hchain, unlink_append]
              simp only [List.dropLast_concat]
              refine unlink_src _ ?_
              simp only [unlink]
              rw [warpAfterCrop_src hin, src_crop, src_overview]
        · split at h
          · cases h
          · rename_i head hhead
            cases h
            rw [src_warp, relink_src _ hhead, hsp]
            exact unlink_src _ (by rw [src_overview])

theorem selSrc_fuse {l : List Src} {ic c nc : Option (List Nat)} (h : fuseChans ic c = .ok nc) :
    selSrc (selSrc l ic) c = selSrc l nc := by
  cases c with
  | none => cases ic <;> cases h <;> rfl
  | some o =>
    cases ic with
    | none => cases h; rfl
    | some i =>
      simp only [fuseChans] at h
      split at h
      · cases h
      · rename_i x hx
        cases h
        obtain ⟨rfl, hlt⟩ := takeList_ok hx
        exact pick_pick _ _ _ _ hlt

theorem nanCrop_src {l : Leaf} (hl : l.WF) (hn : l.nan = true) {y0 y1 x0 x1 : Int} {c : Option (List Nat)}
    (hc : IdxOk l.nchan c) {r : Node} (h : nanCrop l y0 y1 x0 x1 c = .ok r) :
    src r = selSrc (src (.leaf l)) c := by
  obtain ⟨names, hnames⟩ := Option.isSome_iff_exists.1 (hl.2 hn).1
  have hlen := hl.1 _ hnames
  have hrange : (List.range l.nchan).map (fun _ => (⟨none, []⟩ : Src)) = names.map (fun _ => ⟨none, []⟩) := by
    apply List.ext_getElem <;> simp [hlen]
  rw [src_nan hn, hrange]
  unfold nanCrop at h
  rw [hnames] at h
  split at h
  · cases h
  · rename_i ns hns
    split at h
    · cases h
    · split at h
      · cases h
      · cases h
        cases c with
        | none => cases hns; exact src_nanLeaf _ _ _
        | some c =>
          simp only at hns
          split at hns
          · cases hns
            rw [src_nanLeaf]
            simp only [selSrc, pick, List.map_map]
            refine List.map_congr_left fun i hi => ?_
            have hi' : i < names.length := by rw [hlen]; exact hc i hi
            simp [List.getD, hi']
          · cases hns

/-- The same channels, from the same places. -/
structure Origin (n n' : Node) : Prop where
  names : Names n n'
  src : src n' = src n

theorem srcRules (H : Heur) : Rules H WF Origin := by
  have nr := nameRules H
  have mk : ∀ {a b : Node}, WF b ∧ Names a b → Tree.src b = Tree.src a → WF b ∧ Origin a b :=
    fun h e => ⟨h.1, h.2, e⟩
  refine
  { refl := fun n => ⟨nr.refl n, rfl⟩
    trans := fun h1 h2 => ⟨nr.trans h1.names h2.names, h2.src.trans h1.src⟩
    sub := nr.sub
    parts := nr.parts
    same := nr.same
    nan := nr.nan
    cong := ?cong
    concat := ?concat
    push := fun h1 h2 h3 h4 => mk (nr.push h1 h2 h3 h4) (push_src h2 h3 h4)
    fuseWarps := fun h => mk (nr.fuseWarps h) (by simp only [src_warp])
    idWarp := fun h1 h2 h3 => ⟨nr.idWarp h1 h2 h3, by rw [src_warp]⟩
    nanWarp := ?nanWarp
    splitWarp := fun h1 h2 h3 h4 => mk (nr.splitWarp h1 h2 h3 h4) (by simp only [src_warp, src_mkOverview])
    splitOv := fun h1 h2 h3 h4 h5 h6 => mk (nr.splitOv h1 h2 h3 h4 h5 h6) (by simp only [src_warp, src_mkOverview])
    splitCrop := fun h1 h2 h3 h4 h5 h6 => mk (nr.splitCrop h1 h2 h3 h4 h5 h6) (by
      rw [paddedCrop_src h6, src_warp, src_mkOverview])
    absorb := fun h1 h2 h3 => mk (nr.absorb h1 h2 h3) (by rw [absorb_src h3, src_warp])
    nanCrop := ?nanCrop
    fuseCrops := ?fuseCrops
    warpAfterCrop := fun h1 h2 => mk (nr.warpAfterCrop h1 h2) (by
      rw [src_warp, warpAfterCrop_src h2, src_crop, src_warp])
    dequantCrop := ?dequantCrop
    take := ?take
    renorm := fun h1 h2 => mk (nr.renorm h1 h2) (by rw [src_mkCrop h2, src_crop])
    cropAfterOverview := ?cropAfterOverview
    warpAfterOverview := fun h => mk (nr.warpAfterOverview h) (by
      simp only [warpAfterOverview, mkWarp, src_overview, src_warp, src_mkOverview])
    dequantOverview := fun h => mk (nr.dequantOverview h) (by
      simp only [src_mkDequant, src_overview, src_dequant])
    ov0 := fun h => ⟨nr.ov0 h, by rw [src_overview]⟩
    fuseOv := fun h => mk (nr.fuseOv h) (by simp only [src_mkOverview, src_overview])
    dequantWarp := fun h => mk (nr.dequantWarp h) (by simp only [src_warp, src_dequant, src_mkDequant]) }
  case cong =>
    intro n x x' hn hx hx' hs
    refine mk (nr.cong hn hx hx' hs.names) ?_
    have e := hs.src
    cases n with
    | leaf l => simp [subOf] at hx
    | concat _ _ => simp [subOf] at hx
    | warp s tf d a => cases hx; rw [setSub, src_warp, src_warp, e]
    | crop s y0 y1 x0 x1 c => cases hx; rw [setSub, src_crop, src_crop, e]
    | overview s k d => cases hx; rw [setSub, src_overview, src_overview, e]
    | dequant s q d => cases hx; rw [setSub, src_dequant, src_dequant, e]
  case concat =>
    intro ps d qs c hn hf hc
    refine mk (nr.concat hn (hf.imp fun _ _ h => ⟨h.1, h.2.names⟩) hc) ?_
    obtain ⟨d', rfl, _, _⟩ := mkConcat_ok hc
    rw [src_concat, src_concat]
    exact srcL_forall₂ (hf.imp fun _ _ h => h.2.src)
  case nanWarp =>
    intro l tf d a h hn
    refine mk (nr.nanWarp h hn) ?_
    obtain ⟨names, hnames⟩ := Option.isSome_iff_exists.1 (h.1.2 hn).1
    rw [src_warp, src_nan hn, hnames, src_nanLeaf, ← h.1.1 _ hnames]
    apply List.ext_getElem <;> simp
  case nanCrop =>
    intro l y0 y1 x0 x1 c r h hn hr
    refine mk (nr.nanCrop h hn hr) ?_
    rw [nanCrop_src h.1 hn (by simpa [nchan] using h.2.2.2) hr, src_crop]
  case fuseCrops =>
    intro s iy0 iy1 ix0 ix1 ic y0 y1 x0 x1 c r h hr
    refine mk (nr.fuseCrops h hr) ?_
    simp only [fuseCrops] at hr
    split at hr
    · cases hr
    · rename_i nc hnc
      rw [src_mkCrop hr, src_crop, src_crop, selSrc_fuse hnc]
  case dequantCrop =>
    intro s q d y0 y1 x0 x1 c h
    refine mk (nr.dequantCrop h) ?_
    rw [src_mkDequant, src_crop, src_crop, src_dequant]
    cases c with
    | none => rfl
    | some c =>
      have hc : ∀ i ∈ c, i < nchan s := by simpa [nchan, IdxOk] using h.2.2.2
      simp only [selSrc, pick, List.map_map]
      refine List.map_congr_left fun i hi => ?_
      have hi' : i < (src s).length := by rw [src_length]; exact hc i hi
      simp [List.getD, hi']
  case take =>
    intro ps d y0 y1 x0 x1 c t h ht
    obtain ⟨w1, w2⟩ := nr.take h ht
    refine ⟨w1, fun t' cr ht' hk hcr => mk (w2 t' cr ht' hk.names hcr) ?_⟩
    have hi : ∀ i ∈ c, i < nchan (.concat ps d) := h.2.2.2
    rw [src_mkCrop hcr, src_crop]
    simp only [selSrc]
    rw [hk.src, takeIdx_src _ _ _ hi ht]
  case cropAfterOverview =>
    intro s y0 y1 x0 x1 c k d r h hr
    refine mk (nr.cropAfterOverview h hr) ?_
    unfold cropAfterOverview at hr
    simp only at hr
    split at hr
    · cases hr
    · rename_i cr hcr
      have e := src_mkCrop hcr
      split at hr
      · cases hr; rw [e, src_overview, src_crop, src_mkOverview]
      · cases hr
        simp only [mkWarp]
        rw [src_warp, e, src_overview, src_crop, src_mkOverview]

end Tree
end Verif
