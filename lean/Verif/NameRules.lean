/-
`optimize` keeps the channel codes and their number whatever the tolerances of its tests are.
-/
import Verif.Terminate

namespace Verif
namespace Tree

open Helpers Node

/-- The same channels. -/
structure Names (n n' : Node) : Prop where
  channels : n'.channels = n.channels
  nchan : n'.nchan = n.nchan

theorem Sim.names {n n' : Node} (h : Sim n n') : Names n n' := ⟨h.channels, h.nchan⟩

theorem channelsL_forall₂ {ps qs : List Node}
    (h : List.Forall₂ (fun p q => Node.channels q = Node.channels p) ps qs) : channelsL qs = channelsL ps := by
  induction h with
  | nil => rfl
  | cons h _ ih => rw [channelsL, channelsL, h, ih]

theorem paddedCrop_names {s r : Node} {y0 y1 x0 x1 : Int} {pad : (Int × Int) × (Int × Int)}
    (h : paddedCrop s y0 y1 x0 x1 pad = .ok r) : Names s r := by
  obtain ⟨a, b, e, f, rfl | ⟨x, y, d, al, rfl⟩⟩ := paddedCrop_form h
  · exact ⟨by simp only [channels], by simp only [nchan]⟩
  · exact ⟨by simp only [channels], by simp only [nchan]⟩

theorem nameRules (H : Heur) : Rules H WF Names := by
  have sr := simRules Heur.exact Heur.exact_exact
  have ms : ∀ {a b : Node}, WF b ∧ Sim a b → WF b ∧ Names a b := fun h => ⟨h.1, h.2.names⟩
  refine
  { refl := fun _ => ⟨rfl, rfl⟩
    trans := fun h1 h2 => ⟨h2.channels.trans h1.channels, h2.nchan.trans h1.nchan⟩
    sub := sr.sub
    parts := sr.parts
    same := sr.same
    nan := sr.nan
    cong := ?cong
    concat := ?concat
    push := fun h1 h2 h3 h4 => ms (sr.push h1 h2 h3 h4)
    fuseWarps := fun h => ms (sr.fuseWarps h)
    idWarp := fun _ _ _ => ⟨by simp only [channels], by simp only [nchan]⟩
    nanWarp := fun h hn => ms (sr.nanWarp h hn)
    splitWarp := ?splitWarp
    splitOv := fun h _ _ _ _ _ => ⟨h.1, by simp only [mkOverview, channels], by simp only [mkOverview, nchan]⟩
    splitCrop := ?splitCrop
    absorb := fun h _ hr => by obtain ⟨h1, h2⟩ := sim_absorb h hr; exact ⟨h2, h1.names⟩
    nanCrop := fun h hn hr => ms (sr.nanCrop h hn hr)
    fuseCrops := fun h hr => ms (sr.fuseCrops h hr)
    warpAfterCrop := fun h hr => ms (sr.warpAfterCrop h hr)
    dequantCrop := fun h => ms (sr.dequantCrop h)
    take := ?take
    renorm := fun h hr => ms (sr.renorm h hr)
    cropAfterOverview := ?cropAfterOverview
    warpAfterOverview := fun h => ms (sr.warpAfterOverview h)
    dequantOverview := fun h => ms (sr.dequantOverview h)
    ov0 := fun h => (sr.ov0 h).names
    fuseOv := fun h => ms (sr.fuseOv h)
    dequantWarp := fun h => ms (sr.dequantWarp h) }
  case cong =>
    intro n x x' hn hx hx' hs
    have hc := hs.nchan
    have hch := hs.channels
    cases n with
    | leaf l => simp [subOf] at hx
    | concat _ _ => simp [subOf] at hx
    | warp s tf d a =>
      cases hx
      exact ⟨⟨hx', hn.2⟩, by simpa only [setSub, channels] using hch, by simpa only [setSub, nchan] using hc⟩
    | crop s y0 y1 x0 x1 c =>
      cases hx
      refine ⟨⟨hx', hn.2.1, hn.2.2.1, by rw [hc]; exact hn.2.2.2⟩, ?_, ?_⟩
      · rw [setSub, channels_crop, channels_crop, selNames_congr hch]
      · cases c with
        | none => simpa only [setSub, nchan] using hc
        | some c => simp only [setSub, nchan]
    | overview s k d =>
      cases hx
      exact ⟨hx', by simpa only [setSub, channels] using hch, by simpa only [setSub, nchan] using hc⟩
    | dequant s q d =>
      cases hx
      exact ⟨hx', by simpa only [setSub, channels] using hch, by simpa only [setSub, nchan] using hc⟩
  case concat =>
    intro ps d qs c hn hf hc
    obtain ⟨d', rfl, hne, hd'⟩ := mkConcat_ok hc
    refine ⟨⟨hne, (WFL_iff _ _).2 fun q hq => ?_⟩, ?_, ?_⟩
    · obtain ⟨p, _, h⟩ := forall₂_mem_right hf hq
      exact ⟨h.1, hd' q hq⟩
    · rw [channels, channels]
      exact channelsL_forall₂ (hf.imp fun _ _ h => h.2.channels)
    · rw [nchan, nchan]
      exact nchans_forall₂ (hf.imp fun _ _ h => h.2.nchan)
  case splitWarp =>
    intro s tf d a num k h _ _ _
    exact ⟨⟨h.1, by rw [Affine.det_mul]; exact mul_ne_zero h.2 (Affine.det_inv _ (det_ovScale k))⟩,
      (sim_split s h.1 tf h.2 d a _ k).names⟩
  case splitCrop =>
    intro s tf d a num k c h _ _ _ _ hcr
    have hov : WF (mkOverview s k) := h.1
    have hp := paddedCrop_names hcr
    refine ⟨paddedCrop_wf hov hcr, ?_, ?_⟩
    · rw [hp.channels]; simp only [mkOverview, channels]
    · rw [hp.nchan]; simp only [mkOverview, nchan]
  case take =>
    intro ps d y0 y1 x0 x1 c t h ht
    have hT := takeIdx_ok _ h.1 c t h.2.2.2 ht
    refine ⟨hT.wf, ?_⟩
    intro t' cr ht' hk hcr
    refine ⟨wf_mkCrop (c := none) ht' trivial hcr, ?_, ?_⟩
    · rw [mkCrop_ints hcr, channels_crop, channels_crop, selNames, selNames]
      rw [hk.channels, hT.channels]
    · rw [mkCrop_ints hcr, nchan_crop_none, hk.nchan, ← den_length, hT.den]
      simp [pick, nchan]
  case cropAfterOverview =>
    intro s y0 y1 x0 x1 c k d r h hr
    have hw : WF (.crop s y0 y1 x0 x1 c) := h
    have hov : WF (mkOverview s k) := hw.1
    have hidx : IdxOk (nchan (mkOverview s k)) c := by
      rw [mkOverview]; simp only [nchan]; exact hw.2.2.2
    unfold cropAfterOverview at hr
    simp only at hr
    split at hr
    · cases hr
    · rename_i cr hcr
      have h1 := wf_mkCrop hov hidx hcr
      have h2 : nchan cr = nchan (.crop s y0 y1 x0 x1 c) := by
        rw [mkCrop_ints hcr, mkOverview]
        cases c <;> simp only [nchan]
      have h3 : cr.channels = (Node.crop s y0 y1 x0 x1 c).channels := by
        rw [mkCrop_ints hcr, mkOverview, channels_crop, channels_crop]
        exact selNames_congr (by simp only [channels]) c
      split at hr
      · cases hr
        exact ⟨h1, by rw [h3]; simp only [channels], by rw [h2]; simp only [nchan]⟩
      · cases hr
        refine ⟨⟨h1, (diag_trans _ _).det⟩, ?_, ?_⟩
        · rw [mkWarp, channels_warp, h3, channels_overview]
        · simp only [mkWarp, nchan] at h2 ⊢
          exact h2

end Tree
end Verif
