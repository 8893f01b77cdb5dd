/-
The trees a user can build with the API: leaves, constructors and the methods of images, applied in any
order.  Such trees are well formed.
-/
import Verif.TakeTotal

namespace Verif
namespace Tree

open Helpers Node

/-- Trees built by API calls that succeed.  A leaf is any image with a size, channels whose number fits
its codes, and any number of overviews (delayed_leafs.py:73-125, 385-387); a warp must be invertible and
have no negative size; selected channels must exist (a crop of an image with unknown codes does not check
this). -/
inductive Built : Node → Prop
  | leaf (l : Leaf) (h : l.WF) (hd : Nonneg l.dsize) : Built (.leaf l)
  | concat (ps : List Node) (n : Node) (h : ∀ p ∈ ps, Built p) (e : mkConcat ps = .ok n) : Built n
  | warp (s : Node) (tf : Affine) (d : Option (Int × Int)) (a : Algo) (h : Built s) (htf : tf.det ≠ 0)
      (hd : Nonneg (mkWarp s tf d a).dsize) : Built (mkWarp s tf d a)
  | crop (s n : Node) (sl : Option Space) (c : Option (List Nat)) (h : Built s) (hc : IdxOk s.nchan c)
      (e : mkCrop s sl c = .ok n) : Built n
  | padded (s n : Node) (y0 y1 x0 x1 : Int) (pad : (Int × Int) × (Int × Int)) (h : Built s)
      (hp : 0 ≤ pad.1.1 ∧ 0 ≤ pad.1.2 ∧ 0 ≤ pad.2.1 ∧ 0 ≤ pad.2.2)
      (e : paddedCrop s y0 y1 x0 x1 pad = .ok n) : Built n
  | overview (s : Node) (k : Int) (h : Built s) : Built (mkOverview s k)
  | dequant (s : Node) (q : Quantization) (h : Built s) : Built (mkDequant s q)
  | take (s n : Node) (idxs : List Nat) (h : Built s) (hi : ∀ i ∈ idxs, i < s.nchan)
      (e : takeIdx s idxs = .ok n) : Built n
  | takeNames (s n : Node) (codes : List Str) (p : Policy) (h : Built s)
      (e : takeNames s codes p = .ok n) : Built n

theorem normSlice_bounds (D : Int) (hD : 0 ≤ D) (a b : Option Int) :
    0 ≤ (normSlice D a b).1 ∧ (normSlice D a b).1 ≤ (normSlice D a b).2 ∧ (normSlice D a b).2 ≤ D := by
  have hb : ∀ i, 0 ≤ normBound D i ∧ normBound D i ≤ D := by
    intro i; unfold normBound; omega
  have h0 : 0 ≤ (normSlice D a b).1 ∧ (normSlice D a b).1 ≤ D := by
    cases a with
    | none => exact ⟨le_refl _, hD⟩
    | some a => exact hb a
  refine ⟨h0.1, le_max_left _ _, ?_⟩
  refine max_le h0.2 ?_
  cases b with
  | none => simp [hD]
  | some b => exact (hb b).2

theorem mkCrop_built {s n : Node} (hw : WF s) (hf : Fit s) {sl : Option Space} {c : Option (List Nat)}
    (hc : IdxOk s.nchan c) (e : mkCrop s sl c = .ok n) : WF n ∧ Fit n := by
  obtain ⟨h1, h2⟩ := hf.nonneg hw
  unfold mkCrop at e
  split at e
  · cases e
  · cases sl with
    | none =>
      simp only [Except.ok.injEq] at e
      subst e
      exact ⟨⟨hw, le_refl _, le_refl _, hc⟩, hf, h2, le_refl _, h1, le_refl _⟩
    | some sl =>
      simp only [Except.ok.injEq] at e
      subst e
      obtain ⟨a1, a2, a3⟩ := normSlice_bounds s.dsize.2 h2 sl.1.1 sl.1.2
      obtain ⟨b1, b2, b3⟩ := normSlice_bounds s.dsize.1 h1 sl.2.1 sl.2.2
      exact ⟨⟨hw, a1, b1, hc⟩, hf, a2, a3, b2, b3⟩

/-- The size of a padded crop is not negative. -/
theorem embedSlice_bounds {lo hi D pl ph : Int} {r : (Int × Int) × (Int × Int)} (hD : 0 ≤ D)
    (hp : 0 ≤ pl ∧ 0 ≤ ph) (h : embedSlice lo hi D pl ph = .ok r) :
    0 ≤ r.1.1 ∧ r.1.1 ≤ r.1.2 ∧ r.1.2 ≤ D ∧ 0 ≤ r.2.1 ∧ 0 ≤ r.2.2 ∧
    r.1.2 - r.1.1 + r.2.1 + r.2.2 = hi - lo + pl + ph := by
  unfold embedSlice at h
  split at h
  · cases h
  · simp only [Except.ok.injEq] at h
    subst h
    simp only
    omega

theorem paddedCrop_built {s n : Node} (hw : WF s) (hf : Fit s) {y0 y1 x0 x1 : Int}
    {pad : (Int × Int) × (Int × Int)} (hp : 0 ≤ pad.1.1 ∧ 0 ≤ pad.1.2 ∧ 0 ≤ pad.2.1 ∧ 0 ≤ pad.2.2)
    (e : paddedCrop s y0 y1 x0 x1 pad = .ok n) : WF n ∧ Fit n := by
  obtain ⟨h1, h2⟩ := hf.nonneg hw
  unfold paddedCrop at e
  split at e
  · cases e
  · rename_i ysl yex hy
    obtain ⟨_, a2, _, a4, a5, _⟩ := embedSlice_bounds h2 ⟨hp.1, hp.2.1⟩ hy
    split at e
    · cases e
    · rename_i xsl xex hx
      obtain ⟨_, b2, _, b4, b5, _⟩ := embedSlice_bounds h1 ⟨hp.2.2.1, hp.2.2.2⟩ hx
      simp only at a2 a4 a5 b2 b4 b5
      split at e
      · cases e
      · rename_i new hnew
        obtain ⟨k1, k2⟩ := mkCrop_built hw hf (c := none) trivial hnew
        split at e
        · cases e
          refine ⟨⟨k1, by simp⟩, ⟨?_, ?_⟩, k2⟩ <;> simp only <;> omega
        · cases e
          exact ⟨k1, k2⟩

theorem concat_built {ps : List Node} {n : Node} (h : ∀ p ∈ ps, WF p ∧ Fit p) (e : mkConcat ps = .ok n) :
    WF n ∧ Fit n := by
  obtain ⟨d, rfl, hne, hd⟩ := mkConcat_ok e
  obtain ⟨p, hp⟩ := List.exists_mem_of_ne_nil _ hne
  refine ⟨⟨hne, (WFL_iff _ _).2 fun p hp => ⟨(h p hp).1, hd p hp⟩⟩, ?_, (FitL_iff _).2 fun p hp => (h p hp).2⟩
  rw [← hd p hp]
  exact (h p hp).2.nonneg (h p hp).1

theorem takeNamesIf_built {same : Bool} {s n : Node} (hw : WF s) (hf : Fit s) {codes : List Str} {p : Policy}
    (e : takeNamesIf same s codes p = .ok n) : WF n ∧ Fit n := by
  have hps : WFL s.dsize [s] := (WFL_iff _ _).2 (by simpa using hw)
  have hfc : Fit (.concat [s] s.dsize) := ⟨hf.nonneg hw, (FitL_iff _).2 (by simpa using hf)⟩
  by_cases hcc : ∃ ps d, s = .concat ps d
  · obtain ⟨ps, d, rfl⟩ := hcc
    simp only [takeNamesIf] at e
    split at e
    · cases e; exact ⟨hw, hf⟩
    · split at e
      · cases e
      · rename_i names hn
        split at e
        · cases e
        · have hps : WFL d ps := by rw [WF] at hw; exact hw.2
          obtain ⟨⟨qs, rfl⟩, h1, _⟩ := concatTake_ok hps (takeIdx_all ps d hps)
            (channelsL_some (by rw [hn]; rfl)) (reqsOk_of names codes) e
          exact ⟨h1, concatTake_stable fit_take hf
            (takeIdx_stableL fit_take ps d hps (fit_take.parts hf)) rfl e⟩
  · rw [concat_form (fun ps d h => hcc ⟨ps, d, h⟩)] at e
    split at e
    · cases e
    · rename_i names hn
      have hl := channels_length s names hw hn
      split at e
      · refine mkCrop_built hw hf ?_ e
        intro i hi
        rw [List.mem_filterMap] at hi
        obtain ⟨c, _, hc⟩ := hi
        rw [← hl]; exact osetIndex_lt hc
      · split at e
        · cases e
          exact ⟨⟨by simp, hps⟩, hfc⟩
        · split at e
          · cases e
          · have hcl : channelsL [s] = some names := by simp [channelsL, hn]
            obtain ⟨⟨qs, rfl⟩, h1, _⟩ := concatTake_ok hps (takeIdx_all [s] _ hps)
              (channelsL_some (by rw [hcl]; rfl)) (reqsOk_of names codes) e
            exact ⟨h1, concatTake_stable fit_take hfc
              (takeIdx_stableL fit_take [s] _ hps (fit_take.parts hfc)) rfl e⟩

/-- Everything the API builds is well formed. -/
theorem Built.ok {n : Node} (h : Built n) : WF n ∧ Fit n := by
  induction h with
  | leaf l h hd => exact ⟨h, hd⟩
  | concat ps n h e ih => exact concat_built ih e
  | warp s tf d a h htf hd ih => exact ⟨⟨ih.1, htf⟩, hd, ih.2⟩
  | crop s n sl c h hc e ih => exact mkCrop_built ih.1 ih.2 hc e
  | padded s n y0 y1 x0 x1 pad h hp e ih => exact paddedCrop_built ih.1 ih.2 hp e
  | overview s k h ih => exact ⟨ih.1, ih.2, rfl⟩
  | dequant s q h ih => exact ⟨ih.1, ih.2, rfl⟩
  | take s n idxs h hi e ih =>
    exact ⟨(takeIdx_ok _ ih.1 _ _ hi e).wf, takeIdx_stable fit_take _ ih.1 ih.2 _ _ hi e⟩
  | takeNames s n codes p h e ih => exact takeNamesIf_built ih.1 ih.2 e

end Tree
end Verif
