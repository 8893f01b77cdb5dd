/-
C45: finalized arrays have the announced shape.
-/
import Verif.Props.Crop
import Verif.NameRules

namespace Verif.Props

open Verif.Tree Verif.Helpers Verif.Tree.Node

variable {V : Type}

/-- Assumptions on the external functions: resampling gives an array of the requested size, reading an
overview gives an array of the size GDAL would use, and neither touches the number of channels. -/
structure Env.Shaped (E : Env V) : Prop where
  warp : ∀ tf (d : Int × Int) a i, ((E.warp tf d a i).h, (E.warp tf d a i).w, (E.warp tf d a i).n) =
    (d.2.toNat, d.1.toNat, i.n)
  resize : ∀ (d : Int × Int) i, ((E.resize d i).h, (E.resize d i).w, (E.resize d i).n) =
    (d.2.toNat, d.1.toNat, i.n)
  overview : ∀ s k (i : Img V), ((E.overview s k i).h, (E.overview s k i).w, (E.overview s k i).n) =
    ((ovSize k i.h).toNat, (ovSize k i.w).toNat, i.n)

/-- The shape of an array is the one of the tree. -/
structure HasShape (n : Node) (i : Img V) : Prop where
  h : (i.h : Int) = n.dsize.2
  w : (i.w : Int) = n.dsize.1
  n : i.n = n.nchan

variable {E : Env V}

theorem guess_shape (hE : Env.Shaped E) (tf : Affine) (d : Int × Int) (a : Algo) (i : Img V) :
    ((nearestGuess E tf d a i).h, (nearestGuess E tf d a i).w, (nearestGuess E tf d a i).n) =
      (d.2.toNat, d.1.toNat, i.n) := by
  have hr := hE.resize d i
  have h1 := hE.warp tf d a i
  have h2 := hE.warp tf.inv d a i
  unfold nearestGuess
  by_cases c0 : i.values.filter E.finite = [] <;> simp only [c0, if_true, if_false] <;>
    (split
     · exact hr
     · split
       · exact h1
       · exact h2)

theorem finWarp_shape (hE : Env.Shaped E) {tf : Affine} {d : Int × Int} {a : Algo} {i j : Img V}
    (h : finWarp E tf d a i = .ok j) : (j.h, j.w, j.n) = (d.2.toNat, d.1.toNat, i.n) := by
  unfold finWarp at h
  split at h
  · split at h
    · split at h
      · unfold nearestWarp at h
        split at h
        · cases h
        · simp only at h
          split at h
          · split at h
            · cases h; rfl
            · cases h
          · cases h; rfl
      · cases h; exact hE.resize d i
    · cases h; exact guess_shape hE tf d a i
  · cases h; exact hE.warp tf d a i

theorem slice_shape (i : Img V) {y0 y1 x0 x1 : Int} (h0 : 0 ≤ y0) (h1 : y0 ≤ y1) (h2 : y1 ≤ i.h)
    (g0 : 0 ≤ x0) (g1 : x0 ≤ x1) (g2 : x1 ≤ i.w) :
    ((i.slice (some y0, some y1) (some x0, some x1)).h : Int) = y1 - y0 ∧
    ((i.slice (some y0, some y1) (some x0, some x1)).w : Int) = x1 - x0 ∧
    (i.slice (some y0, some y1) (some x0, some x1)).n = i.n := by
  simp only [Img.slice]
  rw [npSlice_range _ _ _ h0 h1 h2, npSlice_range _ _ _ g0 g1 g2]
  simp only [List.length_map, List.length_range]
  refine ⟨by omega, by omega, trivial⟩

theorem select_shape {i j : Img V} {c : Option (List Nat)} (h : i.select c = .ok j) :
    j.h = i.h ∧ j.w = i.w ∧ j.n = selLen i.n c := by
  cases c with
  | none => cases h; exact ⟨rfl, rfl, rfl⟩
  | some c =>
    simp only [Img.select] at h
    split at h
    · cases h; exact ⟨rfl, rfl, rfl⟩
    · cases h

mutual
theorem fin_shape (hE : Env.Shaped E) : ∀ n : Node, WF n → Fit n → Each E.Matches n →
    ∀ i, fin E n = .ok i → HasShape n i
  | .leaf l, hw, hf, hm, i, h => by
    unfold fin at h
    split at h
    · rename_i hn
      split at h
      · cases h
      · cases h
        have h1 := hf.1
        have h2 := hf.2
        exact ⟨by simp only [dsize]; omega, by simp only [dsize]; omega, rfl⟩
    · rename_i hn
      cases h
      obtain ⟨m1, m2, m3⟩ := hm (by simpa using hn)
      exact ⟨m1, m2, m3⟩
  | .concat ps d, hw, hf, hm, i, h => by
    unfold fin at h
    split at h
    · cases h
    · rename_i as e
      exact finL_shape hE ps d hw.2 hf.2 hm hw.1 as e i h
  | .warp s tf d a, hw, hf, hm, i, h => by
    unfold fin at h
    split at h
    · cases h
    · rename_i j e
      have hj := fin_shape hE s hw.1 hf.2 hm j e
      have := finWarp_shape hE h
      simp only [Prod.mk.injEq] at this
      obtain ⟨e1, e2, e3⟩ := this
      have h1 := hf.1.1
      have h2 := hf.1.2
      exact ⟨by simp only [dsize]; omega, by simp only [dsize]; omega, by
        rw [e3, hj.n]; rfl⟩
  | .crop s y0 y1 x0 x1 c, hw, hf, hm, i, h => by
    obtain ⟨f0, f1, f2, f3, f4⟩ := hf
    unfold fin at h
    split at h
    · cases h
    · rename_i j e
      have hj := fin_shape hE s hw.1 f0 hm j e
      obtain ⟨e1, e2, e3⟩ := slice_shape j hw.2.1 f1 (by rw [hj.h]; exact f2) hw.2.2.1 f3
        (by rw [hj.w]; exact f4)
      obtain ⟨g1, g2, g3⟩ := select_shape h
      refine ⟨by rw [g1]; exact e1, by rw [g2]; exact e2, ?_⟩
      rw [g3, e3, hj.n]
      cases c <;> rfl
  | .overview s k d, hw, hf, hm, i, h => by
    unfold fin at h
    split at h
    · cases h
    · rename_i j e
      have hj := fin_shape hE s hw hf.1 hm j e
      have hd : d = (ovSize k s.dsize.1, ovSize k s.dsize.2) := hf.2
      cases h
      have := hE.overview s k j
      simp only [Prod.mk.injEq] at this
      obtain ⟨e1, e2, e3⟩ := this
      have hnn := hf.1.nonneg hw
      have nn : ∀ m : Int, 0 ≤ m → 0 ≤ ovSize k m := by
        intro m hm
        unfold ovSize
        apply Int.ceil_nonneg
        have : (0 : ℚ) ≤ m := by exact_mod_cast hm
        have : (0 : ℚ) < (2 : ℚ) ^ k := zpow_pos (by norm_num) k
        positivity
      have p1 := nn _ hnn.1
      have p2 := nn _ hnn.2
      refine ⟨?_, ?_, by rw [e3, hj.n]; rfl⟩
      · rw [e1, hj.h, hd]
        show _ = ovSize k s.dsize.2
        omega
      · rw [e2, hj.w, hd]
        show _ = ovSize k s.dsize.1
        omega
  | .dequant s q d, hw, hf, hm, i, h => by
    unfold fin at h
    split at h
    · cases h
    · rename_i j e
      have hj := fin_shape hE s hw hf.1 hm j e
      have hd : d = s.dsize := hf.2
      cases h
      refine ⟨?_, ?_, hj.n⟩
      · simp only [dsize, hd]; exact hj.h
      · simp only [dsize, hd]; exact hj.w
theorem finL_shape (hE : Env.Shaped E) : ∀ (ps : List Node) (d : Int × Int), WFL d ps → FitL ps →
    EachL E.Matches ps → ps ≠ [] → ∀ as, finL E ps = .ok as → ∀ i, catAll as = .ok i →
      HasShape (.concat ps d) i
  | [], _, _, _, _, h, _, _, _, _ => (h rfl).elim
  | p :: ps, d, hw, hf, hm, _, as, h, i, hi => by
    unfold finL at h
    split at h
    · cases h
    · rename_i a ea
      split at h
      · cases h
      · rename_i bs eb
        cases h
        have ha := fin_shape hE p hw.1 hf.1 hm.1 a ea
        have hd : p.dsize = d := hw.2.1
        cases ps with
        | nil =>
          simp only [finL, Except.ok.injEq] at eb
          subst eb
          cases hi
          refine ⟨?_, ?_, ?_⟩
          · rw [ha.h, hd]; rfl
          · rw [ha.w, hd]; rfl
          · rw [ha.n]; simp [nchan, nchans]
        | cons q qs =>
          have ih := finL_shape hE (q :: qs) d hw.2.2 hf.2 hm.2 (by simp) bs eb
          cases bs with
          | nil =>
            unfold finL at eb
            split at eb
            · cases eb
            · split at eb <;> cases eb
          | cons b bs =>
            rw [catAll] at hi
            · split at hi
              · cases hi
              · rename_i c ec
                have hc := ih c ec
                split at hi
                · cases hi
                  refine ⟨?_, ?_, ?_⟩
                  · simp only [Img.cat]; rw [ha.h, hd]; rfl
                  · simp only [Img.cat]; rw [ha.w, hd]; rfl
                  · simp only [Img.cat]; rw [ha.n, hc.n]; rfl
                · cases hi
            · simp
end

mutual
/-- The number of channels does not depend on sizes. -/
theorem fin_count (hE : Env.Shaped E) : ∀ n : Node, Each E.Matches n → ∀ i, fin E n = .ok i → i.n = n.nchan
  | .leaf l, hm, i, h => by
    unfold fin at h
    split at h
    · split at h
      · cases h
      · cases h; rfl
    · rename_i hn
      cases h
      exact (hm (by simpa using hn)).2.2
  | .concat ps d, hm, i, h => by
    unfold fin at h
    split at h
    · cases h
    · rename_i as e
      exact finL_count hE ps hm as e i h
  | .warp s tf d a, hm, i, h => by
    unfold fin at h
    split at h
    · cases h
    · rename_i j e
      have := finWarp_shape hE h
      simp only [Prod.mk.injEq] at this
      rw [this.2.2, fin_count hE s hm j e]
      rfl
  | .crop s y0 y1 x0 x1 c, hm, i, h => by
    unfold fin at h
    split at h
    · cases h
    · rename_i j e
      obtain ⟨_, _, g3⟩ := select_shape h
      rw [g3]
      show selLen j.n c = _
      rw [fin_count hE s hm j e]
      cases c <;> rfl
  | .overview s k d, hm, i, h => by
    unfold fin at h
    split at h
    · cases h
    · rename_i j e
      cases h
      have := hE.overview s k j
      simp only [Prod.mk.injEq] at this
      rw [this.2.2, fin_count hE s hm j e]
      rfl
  | .dequant s q d, hm, i, h => by
    unfold fin at h
    split at h
    · cases h
    · rename_i j e
      cases h
      exact fin_count hE s hm j e
theorem finL_count (hE : Env.Shaped E) : ∀ ps : List Node, EachL E.Matches ps → ∀ as, finL E ps = .ok as →
    ∀ i, catAll as = .ok i → i.n = nchans ps
  | [], _, as, h, i, hi => by
    cases h; cases hi
  | p :: ps, hm, as, h, i, hi => by
    unfold finL at h
    split at h
    · cases h
    · rename_i a ea
      split at h
      · cases h
      · rename_i bs eb
        cases h
        have ha := fin_count hE p hm.1 a ea
        have ih := finL_count hE ps hm.2 bs eb
        cases bs with
        | nil =>
          cases hi
          cases ps with
          | nil => rw [ha]; simp [nchans]
          | cons q qs =>
            unfold finL at eb
            split at eb
            · cases eb
            · split at eb <;> cases eb
        | cons b bs =>
          rw [catAll] at hi
          · split at hi
            · cases hi
            · rename_i c ec
              have hc := ih c ec
              split at hi
              · cases hi
                simp only [Img.cat]; rw [ha, hc]; rfl
              · cases hi
          · simp
end

/-- C45: for every image built with the API and whatever the pixels and the resampling are, an array
that is computed has the announced shape, and the announced codes fit its channels. -/
theorem C45_announced_shape (hE : Env.Shaped E) {n : Node} (hb : Built n) (hm : Each E.Matches n) {i : Img V}
    (h : fin E n = .ok i) : Announced n i := by
  obtain ⟨hw, hf⟩ := hb.ok
  have := fin_shape hE n hw hf hm i h
  exact ⟨this.h, this.w, this.n, fun l hl => channels_length n l hw hl⟩

mutual
/-- No nearest neighbour warps. -/
def Smooth : Node → Prop
  | .leaf _ => True
  | .concat ps _ => SmoothL ps
  | .warp s _ _ a => a.interp ≠ .nearest ∧ Smooth s
  | .crop s _ _ _ _ _ => Smooth s
  | .overview s _ _ => Smooth s
  | .dequant s _ _ => Smooth s
def SmoothL : List Node → Prop
  | [] => True
  | p :: ps => Smooth p ∧ SmoothL ps
end

mutual
theorem fin_total (hE : Env.Shaped E) : ∀ n : Node, WF n → Fit n → Each E.Matches n → Smooth n →
    ∃ i, fin E n = .ok i
  | .leaf l, hw, hf, hm, _ => by
    unfold fin
    split
    · rw [if_neg (by have h1 := hf.1; have h2 := hf.2; omega)]
      exact ⟨_, rfl⟩
    · exact ⟨_, rfl⟩
  | .concat ps d, hw, hf, hm, hs => by
    obtain ⟨as, e, h⟩ := finL_total hE ps d hw.2 hf.2 hm hs
    obtain ⟨i, hi⟩ := h hw.1
    exact ⟨i, by simp only [fin, e, hi]⟩
  | .warp s tf d a, hw, hf, hm, hs => by
    obtain ⟨i, e⟩ := fin_total hE s hw.1 hf.2 hm hs.2
    exact ⟨_, by simp only [fin, e, finWarp, hs.1, if_false]; rfl⟩
  | .crop s y0 y1 x0 x1 c, hw, hf, hm, hs => by
    obtain ⟨i, e⟩ := fin_total hE s hw.1 hf.1 hm hs
    have hi := fin_shape hE s hw.1 hf.1 hm i e
    have ej := select_ok (i.slice (some y0, some y1) (some x0, some x1)) (c := c)
      (show IdxOk i.n c by rw [hi.n]; exact hw.2.2.2)
    exact ⟨_, by simp only [fin, e]; exact ej⟩
  | .overview s k d, hw, hf, hm, hs => by
    obtain ⟨i, e⟩ := fin_total hE s hw hf.1 hm hs
    exact ⟨_, by simp only [fin, e]; rfl⟩
  | .dequant s q d, hw, hf, hm, hs => by
    obtain ⟨i, e⟩ := fin_total hE s hw hf.1 hm hs
    exact ⟨_, by simp only [fin, e]; rfl⟩
theorem finL_total (hE : Env.Shaped E) : ∀ (ps : List Node) (d : Int × Int), WFL d ps → FitL ps →
    EachL E.Matches ps → SmoothL ps → ∃ as, finL E ps = .ok as ∧ (ps ≠ [] → ∃ i, catAll as = .ok i)
  | [], _, _, _, _, _ => ⟨[], rfl, fun h => (h rfl).elim⟩
  | p :: ps, d, hw, hf, hm, hs => by
    obtain ⟨a, ea⟩ := fin_total hE p hw.1 hf.1 hm.1 hs.1
    obtain ⟨bs, eb, h⟩ := finL_total hE ps d hw.2.2 hf.2 hm.2 hs.2
    refine ⟨a :: bs, by simp only [finL, ea, eb], fun _ => ?_⟩
    cases ps with
    | nil =>
      simp only [finL, Except.ok.injEq] at eb
      subst eb
      exact ⟨a, rfl⟩
    | cons q qs =>
      obtain ⟨c, ec⟩ := h (by simp)
      have hc := finL_shape hE (q :: qs) d hw.2.2 hf.2 hm.2 (by simp) bs eb c ec
      have ha := fin_shape hE p hw.1 hf.1 hm.1 a ea
      have hd : p.dsize = d := hw.2.1
      cases bs with
      | nil => simp [catAll] at ec
      | cons b bs =>
        refine ⟨a.cat c, ?_⟩
        rw [catAll]
        · rw [ec]
          have h1 := ha.h
          have h2 := ha.w
          have h3 := hc.h
          have h4 := hc.w
          rw [hd] at h1 h2
          have h5 : a.h = c.h := by
            have : (a.h : Int) = c.h := h1.trans h3.symm
            exact_mod_cast this
          have h6 : a.w = c.w := by
            have : (a.w : Int) = c.w := h2.trans h4.symm
            exact_mod_cast this
          simp only [h5, h6, and_self, if_true]
        · simp
end

/-- C45: without nearest neighbour warps (see C44), the array of every image built with the API is
computed without exceptions. -/
theorem C45_finalize_succeeds (hE : Env.Shaped E) {n : Node} (hb : Built n) (hm : Each E.Matches n)
    (hs : Smooth n) : ∃ i, fin E n = .ok i ∧ Announced n i := by
  obtain ⟨hw, hf⟩ := hb.ok
  obtain ⟨i, h⟩ := fin_total hE n hw hf hm hs
  exact ⟨i, h, C45_announced_shape hE hb hm h⟩

/-- An environment with the right shapes. -/
def shapeEnv : Env (Nat × Nat × Nat) :=
  { gridEnv with
    overview := fun _ k i => ⟨(ovSize k i.h).toNat, (ovSize k i.w).toNat, i.n, fun y x c => i.px (2 * y) (2 * x) c⟩ }

theorem shapeEnv_shaped : Env.Shaped shapeEnv := ⟨fun _ _ _ _ => rfl, fun _ _ => rfl, fun _ _ _ => rfl⟩

/-- An overview of a rotated image next to a cropped dequantized one. -/
example : ∃ n : Node, Built n ∧ Each shapeEnv.Matches n ∧ Smooth n ∧ n.dsize = (2, 3) ∧ n.nchan = 4 := by
  have hl : Built (.leaf rgbLeaf) := .leaf rgbLeaf
    ⟨by intro l h; simp only [rgbLeaf, Option.some.injEq] at h; subst h; rfl, by intro h; cases h⟩
    ⟨by decide, by decide⟩
  have d1 : (mkWarp (.leaf rgbLeaf) ⟨0, -1, 4, 1, 0, 0⟩ none .default : Node).dsize = (4, 5) := by decide +kernel
  have b1 := Built.overview _ 1 (Built.warp (.leaf rgbLeaf) ⟨0, -1, 4, 1, 0, 0⟩ none .default hl
    (by decide +kernel) (by rw [d1]; exact ⟨by decide, by decide⟩))
  have d2 : (mkOverview (mkWarp (.leaf rgbLeaf) ⟨0, -1, 4, 1, 0, 0⟩ none .default) 1 : Node).dsize = (2, 3) := by
    decide +kernel
  have b2 : Built (.crop (mkDequant (.leaf rgbLeaf) ⟨0, 1, 0, 255, none⟩) 0 3 1 3 (some [2])) :=
    .crop _ _ (some ((some 0, some 3), (some 1, some 3))) (some [2]) (.dequant _ ⟨0, 1, 0, 255, none⟩ hl)
      (by intro i hi; simp only [List.mem_singleton] at hi; subst hi; decide) rfl
  refine ⟨.concat [mkOverview (mkWarp (.leaf rgbLeaf) ⟨0, -1, 4, 1, 0, 0⟩ none .default) 1,
      .crop (mkDequant (.leaf rgbLeaf) ⟨0, 1, 0, 255, none⟩) 0 3 1 3 (some [2])] (2, 3),
    .concat [mkOverview (mkWarp (.leaf rgbLeaf) ⟨0, -1, 4, 1, 0, 0⟩ none .default) 1,
      .crop (mkDequant (.leaf rgbLeaf) ⟨0, 1, 0, 255, none⟩) 0 3 1 3 (some [2])] _ ?_ ?_, ?_, ?_, rfl, rfl⟩
  · intro p hp
    simp only [List.mem_cons, List.not_mem_nil, or_false] at hp
    rcases hp with rfl | rfl
    · exact b1
    · exact b2
  · simp only [mkConcat, d2, List.all_cons, List.all_nil]
    rfl
  · exact ⟨fun _ => ⟨rfl, rfl, rfl⟩, fun _ => ⟨rfl, rfl, rfl⟩, trivial⟩
  · exact ⟨⟨by decide, trivial⟩, trivial, trivial⟩

/-- C45 for the default `finalize()`, which optimizes first, for images without overviews. -/
theorem C45_finalize_shape_partial (H : Heur) (hE : Env.Shaped E) {n : Node} (hb : Built n)
    (ho : NoOv n) (hm : Each E.Matches n) (fuel : Nat) {i : Img V} (h : finalize H E fuel n = .ok i) :
    Announced n i := by
  obtain ⟨hw, hf⟩ := hb.ok
  unfold finalize at h
  split at h
  · cases h
  · rename_i m e
    have g := opt_good (deep := false) (sizeRules H) (by simp) fuel n m ⟨hw, hf, ho⟩ e
    have k := opt_good (deep := false) (keepRules H (nameRules H) (stable_each E.Matches (fun _ _ _ h => by cases h)))
      (by simp) fuel n m ⟨hw, hm⟩ e
    have := fin_shape hE m g.inv.wf g.inv.fit k.inv.2 i h
    exact ⟨by rw [this.h, g.rel.1], by rw [this.w, g.rel.1], by rw [this.n, g.rel.2],
      fun l hl => channels_length n l hw hl⟩

/-- C45: with overviews too, and whatever optimize does, a finalized image has the announced number of
channels. -/
theorem C45_finalize_channels (H : Heur) (hE : Env.Shaped E) {n : Node} (hb : Built n)
    (hm : Each E.Matches n) (fuel : Nat) {i : Img V} (h : finalize H E fuel n = .ok i) : i.n = n.nchan := by
  unfold finalize at h
  split at h
  · cases h
  · rename_i m e
    have k := opt_good (deep := false) (keepRules H (nameRules H) (stable_each E.Matches (fun _ _ _ h => by cases h)))
      (by simp) fuel n m ⟨hb.ok.1, hm⟩ e
    rw [fin_count hE m k.inv.2 i h, k.rel.nchan]

/-- A 10 by 10 image with three overviews. -/
def pyramid : Leaf := ⟨1, (10, 10), 3, some [p! "r", p! "g", p! "b"], some 3, false⟩

/-- A part of it of 2 by 2 pixels, scaled down to one pixel. -/
def halfCrop : Node := mkWarp (.crop (.leaf pyramid) 1 3 1 3 none) (.scale (1 / 2)) none .default

/-- C45 fails for the default `finalize()` of images with overviews: one pixel is announced and the
optimized tree announces (and gives, by `C45_announced_shape`) four. -/
theorem C45_finalize_shape_violated :
    halfCrop.dsize = (1, 1) ∧ ∃ m, opt Heur.code 40 halfCrop = .ok m ∧ m.dsize = (2, 2) := by
  refine ⟨by decide +kernel, ?_⟩
  have h : (match opt Heur.code 40 halfCrop with | .ok m => some m.dsize | .error _ => none) = some (2, 2) := by
    decide +kernel
  split at h
  · rename_i m e
    exact ⟨m, e, by simpa using h⟩
  · cases h

/-- C45 fails for images concatenated with an explicit size: the size is announced as given, whatever
the sizes of the parts are, and the array has the size of the parts. -/
theorem C45_explicit_size_violated {n : Node} {i : Img V} (hi : fin E n = .ok i) (ha : Announced n i)
    {d : Int × Int} (hd : d ≠ n.dsize) :
    (mkConcatSized [n] d).dsize = d ∧ fin E (mkConcatSized [n] d) = .ok i ∧
    ¬ Announced (mkConcatSized [n] d) i := by
  refine ⟨rfl, ?_, fun h => hd ?_⟩
  · simp [mkConcatSized, fin, finL, hi, catAll]
  · have h1 := h.h
    have h2 := h.w
    rw [ha.h] at h1
    rw [ha.w] at h2
    exact Prod.ext h2.symm h1.symm

/-- C45: such a size is not looked at by the concatenation either: parts of different sizes are accepted,
and computing the array raises. -/
theorem C45_explicit_size_raises {m n : Node} {i j : Img V} (hi : fin E m = .ok i) (hj : fin E n = .ok j)
    (hs : ¬ (i.h = j.h ∧ i.w = j.w)) (d : Int × Int) :
    fin E (mkConcatSized [m, n] d) = .error .valueError := by
  simp [mkConcatSized, fin, finL, hi, hj, catAll, hs]

example : fin gridEnv (mkConcatSized [.leaf rgbLeaf] (7, 7)) = .ok (gridEnv.img 1) :=
  (C45_explicit_size_violated (E := gridEnv) (n := .leaf rgbLeaf) (i := gridEnv.img 1) rfl
    ⟨rfl, rfl, rfl, by intro l h; simp only [Node.channels, rgbLeaf, Option.some.injEq] at h; subst h; rfl⟩
    (d := (7, 7)) (by decide)).2.1

end Verif.Props
