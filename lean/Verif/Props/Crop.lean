/-
C24 (crop is numpy slicing), C25 (nested crops), C26 (padded crops) and C44 (nearest neighbours).
-/
import Verif.Built
import Verif.KeepRules

namespace Verif.Props

open Verif.Tree Verif.Helpers Verif.Tree.Node

variable {V : Type}

/-- Both computations give the same array, or raise the same exception. -/
def Agree : Py (Img V) → Py (Img V) → Prop
  | .ok a, .ok b => a.Same b
  | .error e, .error e' => e = e'
  | _, _ => False

/-- Build an image and read its pixels. -/
def pixels (E : Env V) : Py Node → Py (Img V)
  | .error e => .error e
  | .ok t => fin E t

/-- The array has the shape the node announces, and the codes (if known) have the right number. -/
structure Announced (t : Node) (i : Img V) : Prop where
  h : (i.h : Int) = t.dsize.2
  w : (i.w : Int) = t.dsize.1
  n : i.n = t.nchan
  names : ∀ l, t.channels = some l → l.length = t.nchan

theorem Img.Same.refl (i : Img V) : i.Same i := ⟨rfl, rfl, rfl, fun _ _ _ _ _ _ => rfl⟩

/-! ### C24 -/

theorem npSlice_norm (D : Nat) (a b : Option Int) :
    npSlice D (some (normSlice D a b).1) (some (normSlice D a b).2) = npSlice D a b := by
  unfold npSlice
  apply List.filter_congr
  intro k hk
  rw [List.mem_range] at hk
  rw [decide_eq_decide]
  cases a <;> cases b <;> simp only [normSlice, normBound, npBound] <;> repeat' split
  all_goals omega

/-- C24: cropping (with the default flags) an image and reading its pixels gives exactly numpy's
`arr[y0:y1, x0:x1][:, :, chan_idxs]` of the pixels of the image, whatever the bounds and the indices,
including the exception for a channel index out of range. -/
theorem C24_crop_is_numpy_slice (E : Env V) (n : Node) (i : Img V) (hi : fin E n = .ok i)
    (ha : Announced n i) (sl : Space) (c : Option (List Nat)) :
    Agree (pixels E (Tree.crop n (some sl) c true true (.int 0) false))
      ((i.slice sl.1 sl.2).select c) := by
  have e : Tree.crop n (some sl) c true true (.int 0) false = mkCrop n (some sl) c := by
    simp [Tree.crop, Pad.truthy]
  rw [e]
  unfold mkCrop
  have hsl : ∀ c', fin E (.crop n (normSlice n.dsize.2 sl.1.1 sl.1.2).1 (normSlice n.dsize.2 sl.1.1 sl.1.2).2
      (normSlice n.dsize.1 sl.2.1 sl.2.2).1 (normSlice n.dsize.1 sl.2.1 sl.2.2).2 c') =
      (i.slice sl.1 sl.2).select c' := by
    intro c'
    rw [fin, hi]
    simp only
    congr 1
    simp only [Img.slice, ← ha.h, ← ha.w, npSlice_norm]
  cases hc : chanCheck n c with
  | error e =>
    simp only [pixels]
    unfold chanCheck at hc
    split at hc
    · rename_i c names hn
      split at hc
      · cases hc
      · rename_i hall
        cases hc
        rw [select_error]
        · exact rfl
        · intro h
          apply hall
          rw [List.all_eq_true]
          intro k hk
          have := h k hk
          simp only [Img.slice] at this
          rw [decide_eq_true_eq, ha.names _ hn, ← ha.n]
          exact this
    · cases hc
  | ok u =>
    simp only [pixels]
    rw [hsl c]
    cases hs : (i.slice sl.1 sl.2).select c with
    | error e => exact rfl
    | ok j => exact Img.Same.refl j

/-- C24: the announced size of the crop is the size of the numpy slice, and its channels are the selected
codes. -/
theorem C24_crop_announces (n t : Node) (hd : 0 ≤ n.dsize.1 ∧ 0 ≤ n.dsize.2) (sl : Space)
    (c : Option (List Nat)) (h : Tree.crop n (some sl) c true true (.int 0) false = .ok t) :
    t.dsize = (((npSlice n.dsize.1.toNat sl.2.1 sl.2.2).length : Int),
      ((npSlice n.dsize.2.toNat sl.1.1 sl.1.2).length : Int)) ∧
    t.nchan = (match c with | none => n.nchan | some c => c.length) ∧
    t.channels = (match c with
      | none => n.channels
      | some c => n.channels.map (fun l => c.map (fun i => l.getD i []))) := by
  have e : Tree.crop n (some sl) c true true (.int 0) false = mkCrop n (some sl) c := by
    simp [Tree.crop, Pad.truthy]
  rw [e] at h
  unfold mkCrop at h
  split at h
  · cases h
  · simp only [Except.ok.injEq] at h
    subst h
    have key : ∀ (D : Int) (hD : 0 ≤ D) (a b : Option Int),
        (normSlice D a b).2 - (normSlice D a b).1 = ((npSlice D.toNat a b).length : Int) := by
      intro D hD a b
      obtain ⟨h0, h1, h2⟩ := normSlice_bounds D hD a b
      have hDn : ((D.toNat : Nat) : Int) = D := Int.toNat_of_nonneg hD
      rw [← npSlice_norm D.toNat a b, hDn, npSlice_range _ _ _ h0 h1 (by omega)]
      simp only [List.length_map, List.length_range]
      omega
    refine ⟨?_, ?_, ?_⟩
    · rw [← key _ hd.1, ← key _ hd.2]; rfl
    · cases c <;> simp [nchan]
    · rw [channels_crop]
      cases c <;> rfl

/-- C24: `lazy=True` returns the image itself only if the slice is the whole image, so the pixels are
numpy's slice, too, if no channels are selected. -/
theorem C24_lazy_crop_partial (E : Env V) (n : Node) (i : Img V) (hi : fin E n = .ok i)
    (ha : Announced n i) (sl : Space) :
    Agree (pixels E (Tree.crop n (some sl) none true true (.int 0) true)) (.ok (i.slice sl.1 sl.2)) := by
  by_cases hno : cropNoop n sl (.int 0) = true
  · have e : Tree.crop n (some sl) none true true (.int 0) true = .ok n := by
      simp [Tree.crop, hno]
    rw [e]
    simp only [pixels, hi, Agree]
    simp only [cropNoop, Bool.and_eq_true, decide_eq_true_eq] at hno
    obtain ⟨⟨h1, h2, h3, h4⟩, _⟩ := hno
    have full : ∀ (D : Nat) (a b : Option Int), (a = none ∨ a = some 0) → (b = none ∨ b = some (D : Int)) →
        npSlice D a b = List.range D := by
      intro D a b ha hb
      unfold npSlice
      rw [List.filter_eq_self]
      intro k hk
      rw [List.mem_range] at hk
      rw [decide_eq_true_eq]
      have hb0 : npBound D 0 = 0 := by unfold npBound; omega
      have hbD : npBound D D = D := by unfold npBound; omega
      rcases ha with rfl | rfl <;> rcases hb with rfl | rfl <;> simp only [hb0, hbD] <;> omega
    have ey := full i.h sl.1.1 sl.1.2 h1 (by rw [ha.h]; exact h2)
    have ex := full i.w sl.2.1 sl.2.2 h3 (by rw [ha.w]; exact h4)
    refine ⟨by simp [Img.slice, ey], by simp [Img.slice, ex], rfl, ?_⟩
    intro y x k hy hx hk
    simp only [Img.slice, ey, ex]
    rw [List.getD_eq_getElem (List.range i.h) 0 (by simpa using hy),
      List.getD_eq_getElem (List.range i.w) 0 (by simpa using hx)]
    simp
  · have e : Tree.crop n (some sl) none true true (.int 0) true =
        Tree.crop n (some sl) none true true (.int 0) false := by
      simp [Tree.crop, hno, Pad.truthy]
    rw [e]
    exact C24_crop_is_numpy_slice E n i hi ha sl none

/-- A three channel image of 4 rows and 5 columns. -/
def rgbLeaf : Leaf := ⟨1, (5, 4), 3, some [p! "r", p! "g", p! "b"], none, false⟩

/-- An environment whose pixels are their own coordinates; `(9, 9, 9)` stands for NaN. -/
def gridEnv : Env (Nat × Nat × Nat) where
  img := fun _ => ⟨4, 5, 3, fun y x k => (y, x, k)⟩
  deq := fun _ v => v
  nan := (9, 9, 9)
  border := fun _ => (9, 9, 9)
  warp := fun tf d _ i => i.shift ⌊tf.tx⌋ ⌊tf.ty⌋ d (9, 9, 9)
  resize := fun d i => ⟨d.2.toNat, d.1.toNat, i.n, fun y x k => i.px (y * i.h / d.2.toNat) (x * i.w / d.1.toNat) k⟩
  finite := fun v => decide (v ≠ (9, 9, 9))
  unique := fun l => l.eraseDups.length
  overview := fun _ _ i => i

example : Announced (.leaf rgbLeaf) (gridEnv.img 1) :=
  ⟨rfl, rfl, rfl, by intro l h; simp only [Node.channels, rgbLeaf, Option.some.injEq] at h; subst h; rfl⟩

/-- rows -3:-1 are 1, 2; columns 1: are 1 to 4; channel 2 comes first -/
example : ∃ t, Tree.crop (.leaf rgbLeaf) (some ((some (-3), some (-1)), (some 1, none))) (some [2, 0]) true true
    (.int 0) false = .ok t ∧ t.dsize = (4, 2) ∧
    pixels gridEnv (.ok t) ≠ .error .indexError := by
  refine ⟨.crop (.leaf rgbLeaf) 1 3 1 5 (some [2, 0]), rfl, rfl, ?_⟩
  simp [pixels, fin, rgbLeaf, Img.select, Img.slice, gridEnv]

/-- C24 fails for `lazy=True` with selected channels: the selection is dropped if the slice is the whole
image. -/
theorem C24_lazy_channels_violated :
    Tree.crop (.leaf rgbLeaf) (some ((none, none), (none, none))) (some [2]) true true (.int 0) true =
      .ok (.leaf rgbLeaf) ∧ (Node.leaf rgbLeaf : Node).nchan ≠ [2].length :=
  ⟨rfl, by decide⟩

/-- C24 fails for padded crops, too: the selection of channels is dropped whenever `clip=False`. -/
theorem C24_padded_channels_violated :
    ∃ t, Tree.crop (.leaf rgbLeaf) (some ((some 0, some 2), (some 0, some 2))) (some [2]) false false (.int 0)
      false = .ok t ∧ t.nchan = 3 := by
  exact ⟨.crop (.leaf rgbLeaf) 0 2 0 2 none, rfl, rfl⟩

/-! ### C25 -/

/-- Crops of crops of ... of a leaf, any number of them, as built by the `crop` method with the default
flags. -/
inductive CropTower (l : Leaf) : Nat → Node → Prop
  | leaf : CropTower l 0 (.leaf l)
  | crop (m : Nat) (s n : Node) (sl : Option Space) (c : Option (List Nat)) (h : CropTower l m s)
      (hc : IdxOk s.nchan c) (e : Tree.crop s sl c true true (.int 0) false = .ok n) :
      CropTower l (m + 1) n

theorem crop_default {s : Node} {sl : Option Space} {c : Option (List Nat)} :
    Tree.crop s sl c true true (.int 0) false = mkCrop s sl c := by
  cases sl <;> simp [Tree.crop, Pad.truthy]

theorem CropTower.built {l : Leaf} (hl : l.WF) (hd : Nonneg l.dsize) {m : Nat} {n : Node}
    (h : CropTower l m n) : WF n ∧ Fit n := by
  induction h with
  | leaf => exact ⟨hl, hd⟩
  | crop m s n sl c _ hc e ih => rw [crop_default] at e; exact mkCrop_built ih.1 ih.2 hc e

theorem mkCrop_form {s n : Node} {sl : Option Space} {c : Option (List Nat)} (e : mkCrop s sl c = .ok n) :
    ∃ y0 y1 x0 x1, n = .crop s y0 y1 x0 x1 c := by
  unfold mkCrop at e
  split at e
  · cases e
  · cases sl <;> (simp only [Except.ok.injEq] at e; exact ⟨_, _, _, _, e.symm⟩)

theorem CropTower.flat {l : Leaf} {m : Nat} {n : Node} (h : CropTower l m n) : Flat n := by
  induction h with
  | leaf => trivial
  | crop m s n sl c _ hc e ih =>
    rw [crop_default] at e
    obtain ⟨_, _, _, _, rfl⟩ := mkCrop_form e
    exact ih

theorem CropTower.each {l : Leaf} {f : Leaf → Prop} (hf : f l) {m : Nat} {n : Node}
    (h : CropTower l m n) : Each f n := by
  induction h with
  | leaf => exact hf
  | crop m s n sl c _ hc e ih =>
    rw [crop_default] at e
    obtain ⟨_, _, _, _, rfl⟩ := mkCrop_form e
    exact ih

/-- The leaf, or one crop of it. -/
def OneCrop (l : Leaf) (n : Node) : Prop :=
  n = .leaf l ∨ ∃ y0 y1 x0 x1 c, n = .crop (.leaf l) y0 y1 x0 x1 c

theorem takeList_total {i o : List Nat} (h : ∀ j ∈ o, j < i.length) : ∃ r, takeList i o = .ok r := by
  induction o with
  | nil => exact ⟨[], rfl⟩
  | cons j o ih =>
    obtain ⟨r, hr⟩ := ih fun j hj => h j (by simp [hj])
    have := h j (by simp)
    exact ⟨i[j] :: r, by simp [takeList, List.getElem?_eq_getElem this, hr]⟩

theorem chanCheck_total {s : Node} (hs : WF s) {c : Option (List Nat)} (hc : IdxOk s.nchan c) :
    chanCheck s c = .ok () := by
  unfold chanCheck
  split
  · rename_i c names hn
    rw [if_pos]
    rw [List.all_eq_true]
    intro k hk
    rw [decide_eq_true_eq, channels_length s names hs hn]
    exact hc k hk
  · rfl

theorem mkCrop_total' {s : Node} (hs : WF s) {c : Option (List Nat)} (hc : IdxOk s.nchan c)
    (sl : Option Space) : ∃ t, mkCrop s sl c = .ok t := by
  unfold mkCrop
  rw [chanCheck_total hs hc]
  cases sl <;> exact ⟨_, rfl⟩

/-- Optimizing a tower of crops succeeds and leaves at most one crop. -/
theorem tower_opt {l : Leaf} (hl : l.WF) (hn : l.nan = false)
    {m : Nat} {n : Node} (hd : Nonneg l.dsize) (h : CropTower l m n) (fuel : Nat) (hf : m < fuel) :
    ∃ r, (∀ H, opt H fuel n = .ok r) ∧ OneCrop l r := by
  induction h generalizing fuel with
  | leaf =>
    obtain ⟨k, rfl⟩ : ∃ k, fuel = k + 1 := ⟨fuel - 1, by omega⟩
    exact ⟨.leaf l, fun _ => rfl, .inl rfl⟩
  | crop m s n sl c hs hc e ih =>
    obtain ⟨k, rfl⟩ : ∃ k, fuel = k + 1 := ⟨fuel - 1, by omega⟩
    obtain ⟨s', hs', hone⟩ := ih k (by omega)
    obtain ⟨hw, hfit⟩ := hs.built hl hd
    have hg := opt_good (deep := false) (simRules _ Heur.exact_exact) (by simp) k s s' hw (hs' _)
    rw [crop_default] at e
    obtain ⟨y0, y1, x0, x1, rfl⟩ := mkCrop_form e
    have hc' : IdxOk s'.nchan c := by rw [hg.rel.nchan]; exact hc
    show ∃ r, (∀ H, optCrop (opt H k) s y0 y1 x0 x1 c = .ok r) ∧ _
    unfold optCrop
    simp only [hs']
    rcases hone with rfl | ⟨a0, a1, b0, b1, ic, rfl⟩
    · simp only [hn, Bool.false_eq_true, if_false, cropRest, finishCrop, finish, subOf]
      exact ⟨_, fun _ => rfl, .inr ⟨_, _, _, _, _, rfl⟩⟩
    · have hleaf : WF (.leaf l) := hl
      have hic : IdxOk (Node.leaf l).nchan ic := hg.inv.2.2.2
      have hfc : ∃ nc, fuseChans ic c = .ok nc ∧ IdxOk (Node.leaf l : Node).nchan nc := by
        cases c with
        | none => cases ic <;> exact ⟨_, rfl, hic⟩
        | some c =>
          cases ic with
          | none => exact ⟨_, rfl, by simpa [nchan] using hc'⟩
          | some ic =>
            obtain ⟨r, hr⟩ := takeList_total (i := ic) (o := c) (by simpa [nchan, IdxOk] using hc')
            refine ⟨some r, by simp [fuseChans, hr], ?_⟩
            have := (fuseChans_ok (s := .leaf l) (ic := some ic) (c := some c) (nc := some r)
              (by simp [fuseChans, hr]) hic hc').1
            exact this
      obtain ⟨nc, hnc, hin⟩ := hfc
      simp only [fuseCrops, hnc]
      obtain ⟨t, ht⟩ := mkCrop_total' hleaf hin
        (ints (fuseAxis a0 a1 y0 y1).1 (fuseAxis a0 a1 y0 y1).2 (fuseAxis b0 b1 x0 x1).1
          (fuseAxis b0 b1 x0 x1).2)
      obtain ⟨c0, c1, d0, d1, rfl⟩ := mkCrop_form ht
      simp only [ht, hn, Bool.false_eq_true, if_false, cropRest, finishCrop, finish, subOf]
      exact ⟨_, fun _ => rfl, .inr ⟨_, _, _, _, _, rfl⟩⟩

/-- The environment with other resampling and dequantization. -/
def Env.plain (E : Env V) : Env V :=
  { E with warp := fun tf d _ i => i.carry tf d E.nan, deq := fun _ v => v }

theorem Env.plain_ok (E : Env V) : (Env.plain E).Ok where
  turn := fun _ _ _ _ _ _ => Img.Same.refl _
  deq := fun _ => rfl

theorem CropTower.fin_plain {E : Env V} {l : Leaf} {m : Nat} {n : Node} (h : CropTower l m n) :
    fin (Env.plain E) n = fin E n := by
  induction h with
  | leaf => rfl
  | crop m s n sl c _ hc e ih =>
    rw [crop_default] at e
    obtain ⟨_, _, _, _, rfl⟩ := mkCrop_form e
    simp only [fin, ih]

theorem OneCrop.fin_plain {E : Env V} {l : Leaf} {n : Node} (h : OneCrop l n) :
    fin (Env.plain E) n = fin E n := by
  rcases h with rfl | ⟨_, _, _, _, _, rfl⟩
  · rfl
  · simp only [fin, Env.plain]

/-- C25: optimizing any tower of crops of a leaf succeeds and gives the leaf or a single crop of it, with
the same channels and exactly the same pixels. -/
theorem C25_crop_tower_fused (H : Heur) (E : Env V) {l : Leaf} (hl : l.WF) (hn : l.nan = false)
    (hd : Nonneg l.dsize) (hm : E.Matches l) {m : Nat} {n : Node} (h : CropTower l m n) {fuel : Nat}
    (hf : m < fuel) :
    ∃ r i j, opt H fuel n = .ok r ∧ OneCrop l r ∧ r.channels = n.channels ∧ r.dsize = n.dsize ∧
      fin E n = .ok i ∧ fin E r = .ok j ∧ i.Same j := by
  obtain ⟨r, hr, hone⟩ := tower_opt hl hn hd h fuel hf
  obtain ⟨hw, hfit⟩ := h.built hl hd
  have hr' := hr Heur.exact
  have hg := opt_good (deep := false) (exactRules Heur.exact) (by simp) fuel n r
    ⟨hw, hfit, h.flat.noWarp⟩ hr'
  have hs := opt_good (deep := false) (simRules _ Heur.exact_exact) (by simp) fuel n r hw hr'
  have hflat : Flat r := by rcases hone with rfl | ⟨_, _, _, _, _, rfl⟩ <;> trivial
  have heach : Each (Env.plain E).Matches r := by
    rcases hone with rfl | ⟨_, _, _, _, _, rfl⟩ <;> exact hm
  obtain ⟨i, ei, hi⟩ := fin_den (Env.plain_ok E) n hw hfit h.flat.pix (h.each hm)
  obtain ⟨j, ej, hj⟩ := fin_den (Env.plain_ok E) r hg.inv.wf hg.inv.fit hflat.pix heach
  rw [h.fin_plain] at ei
  rw [hone.fin_plain] at ej
  exact ⟨r, i, j, hr H, hone, hs.rel.channels, hg.rel.dsize, ei, ej, shows_same hg.rel hi hj⟩

example : CropTower rgbLeaf 2 (.crop (.crop (.leaf rgbLeaf) 1 4 0 5 (some [2, 0])) 1 3 2 5 (some [1])) :=
  .crop 1 _ _ (some ((some 1, none), (some (-3), none))) (some [1])
    (.crop 0 _ _ (some ((some 1, some 4), (none, none))) (some [2, 0]) .leaf (by simp [IdxOk, nchan, rgbLeaf])
      rfl) (by simp [IdxOk, nchan]) rfl

/-- Slicing a slice. -/
theorem slice_slice (i : Img V) (iy0 iy1 ix0 ix1 y0 y1 x0 x1 : Int)
    (hiy : 0 ≤ iy0 ∧ iy0 ≤ iy1 ∧ iy1 ≤ i.h) (hix : 0 ≤ ix0 ∧ ix0 ≤ ix1 ∧ ix1 ≤ i.w)
    (hy : 0 ≤ y0 ∧ y0 ≤ y1 ∧ y1 ≤ iy1 - iy0) (hx : 0 ≤ x0 ∧ x0 ≤ x1 ∧ x1 ≤ ix1 - ix0) :
    ((i.slice (some iy0, some iy1) (some ix0, some ix1)).slice (some y0, some y1) (some x0, some x1)).Same
      (i.slice (some (iy0 + y0), some (iy0 + y1)) (some (ix0 + x0), some (ix0 + x1))) := by
  have e1 := npSlice_range i.h iy0 iy1 hiy.1 hiy.2.1 hiy.2.2
  have e2 := npSlice_range i.w ix0 ix1 hix.1 hix.2.1 hix.2.2
  have e3 := npSlice_range (iy1 - iy0).toNat y0 y1 hy.1 hy.2.1 (by omega)
  have e4 := npSlice_range (ix1 - ix0).toNat x0 x1 hx.1 hx.2.1 (by omega)
  have e5 := npSlice_range i.h (iy0 + y0) (iy0 + y1) (by omega) (by omega) (by omega)
  have e6 := npSlice_range i.w (ix0 + x0) (ix0 + x1) (by omega) (by omega) (by omega)
  refine ⟨?_, ?_, rfl, ?_⟩
  · simp only [Img.slice, e1, e2, List.length_map, List.length_range, e3, e5]; omega
  · simp only [Img.slice, e1, e2, List.length_map, List.length_range, e4, e6]; omega
  · intro y x k h1 h2 _
    simp only [Img.slice, e1, e2, List.length_map, List.length_range, e3, e4] at h1 h2
    simp only [Img.slice, e1, e2, List.length_map, List.length_range, e3, e4, e5, e6]
    have g : ∀ (a b n : Nat), a < n → ((List.range n).map (fun k => b + k)).getD a 0 = b + a := by
      intro a b n h
      rw [List.getD_eq_getElem _ _ (by simpa using h)]
      simp
    rw [g y y0.toNat _ h1, g x x0.toNat _ h2, g _ _ _ (by omega), g _ _ _ (by omega), g _ _ _ (by omega),
      g _ _ _ (by omega)]
    congr 1 <;> omega

/-- Number of selected channels. -/
def selLen (n : Nat) : Option (List Nat) → Nat
  | none => n
  | some c => c.length

/-- The channel shown at a position. -/
def selAt : Option (List Nat) → Nat → Nat
  | none, k => k
  | some c, k => c.getD k 0

theorem select_ok (i : Img V) {c : Option (List Nat)} (hc : IdxOk i.n c) :
    i.select c = .ok ⟨i.h, i.w, selLen i.n c, fun y x k => i.px y x (selAt c k)⟩ := by
  cases c with
  | none => rfl
  | some c =>
    simp only [Img.select]
    rw [if_pos]
    · rfl
    rw [List.all_eq_true]
    intro k hk
    simpa using hc k hk

/-- C25, one step of the optimizer over any image: the crop that replaces a crop of a crop has exactly
the pixels of the two crops. -/
theorem C25_crop_of_crop (E : Env V) {s : Node} (hs : WF s) {i : Img V} (hi : fin E s = .ok i)
    (ha : Announced s i) {iy0 iy1 ix0 ix1 y0 y1 x0 x1 : Int} {ic c : Option (List Nat)}
    (hiy : 0 ≤ iy0 ∧ iy0 ≤ iy1 ∧ iy1 ≤ s.dsize.2) (hix : 0 ≤ ix0 ∧ ix0 ≤ ix1 ∧ ix1 ≤ s.dsize.1)
    (hy : 0 ≤ y0 ∧ y0 ≤ y1 ∧ y1 ≤ iy1 - iy0) (hx : 0 ≤ x0 ∧ x0 ≤ x1 ∧ x1 ≤ ix1 - ix0)
    (hic : IdxOk s.nchan ic) (hc : IdxOk (Node.crop s iy0 iy1 ix0 ix1 ic).nchan c) :
    ∃ r, fuseCrops s iy0 iy1 ix0 ix1 ic y0 y1 x0 x1 c = .ok r ∧ (∃ a b a' b' c', r = .crop s a b a' b' c') ∧
      Agree (fin E r) (fin E (.crop (.crop s iy0 iy1 ix0 ix1 ic) y0 y1 x0 x1 c)) := by
  have hn := ha.n
  obtain ⟨nc, hnc, hin, hlen, hget⟩ : ∃ nc, fuseChans ic c = .ok nc ∧ IdxOk s.nchan nc ∧
      selLen i.n nc = selLen (selLen i.n ic) c ∧
      ∀ k, k < selLen (selLen i.n ic) c → selAt nc k = selAt ic (selAt c k) := by
    cases c with
    | none => cases ic <;> exact ⟨_, rfl, hic, rfl, fun _ _ => rfl⟩
    | some c =>
      cases ic with
      | none => exact ⟨_, rfl, by simpa [nchan] using hc, rfl, fun _ _ => rfl⟩
      | some ic =>
        obtain ⟨r, hr⟩ := takeList_total (i := ic) (o := c) (by simpa [nchan, IdxOk] using hc)
        have hf : fuseChans (some ic) (some c) = .ok (some r) := by simp [fuseChans, hr]
        obtain ⟨rfl, hlt⟩ := takeList_ok hr
        refine ⟨_, hf, (fuseChans_ok (s := s) hf hic hc).1, by simp [pick, selLen], ?_⟩
        intro k hk
        simp only [selLen] at hk
        simp only [pick, selAt]
        rw [List.getD_eq_getElem (List.map _ c) 0 (by simpa using hk), List.getElem_map,
          List.getD_eq_getElem c 0 hk]
  have hax : ∀ (i0 i1 o0 o1 D : Int), 0 ≤ i0 → i0 ≤ i1 → i1 ≤ D → 0 ≤ o0 → o0 ≤ o1 → o1 ≤ i1 - i0 →
      fuseAxis i0 i1 o0 o1 = (i0 + o0, i0 + o1) := by
    intro i0 i1 o0 o1 D _ _ _ _ _ _
    simp only [fuseAxis, Prod.mk.injEq]; omega
  obtain ⟨r, hr⟩ := mkCrop_total' hs hin (ints (iy0 + y0) (iy0 + y1) (ix0 + x0) (ix0 + x1))
  have hr' := mkCrop_fit hr (by omega) (by omega) (by omega) (by omega) (by omega) (by omega)
  refine ⟨r, ?_, ⟨_, _, _, _, _, hr'⟩, ?_⟩
  · simp only [fuseCrops, hnc, hax iy0 iy1 y0 y1 s.dsize.2 hiy.1 hiy.2.1 hiy.2.2 hy.1 hy.2.1 hy.2.2,
      hax ix0 ix1 x0 x1 s.dsize.1 hix.1 hix.2.1 hix.2.2 hx.1 hx.2.1 hx.2.2]
    exact hr
  · subst hr'
    have hss := slice_slice i iy0 iy1 ix0 ix1 y0 y1 x0 x1 (by rw [ha.h]; exact hiy) (by rw [ha.w]; exact hix)
      hy hx
    simp only [fin, hi]
    rw [select_ok (i.slice (some iy0, some iy1) (some ix0, some ix1)) (c := ic)
      (by simp only [Img.slice]; rw [hn]; exact hic)]
    rw [select_ok _ (c := nc) (by simp only [Img.slice]; rw [hn]; exact hin)]
    simp only
    rw [select_ok _ (c := c) (by
      simp only [Img.slice]
      cases ic with
      | none => show IdxOk i.n c; rw [hn]; simpa [nchan] using hc
      | some ic => simpa [nchan, selLen] using hc)]
    refine ⟨hss.h.symm, hss.w.symm, hlen, ?_⟩
    intro y x k h1 h2 h3
    simp only at h1 h2 h3
    have h4 := hss.px y x (selAt nc k) (by rw [hss.h]; exact h1) (by rw [hss.w]; exact h2) (by
        show _ < i.n
        cases nc with
        | none => exact h3
        | some nc =>
          simp only [selLen, selAt] at h3 ⊢
          rw [List.getD_eq_getElem _ _ h3, hn]
          exact hin _ (List.getElem_mem _))
    have h5 := hget k (by rw [← hlen]; exact h3)
    refine h4.symm.trans ?_
    rw [h5]
    rfl

example : IdxOk (Node.leaf rgbLeaf : Node).nchan (some [2, 0]) ∧
    IdxOk (Node.crop (.leaf rgbLeaf) 1 4 0 5 (some [2, 0]) : Node).nchan (some [1]) ∧
    WF (.leaf rgbLeaf) := by
  refine ⟨by simp [IdxOk, nchan, rgbLeaf], by simp [IdxOk, nchan], ?_⟩
  refine ⟨fun ns h => ?_, by simp [rgbLeaf]⟩
  simp only [rgbLeaf, Option.some.injEq] at h
  subst h; rfl

/-! ### C26 -/

/-- Assumption on the resampling: a warp by whole pixels that does not use nearest neighbours moves the
pixels and fills the rest with the border colour. -/
def Env.Moves (E : Env V) : Prop :=
  ∀ (tx ty : Int) d a i, a.interp ≠ .nearest →
    (E.warp (.trans tx ty) d a i).Same (i.shift tx ty d (E.border a))

/-- One axis of a padded crop: the position in the image of every position in the result. -/
theorem embed_axis {lo hi D pl ph : Int} {r : (Int × Int) × (Int × Int)} (hD : 0 ≤ D)
    (hp : 0 ≤ pl ∧ 0 ≤ ph) (h : embedSlice lo hi D pl ph = .ok r) (y : Int) (h0 : 0 ≤ y)
    (h1 : y < hi - lo + pl + ph) :
    ((0 ≤ y - r.2.1 ∧ y - r.2.1 < r.1.2 - r.1.1) ↔ (0 ≤ lo - pl + y ∧ lo - pl + y < D)) ∧
    (0 ≤ y - r.2.1 ∧ y - r.2.1 < r.1.2 - r.1.1 → r.1.1 + (y - r.2.1) = lo - pl + y) := by
  unfold embedSlice at h
  split at h
  · cases h
  · simp only [Except.ok.injEq] at h
    subst h
    simp only
    omega

theorem embedSlice_total {lo hi D pl ph : Int} (h : lo ≤ hi) : ∃ r, embedSlice lo hi D pl ph = .ok r := by
  unfold embedSlice
  rw [if_neg (by omega)]
  exact ⟨_, rfl⟩

theorem getD_shifted (a b n : Nat) (h : a < n) :
    ((List.range n).map (fun k => b + k)).getD a 0 = b + a := by
  rw [List.getD_eq_getElem _ _ (by simpa using h)]
  simp

/-- What a padded crop shows: the pixel of the image at the requested coordinates, border outside. -/
def paddedPixel (i : Img V) (border : V) (top left : Int) (y x k : Nat) : V :=
  if 0 ≤ top + y ∧ top + y < i.h ∧ 0 ≤ left + x ∧ left + x < i.w then
    i.px (top + y).toNat (left + x).toNat k
  else border

/-- C26: `crop((slice(y0, y1), slice(x0, x1)), clip=False, wrap=False, pad=p)` always succeeds for
`y0 <= y1` and `x0 <= x1`, announces and has exactly the requested extent plus the padding, shows the
pixels of the image at the requested coordinates (which are not wrapped around) and border everywhere
else. -/
theorem C26_padded_crop (E : Env V) (hE : Env.Moves E) (n : Node) (hw : WF n) (i : Img V)
    (hi : fin E n = .ok i) (ha : Announced n i) (y0 y1 x0 x1 : Int) (hy : y0 ≤ y1) (hx : x0 ≤ x1) (pad : Pad)
    (hp : 0 ≤ pad.get.1.1 ∧ 0 ≤ pad.get.1.2 ∧ 0 ≤ pad.get.2.1 ∧ 0 ≤ pad.get.2.2) :
    ∃ t j, Tree.crop n (some ((some y0, some y1), (some x0, some x1))) none false false pad false = .ok t ∧
      t.dsize = (x1 - x0 + pad.get.2.1 + pad.get.2.2, y1 - y0 + pad.get.1.1 + pad.get.1.2) ∧
      t.channels = n.channels ∧ fin E t = .ok j ∧
      (j.h : Int) = t.dsize.2 ∧ (j.w : Int) = t.dsize.1 ∧ j.n = i.n ∧
      ∀ y x k, y < j.h → x < j.w → k < j.n → j.px y x k =
        paddedPixel i (E.border .default) (y0 - pad.get.1.1) (x0 - pad.get.2.1) y x k := by
  have e : Tree.crop n (some ((some y0, some y1), (some x0, some x1))) none false false pad false =
      paddedCrop n y0 y1 x0 x1 pad.get := by
    simp [Tree.crop]
  rw [e]
  generalize pad.get = p at *
  obtain ⟨⟨pt, pb⟩, ⟨pl, pr⟩⟩ := p
  simp only at hp ⊢
  have hD1 : 0 ≤ n.dsize.1 := by rw [← ha.w]; omega
  have hD2 : 0 ≤ n.dsize.2 := by rw [← ha.h]; omega
  obtain ⟨⟨⟨sy0, sy1⟩, ⟨ey0, ey1⟩⟩, hey⟩ := embedSlice_total (D := n.dsize.2) (pl := pt) (ph := pb) hy
  obtain ⟨⟨⟨sx0, sx1⟩, ⟨ex0, ex1⟩⟩, hex⟩ := embedSlice_total (D := n.dsize.1) (pl := pl) (ph := pr) hx
  obtain ⟨a1, a2, a3, a4, a5, a6⟩ := embedSlice_bounds hD2 ⟨hp.1, hp.2.1⟩ hey
  obtain ⟨b1, b2, b3, b4, b5, b6⟩ := embedSlice_bounds hD1 ⟨hp.2.2.1, hp.2.2.2⟩ hex
  have ky := embed_axis hD2 ⟨hp.1, hp.2.1⟩ hey
  have kx := embed_axis hD1 ⟨hp.2.2.1, hp.2.2.2⟩ hex
  simp only at a1 a2 a3 a4 a5 a6 b1 b2 b3 b4 b5 b6 ky kx
  obtain ⟨c, hc⟩ := mkCrop_total' hw (c := none) trivial (ints sy0 sy1 sx0 sx1)
  have hc' := mkCrop_fit hc a1 b1 a2 a3 b2 b3
  subst hc'
  have hfin : fin E (.crop n sy0 sy1 sx0 sx1 none) = .ok (i.slice (some sy0, some sy1) (some sx0, some sx1)) := by
    simp only [fin, hi, Img.select]
  have ry := npSlice_range i.h sy0 sy1 a1 a2 (by rw [ha.h]; exact a3)
  have rx := npSlice_range i.w sx0 sx1 b1 b2 (by rw [ha.w]; exact b3)
  simp only [paddedCrop, hey, hex, hc]
  split
  · refine ⟨_, E.warp (.trans ex0 ey0) (sx1 - sx0 + ex0 + ex1, sy1 - sy0 + ey0 + ey1) .default
        (i.slice (some sy0, some sy1) (some sx0, some sx1)), rfl, ?_, ?_, ?_⟩
    · simp only [mkWarp, Node.dsize, Prod.mk.injEq]; omega
    · simp only [mkWarp, channels_warp, channels_crop, selNames]
    · have hm := hE ex0 ey0 (sx1 - sx0 + ex0 + ex1, sy1 - sy0 + ey0 + ey1) .default
        (i.slice (some sy0, some sy1) (some sx0, some sx1)) (by decide)
      refine ⟨?_, ?_, ?_, ?_, ?_⟩
      · simp only [mkWarp]
        rw [fin, hfin]
        simp [finWarp, Algo.default]
      · rw [hm.h]; simp only [Img.shift, mkWarp, Node.dsize]; omega
      · rw [hm.w]; simp only [Img.shift, mkWarp, Node.dsize]; omega
      · rw [hm.n]; rfl
      · intro y x k hy' hx' hk
        rw [hm.px y x k hy' hx' hk]
        rw [hm.h] at hy'
        rw [hm.w] at hx'
        simp only [Img.shift] at hy' hx'
        obtain ⟨ky1, ky2⟩ := ky y (by omega) (by omega)
        obtain ⟨kx1, kx2⟩ := kx x (by omega) (by omega)
        simp only [Img.shift, Img.slice, ry, rx, List.length_map, List.length_range, paddedPixel]
        rw [ha.h, ha.w]
        have e1 : (0 ≤ (y : Int) - ey0 ∧ (y : Int) - ey0 < ((sy1 - sy0).toNat : Int) ∧ 0 ≤ (x : Int) - ex0 ∧
            (x : Int) - ex0 < ((sx1 - sx0).toNat : Int)) ↔ (0 ≤ y0 - pt + (y : Int) ∧
            y0 - pt + (y : Int) < n.dsize.2 ∧ 0 ≤ x0 - pl + (x : Int) ∧ x0 - pl + (x : Int) < n.dsize.1) := by
          omega
        by_cases hin : 0 ≤ y0 - pt + (y : Int) ∧
            y0 - pt + (y : Int) < n.dsize.2 ∧ 0 ≤ x0 - pl + (x : Int) ∧ x0 - pl + (x : Int) < n.dsize.1
        · rw [if_pos (e1.2 hin), if_pos hin]
          rw [getD_shifted _ _ _ (by omega), getD_shifted _ _ _ (by omega)]
          congr 1 <;> omega
        · rw [if_neg (fun h => hin (e1.1 h)), if_neg hin]
  · rename_i h0
    have hz : ey0 = 0 ∧ ey1 = 0 ∧ ex0 = 0 ∧ ex1 = 0 := by omega
    obtain ⟨rfl, rfl, rfl, rfl⟩ := hz
    refine ⟨_, _, rfl, ?_, ?_, hfin, ?_, ?_, rfl, ?_⟩
    · simp only [Node.dsize, Prod.mk.injEq]; omega
    · simp only [channels_crop, selNames]
    · simp only [Img.slice, ry, List.length_map, List.length_range, Node.dsize]; omega
    · simp only [Img.slice, rx, List.length_map, List.length_range, Node.dsize]; omega
    · intro y x k hy' hx' hk
      simp only [Img.slice, ry, rx, List.length_map, List.length_range] at hy' hx'
      obtain ⟨ky1, ky2⟩ := ky y (by omega) (by omega)
      obtain ⟨kx1, kx2⟩ := kx x (by omega) (by omega)
      simp only [Img.slice, ry, rx, paddedPixel]
      rw [ha.h, ha.w, if_pos (by omega), getD_shifted _ _ _ (by omega), getD_shifted _ _ _ (by omega)]
      congr 1 <;> omega

/-- C26: a number pads all four sides, a pair of pairs the top, the bottom, the left and the right; bounds that are
missing are those of the image. -/
theorem C26_sides (E : Env V) (hE : Env.Moves E) (n : Node) (hw : WF n) (i : Img V)
    (hi : fin E n = .ok i) (ha : Announced n i) (ya yb xa xb : Option Int) (y0 y1 x0 x1 : Int)
    (hya : ya = some y0 ∨ ya = none ∧ y0 = 0) (hyb : yb = some y1 ∨ yb = none ∧ y1 = i.h)
    (hxa : xa = some x0 ∨ xa = none ∧ x0 = 0) (hxb : xb = some x1 ∨ xb = none ∧ x1 = i.w)
    (hy : y0 ≤ y1) (hx : x0 ≤ x1) (pad : Pad) (top bottom left right : Int)
    (hp : pad = .pairs (top, bottom) (left, right) ∨ pad = .int top ∧ bottom = top ∧ left = top ∧ right = top)
    (h0 : 0 ≤ top ∧ 0 ≤ bottom ∧ 0 ≤ left ∧ 0 ≤ right) :
    ∃ t j, Tree.crop n (some ((ya, yb), (xa, xb))) none false false pad false = .ok t ∧
      t.dsize = (x1 - x0 + left + right, y1 - y0 + top + bottom) ∧ fin E t = .ok j ∧
      (j.h : Int) = y1 - y0 + top + bottom ∧ (j.w : Int) = x1 - x0 + left + right ∧ j.n = i.n ∧
      ∀ y x k, y < j.h → x < j.w → k < j.n →
        j.px y x k = paddedPixel i (E.border .default) (y0 - top) (x0 - left) y x k := by
  have hg : pad.get = ((top, bottom), (left, right)) := by
    rcases hp with rfl | ⟨rfl, rfl, rfl, rfl⟩ <;> rfl
  have hs : Tree.crop n (some ((ya, yb), (xa, xb))) none false false pad false =
      Tree.crop n (some ((some y0, some y1), (some x0, some x1))) none false false pad false := by
    have e1 : ya.getD 0 = y0 := by rcases hya with rfl | ⟨rfl, rfl⟩ <;> rfl
    have e2 : yb.getD n.dsize.2 = y1 := by rcases hyb with rfl | ⟨rfl, rfl⟩ <;> simp [ha.h]
    have e3 : xa.getD 0 = x0 := by rcases hxa with rfl | ⟨rfl, rfl⟩ <;> rfl
    have e4 : xb.getD n.dsize.1 = x1 := by rcases hxb with rfl | ⟨rfl, rfl⟩ <;> simp [ha.w]
    simp [Tree.crop, e1, e2, e3, e4]
  obtain ⟨t, j, h1, h2, -, h3, h5, h6, h7, h4⟩ := C26_padded_crop E hE n hw i hi ha y0 y1 x0 x1 hy hx pad
    (by rw [hg]; exact ⟨h0.1, h0.2.1, h0.2.2.1, h0.2.2.2⟩)
  rw [hg] at h2 h4
  rw [h2] at h5 h6
  exact ⟨t, j, hs.trans h1, h2, h3, h5, h6, h7, h4⟩

/-- C26: a slice that runs backwards is rejected. -/
theorem C26_backward_slice (n : Node) (y0 y1 x0 x1 : Int) (c : Option (List Nat)) (pad : Pad)
    (h : y1 < y0) :
    Tree.crop n (some ((some y0, some y1), (some x0, some x1))) c false false pad false =
      .error .valueError := by
  simp [Tree.crop, paddedCrop, embedSlice, h]

/-- C26: padding needs both `clip=False` and `wrap=False`. -/
theorem C26_flags (n : Node) (sl : Space) (c : Option (List Nat)) (clip wrap : Bool) (pad : Pad)
    (h : (clip = true ∨ wrap = true) ∧ ¬ (clip = true ∧ wrap = true ∧ pad = .int 0)) :
    Tree.crop n (some sl) c clip wrap pad false = .error .notImplemented := by
  obtain ⟨h1, h2⟩ := h
  have hp : pad = .int 0 ∨ pad.truthy = true := by
    cases pad with
    | int p => by_cases hp : p = 0 <;> simp [Pad.truthy, hp]
    | pairs y x => exact .inr rfl
  cases clip <;> cases wrap <;> rcases hp with rfl | hp <;> simp_all [Tree.crop, Pad.truthy]

theorem gridEnv_moves : Env.Moves gridEnv := by
  intro tx ty d a i _
  simp only [gridEnv, Affine.trans, Int.floor_intCast]
  exact Img.Same.refl _

/-- rows -1 to 1 with one more row above; the last column does not exist -/
example : ∃ t j, Tree.crop (.leaf rgbLeaf) (some ((some (-1), some 1), (some 3, some 6))) none false false
      (.pairs (1, 0) (0, 0)) false = .ok t ∧ t.dsize = (3, 3) ∧ fin gridEnv t = .ok j ∧
      j.px 2 1 0 = (0, 4, 0) ∧ j.px 1 1 0 = (9, 9, 9) := by
  obtain ⟨t, j, h1, h2, _, h3, h4, h5, h6, h7⟩ := C26_padded_crop gridEnv gridEnv_moves (.leaf rgbLeaf)
    ⟨by intro l h; simp only [rgbLeaf, Option.some.injEq] at h; subst h; rfl, by simp [rgbLeaf]⟩
    (gridEnv.img 1) rfl
    ⟨rfl, rfl, rfl, by intro l h; simp only [Node.channels, rgbLeaf, Option.some.injEq] at h; subst h; rfl⟩
    (-1) 1 3 6 (by decide) (by decide) (.pairs (1, 0) (0, 0)) (by decide)
  refine ⟨t, j, h1, h2, h3, ?_, ?_⟩ <;>
  · rw [h2] at h4 h5
    simp only [Pad.get] at h4 h5
    have : j.n = 3 := h6
    rw [h7 _ _ _ (by omega) (by omega) (by omega)]
    decide +kernel

/-- C26: a padded crop ignores the channels it is asked for. -/
theorem C26_channels (n : Node) (sl : Option Space) (c : Option (List Nat)) (pad : Pad) (isLazy : Bool) :
    Tree.crop n sl c false false pad isLazy = Tree.crop n sl none false false pad isLazy := by
  cases isLazy <;> cases sl <;> simp [Tree.crop]

/-! ### C44 -/

theorem finWarp_shifted (E : Env V) (i : Img V) (sx sy tx ty : ℚ)
    (hsx : 0 < sx) (hsy : 0 < sy) (ht : tx ≠ 0 ∨ ty ≠ 0) (d : Int × Int) (a : Algo)
    (hn : a.interp = .nearest) :
    finWarp E ⟨sx, 0, tx, 0, sy, ty⟩ d a i = nearestWarp i ⟨sx, 0, tx, 0, sy, ty⟩ d (E.border a) := by
  have e1 : axisAligned ⟨sx, 0, tx, 0, sy, ty⟩ = true := by simp [axisAligned, hsx, hsy]
  have e2 : hasOffset ⟨sx, 0, tx, 0, sy, ty⟩ = true := by simpa [hasOffset] using ht
  simp only [finWarp, hn, e1, e2, if_true]

/-- C44: a nearest neighbour warp by a positive scale and a translation that does not raise has the
announced size, and every pixel is the source pixel `floor((x - tx) / sx), floor((y - ty) / sy)`, or
border if there is no such pixel.  Missing from the full statement: it may raise, see
`C44_nearest_raises`. -/
theorem C44_nearest_pixels_partial (E : Env V) (s : Node) (i j : Img V) (hi : fin E s = .ok i) (sx sy tx ty : ℚ)
    (hsx : 0 < sx) (hsy : 0 < sy) (ht : tx ≠ 0 ∨ ty ≠ 0) (d : Int × Int) (a : Algo)
    (hn : a.interp = .nearest) (h : fin E (.warp s ⟨sx, 0, tx, 0, sy, ty⟩ d a) = .ok j) :
    (j.h : Int) = d.2 ∧ (j.w : Int) = d.1 ∧ j.n = i.n ∧ ∀ y x k, j.px y x k =
      paddedPixel i (E.border a) (⌊((y : ℚ) - ty) / sy⌋ - y) (⌊((x : ℚ) - tx) / sx⌋ - x) y x k := by
  rw [fin, hi] at h
  simp only [finWarp_shifted E i sx sy tx ty hsx hsy ht d a hn] at h
  unfold nearestWarp at h
  split at h
  · cases h
  · rename_i hd
    have key : ∀ out : Img V, out = ⟨d.2.toNat, d.1.toNat, i.n, fun y x k =>
      if 0 ≤ nearestIdx sy ty y ∧ nearestIdx sy ty y < i.h ∧ 0 ≤ nearestIdx sx tx x ∧ nearestIdx sx tx x < i.w
      then i.px (nearestIdx sy ty y).toNat (nearestIdx sx tx x).toNat k else E.border a⟩ →
        (out.h : Int) = d.2 ∧ (out.w : Int) = d.1 ∧ out.n = i.n ∧ ∀ y x k, out.px y x k =
      paddedPixel i (E.border a) (⌊((y : ℚ) - ty) / sy⌋ - y) (⌊((x : ℚ) - tx) / sx⌋ - x) y x k := by
      rintro _ rfl
      refine ⟨by simp only; omega, by simp only; omega, rfl, fun y x k => ?_⟩
      unfold paddedPixel
      rw [Int.sub_add_cancel, Int.sub_add_cancel]
      rfl
    simp only at h
    split at h
    · split at h
      · simp only [Except.ok.injEq] at h
        exact key j h.symm
      · cases h
    · simp only [Except.ok.injEq] at h
      exact key j h.symm

/-- C44: exactly when a nearest neighbour warp by a positive scale and a translation raises: the
output shows some pixel of the source, and some row or column of it would read more than one image size
before the start or past the end of the source. -/
theorem C44_nearest_raises (E : Env V) (s : Node) (i : Img V) (hi : fin E s = .ok i) (sx sy tx ty : ℚ)
    (hsx : 0 < sx) (hsy : 0 < sy) (ht : tx ≠ 0 ∨ ty ≠ 0) (d : Int × Int) (hd : 0 ≤ d.1 ∧ 0 ≤ d.2) (a : Algo)
    (hn : a.interp = .nearest) :
    fin E (.warp s ⟨sx, 0, tx, 0, sy, ty⟩ d a) = .error .indexError ↔
      (∃ x y : Nat, (x : Int) < d.1 ∧ (y : Int) < d.2 ∧ 0 ≤ ⌊((x : ℚ) - tx) / sx⌋ ∧
        ⌊((x : ℚ) - tx) / sx⌋ < i.w ∧ 0 ≤ ⌊((y : ℚ) - ty) / sy⌋ ∧ ⌊((y : ℚ) - ty) / sy⌋ < i.h) ∧
      ((∃ x : Nat, (x : Int) < d.1 ∧
          (⌊((x : ℚ) - tx) / sx⌋ < -i.w ∨ (i.w : Int) ≤ ⌊((x : ℚ) - tx) / sx⌋)) ∨
       (∃ y : Nat, (y : Int) < d.2 ∧
          (⌊((y : ℚ) - ty) / sy⌋ < -i.h ∨ (i.h : Int) ≤ ⌊((y : ℚ) - ty) / sy⌋))) := by
  have hv : ∀ (s t : ℚ) (D : Nat) (out : Int), 0 ≤ out → (someValid s t D out.toNat = true ↔
      ∃ x : Nat, (x : Int) < out ∧ 0 ≤ ⌊((x : ℚ) - t) / s⌋ ∧ ⌊((x : ℚ) - t) / s⌋ < D) := by
    intro s t D out ho
    simp only [someValid, List.any_eq_true, List.mem_range, decide_eq_true_eq]
    simp only [nearestIdx]
    constructor
    · rintro ⟨x, h1, h2⟩; exact ⟨x, by omega, h2⟩
    · rintro ⟨x, h1, h2⟩; exact ⟨x, by omega, h2⟩
  have hf : ∀ (s t : ℚ) (D : Nat) (out : Int), 0 ≤ out → (fancyOk s t D out.toNat = false ↔
      ∃ x : Nat, (x : Int) < out ∧ (⌊((x : ℚ) - t) / s⌋ < -D ∨ (D : Int) ≤ ⌊((x : ℚ) - t) / s⌋)) := by
    intro s t D out ho
    simp only [fancyOk, List.all_eq_false, List.mem_range, decide_eq_true_eq]
    simp only [nearestIdx]
    constructor
    · rintro ⟨x, h1, h2⟩; exact ⟨x, by omega, by omega⟩
    · rintro ⟨x, h1, h2⟩; exact ⟨x, by omega, by omega⟩
  rw [fin, hi]
  simp only [finWarp_shifted E i sx sy tx ty hsx hsy ht d a hn]
  unfold nearestWarp
  rw [if_neg (by omega)]
  simp only
  have h1 : (∃ x y : Nat, (x : Int) < d.1 ∧ (y : Int) < d.2 ∧ 0 ≤ ⌊((x : ℚ) - tx) / sx⌋ ∧
        ⌊((x : ℚ) - tx) / sx⌋ < i.w ∧ 0 ≤ ⌊((y : ℚ) - ty) / sy⌋ ∧ ⌊((y : ℚ) - ty) / sy⌋ < i.h) ↔
      (someValid sx tx i.w d.1.toNat && someValid sy ty i.h d.2.toNat) = true := by
    rw [Bool.and_eq_true, hv _ _ _ _ hd.1, hv _ _ _ _ hd.2]
    constructor
    · rintro ⟨x, y, a1, a2, a3, a4, a5, a6⟩; exact ⟨⟨x, a1, a3, a4⟩, ⟨y, a2, a5, a6⟩⟩
    · rintro ⟨⟨x, a1, a3, a4⟩, ⟨y, a2, a5, a6⟩⟩; exact ⟨x, y, a1, a2, a3, a4, a5, a6⟩
  rw [h1, ← hf _ _ _ _ hd.1, ← hf _ _ _ _ hd.2]
  cases h2 : (someValid sx tx i.w d.1.toNat && someValid sy ty i.h d.2.toNat) <;>
  cases h3 : fancyOk sx tx i.w d.1.toNat <;> cases h4 : fancyOk sy ty i.h d.2.toNat <;> simp

/-- A nearest neighbour warp. -/
def nearest : Algo := { Algo.default with interp := .nearest }

example : nearest.interp = .nearest ∧ ((0 : ℚ) < 1 ∧ ((2 : ℚ) ≠ 0 ∨ (2 : ℚ) ≠ 0)) := by
  exact ⟨rfl, by norm_num⟩

/-- C44 fails: padding an image on both sides raises with nearest neighbours (with any other
interpolation it does not, `C26_padded_crop`). -/
theorem C44_nearest_raises_violated :
    fin gridEnv (.warp (.leaf rgbLeaf) (.trans 1 1) (7, 6) nearest) = .error .indexError := by
  rw [show Affine.trans 1 1 = ⟨1, 0, 1, 0, 1, 1⟩ from rfl,
    C44_nearest_raises gridEnv (.leaf rgbLeaf) (gridEnv.img 1) rfl 1 1 1 1 (by norm_num) (by norm_num)
      (by norm_num) _ (by decide) _ rfl]
  refine ⟨⟨1, 1, by decide, by decide, by norm_num, by norm_num [gridEnv], by norm_num,
    by norm_num [gridEnv]⟩, .inl ⟨6, by decide, .inr (by norm_num [gridEnv])⟩⟩

/-- C44: without a translation a nearest neighbour warp by a positive scale ignores the transform: the
whole image is stretched to the output size. -/
theorem C44_nearest_scale_ignores_transform (E : Env V) (s : Node) (sx sy sx' sy' : ℚ) (hsx : 0 < sx)
    (hsy : 0 < sy) (hsx' : 0 < sx') (hsy' : 0 < sy') (d : Int × Int) (a : Algo) (hn : a.interp = .nearest) :
    fin E (.warp s ⟨sx, 0, 0, 0, sy, 0⟩ d a) = fin E (.warp s ⟨sx', 0, 0, 0, sy', 0⟩ d a) := by
  simp only [fin, finWarp, hn, if_true, axisAligned, hasOffset, hsx, hsy, hsx', hsy']
  simp

/-- C44 fails, too, for the identity with another output size: the upper left 2x2 pixels of an image of 4
rows and 5 columns are not the image resized to 2x2. -/
theorem C44_nearest_size_violated :
    ∃ j, fin gridEnv (.warp (.leaf rgbLeaf) .id (2, 2) nearest) = .ok j ∧
      (gridEnv.img 1).px 1 1 0 = (1, 1, 0) ∧ j.px 1 1 0 = (2, 2, 0) := by
  refine ⟨_, rfl, rfl, ?_⟩
  decide +kernel

/-- The environment with exact nearest neighbour sampling for every transform. -/
def sampleEnv : Env (Nat × Nat × Nat) :=
  { gridEnv with
    warp := fun tf d _ i => ⟨d.2.toNat, d.1.toNat, i.n, fun y x k =>
      let p := tf.inv.app ((x : ℚ) + 1 / 2, (y : ℚ) + 1 / 2)
      if 0 ≤ ⌊p.2⌋ ∧ ⌊p.2⌋ < i.h ∧ 0 ≤ ⌊p.1⌋ ∧ ⌊p.1⌋ < i.w then i.px ⌊p.2⌋.toNat ⌊p.1⌋.toNat k
      else (9, 9, 9)⟩ }

/-- A quarter turn that halves the size of the image. -/
def quarterTurn : Affine := ⟨0, -1 / 2, 2, 1 / 2, 0, 0⟩

/-- C44 fails for rotations, too, even if the resampling is exact and the output size is automatic: the
image warped by the inverse transform is returned whenever it covers more of the output. -/
theorem C44_nearest_rotation_violated :
    (mkWarp (.leaf rgbLeaf) quarterTurn none nearest : Node).dsize = (2, 3) ∧
    ∃ j, fin sampleEnv (mkWarp (.leaf rgbLeaf) quarterTurn none nearest) = .ok j ∧
      (sampleEnv.warp quarterTurn (2, 3) nearest (gridEnv.img 1)).px 0 0 0 = (3, 1, 0) ∧
      (sampleEnv.warp quarterTurn.inv (2, 3) nearest (gridEnv.img 1)).px 0 0 0 = (0, 1, 0) ∧
      j.px 0 0 0 = (0, 1, 0) := by
  refine ⟨by decide +kernel, nearestGuess sampleEnv quarterTurn (2, 3) nearest (gridEnv.img 1), ?_,
    by decide +kernel, by decide +kernel, by decide +kernel⟩
  have e : (mkWarp (.leaf rgbLeaf) quarterTurn none nearest : Node).dsize = (2, 3) := by decide +kernel
  have e1 : axisAligned quarterTurn = false := by decide +kernel
  show finWarp sampleEnv quarterTurn (mkWarp (.leaf rgbLeaf) quarterTurn none nearest : Node).dsize nearest
    (gridEnv.img 1) = _
  rw [e]
  show finWarp sampleEnv quarterTurn (2, 3) nearest (gridEnv.img 1) = _
  simp only [finWarp, e1]
  rfl

/-- C44: a nearest neighbour warp that turns, shears or mirrors is the resampling by the transform, the resampling
by its inverse or the resized image.  Missing from the full statement: it need not be the first, see
`C44_nearest_rotation_violated`. -/
theorem C44_nearest_others_partial (E : Env V) (s : Node) (i : Img V) (hi : fin E s = .ok i) (tf : Affine)
    (ht : tf.b ≠ 0 ∨ tf.c ≠ 0 ∨ tf.a ≤ 0 ∨ tf.d ≤ 0) (d : Int × Int) (a : Algo) (hn : a.interp = .nearest) :
    ∃ j, fin E (.warp s tf d a) = .ok j ∧ (j = E.warp tf d a i ∨ j = E.warp tf.inv d a i ∨ j = E.resize d i) := by
  have e1 : axisAligned tf = false := by
    simp only [axisAligned, decide_eq_false_iff_not, not_and, not_lt]
    intro h1 h2 h3
    rcases ht with h | h | h | h
    · exact absurd h1 h
    · exact absurd h2 h
    · exact absurd h3 (not_lt.2 h)
    · exact h
  rw [fin, hi]
  refine ⟨nearestGuess E tf d a i, by simp only [finWarp, hn, e1, if_true]; rfl, ?_⟩
  have key : ∀ (p q : Prop) [Decidable p] [Decidable q] (x y z : Img V),
      (if p then z else if q then x else y) = x ∨ (if p then z else if q then x else y) = y ∨
        (if p then z else if q then x else y) = z := by
    intro p q _ _ x y z
    by_cases hp : p <;> by_cases hq : q <;> simp [hp, hq]
  exact key _ _ _ _ _

/-- C44: a nearest neighbour warp that mirrors the image, so that the transform is its own inverse, is the
resampling by the transform if at least five percent of its values are finite. -/
theorem C44_nearest_mirror (E : Env V) (s : Node) (i : Img V) (hi : fin E s = .ok i) (tf : Affine)
    (ht : tf.b ≠ 0 ∨ tf.c ≠ 0 ∨ tf.a ≤ 0 ∨ tf.d ≤ 0) (hinv : tf.inv = tf) (d : Int × Int) (a : Algo)
    (hn : a.interp = .nearest) (hne : (E.warp tf d a i).values ≠ [])
    (hf : 5 * (E.warp tf d a i).values.length ≤ 100 * ((E.warp tf d a i).values.filter E.finite).length) :
    fin E (.warp s tf d a) = .ok (E.warp tf d a i) := by
  have e1 : axisAligned tf = false := by
    simp only [axisAligned, decide_eq_false_iff_not, not_and, not_lt]
    intro h1 h2 h3
    rcases ht with h | h | h | h
    · exact absurd h1 h
    · exact absurd h2 h
    · exact absurd h3 (not_lt.2 h)
    · exact h
  have e2 : ∀ src, ¬ (score E src (E.warp tf d a i)).1 < 5 / 100 := by
    intro src
    have hpos : (0 : ℚ) < ((E.warp tf d a i).values.length : ℚ) := by
      exact_mod_cast List.length_pos_iff.2 hne
    simp only [score, hne, if_false, not_lt]
    rw [div_le_div_iff₀ (by norm_num) hpos, mul_comm _ (100 : ℚ)]
    exact_mod_cast hf
  rw [fin, hi]
  have e3 : nearestGuess E tf d a i = E.warp tf d a i := by
    simp only [nearestGuess, hinv, max_self, if_neg (e2 _), scoreGe]
    simp
  simp only [finWarp, hn, e1, if_true]
  exact congrArg Except.ok e3

/-- C44: a nearest neighbour warp that turns, shears or mirrors is the resampling by the transform if all values of
that are finite and as many different values appear as in the image. -/
theorem C44_nearest_faithful (E : Env V) (s : Node) (i : Img V) (hi : fin E s = .ok i) (tf : Affine)
    (ht : tf.b ≠ 0 ∨ tf.c ≠ 0 ∨ tf.a ≤ 0 ∨ tf.d ≤ 0) (d : Int × Int) (a : Algo)
    (hn : a.interp = .nearest) (hne : (E.warp tf d a i).values ≠ [])
    (hf : ∀ v ∈ (E.warp tf d a i).values, E.finite v = true) (hs : i.values.filter E.finite ≠ [])
    (hu : E.unique (E.warp tf d a i).values = E.unique (i.values.filter E.finite)) :
    fin E (.warp s tf d a) = .ok (E.warp tf d a i) := by
  have e1 : axisAligned tf = false := by
    simp only [axisAligned, decide_eq_false_iff_not, not_and, not_lt]
    intro h1 h2 h3
    rcases ht with h | h | h | h
    · exact absurd h1 h
    · exact absurd h2 h
    · exact absurd h3 (not_lt.2 h)
    · exact h
  have hfil : (E.warp tf d a i).values.filter E.finite = (E.warp tf d a i).values :=
    List.filter_eq_self.2 hf
  have hpos : ((E.warp tf d a i).values.length : ℚ) ≠ 0 := by
    exact_mod_cast (List.length_pos_iff.2 hne).ne'
  have s1 : score E (E.unique (i.values.filter E.finite)) (E.warp tf d a i) =
      (1, 0, (E.unique (i.values.filter E.finite) : Int)) := by
    simp only [score, hfil, if_neg hne, hu, div_self hpos, sub_self, abs_zero, neg_zero]
  have s2 : ∀ c : Img V, (score E (E.unique (i.values.filter E.finite)) c).1 ≤ 1 := by
    intro c
    simp only [score]
    split
    · norm_num
    · exact div_le_one_of_le₀ (by exact_mod_cast List.length_filter_le _ _) (by positivity)
  have s3 : ∀ c : Img V, (score E (E.unique (i.values.filter E.finite)) c).2.1 ≤ 0 := by
    intro c
    simp only [score]
    have := abs_nonneg ((if c.values.filter E.finite = [] then (0 : Int)
      else (E.unique (c.values.filter E.finite) : Int)) - (E.unique (i.values.filter E.finite) : Int))
    omega
  have s4 : ∀ c : Img V, (score E (E.unique (i.values.filter E.finite)) c).2.1 = 0 →
      (score E (E.unique (i.values.filter E.finite)) c).2.2 = (E.unique (i.values.filter E.finite) : Int) := by
    intro c h
    simp only [score, neg_eq_zero, abs_eq_zero] at h ⊢
    omega
  rw [fin, hi]
  have e3 : nearestGuess E tf d a i = E.warp tf d a i := by
    simp only [nearestGuess, if_neg hs, s1]
    rw [if_neg (by
      have : (1 : ℚ) ≤ max 1 (score E (E.unique (i.values.filter E.finite)) (E.warp tf.inv d a i)).1 :=
        le_max_left _ _
      intro h
      linarith)]
    refine if_pos ?_
    simp only [scoreGe, decide_eq_true_eq]
    rcases lt_or_eq_of_le (s2 (E.warp tf.inv d a i)) with h | h
    · exact .inl h
    · refine .inr ⟨h.symm, ?_⟩
      rcases lt_or_eq_of_le (s3 (E.warp tf.inv d a i)) with h' | h'
      · exact .inl h'
      · exact .inr ⟨h'.symm, le_of_eq (s4 _ h')⟩
  simp only [finWarp, hn, e1, if_true]
  exact congrArg Except.ok e3

/-- The left-right mirror image of a file of 5 columns. -/
def mirror : Affine := ⟨-1, 0, 5, 0, 1, 0⟩

example : mirror.a ≤ 0 ∧ mirror.inv = mirror ∧
    (sampleEnv.warp mirror (5, 4) nearest (gridEnv.img 1)).values ≠ [] ∧
    5 * (sampleEnv.warp mirror (5, 4) nearest (gridEnv.img 1)).values.length ≤
      100 * ((sampleEnv.warp mirror (5, 4) nearest (gridEnv.img 1)).values.filter sampleEnv.finite).length ∧
    (sampleEnv.warp mirror (5, 4) nearest (gridEnv.img 1)).px 2 0 1 = (2, 4, 1) :=
  ⟨by norm_num [mirror], by decide +kernel, by decide +kernel, by decide +kernel, by decide +kernel⟩

/-- A quarter turn of a file of 4 rows, at full size. -/
def wholeTurn : Affine := ⟨0, -1, 4, 1, 0, 0⟩

example : wholeTurn.b ≠ 0 ∧ wholeTurn.inv ≠ wholeTurn ∧
    (sampleEnv.warp wholeTurn (4, 5) nearest (gridEnv.img 1)).values ≠ [] ∧
    (∀ v ∈ (sampleEnv.warp wholeTurn (4, 5) nearest (gridEnv.img 1)).values, sampleEnv.finite v = true) ∧
    (gridEnv.img 1).values.filter sampleEnv.finite ≠ [] ∧
    sampleEnv.unique (sampleEnv.warp wholeTurn (4, 5) nearest (gridEnv.img 1)).values =
      sampleEnv.unique ((gridEnv.img 1).values.filter sampleEnv.finite) ∧
    (sampleEnv.warp wholeTurn (4, 5) nearest (gridEnv.img 1)).px 0 0 1 = (3, 0, 1) :=
  ⟨by norm_num [wholeTurn], by decide +kernel, by decide +kernel, by decide +kernel, by decide +kernel,
    by decide +kernel, by decide +kernel⟩

end Verif.Props
