/-
C61: images can be indexed like arrays.  C62: the self-check accepts every image.  C45: the default
`finalize()` from beginning to end.
-/
import Verif.Check
import Verif.Props.Total
import Verif.Props.Params
import Verif.Props.Resize

namespace Verif.Props

open Tree Node

variable {V : Type} {E : Env V}

/-! ### C45 from beginning to end -/

mutual
theorem smooth_iff : ∀ n : Node, Smooth n ↔ ∀ a ∈ warpAlgos n, a.interp ≠ .nearest
  | .leaf _ => ⟨fun _ a h => (by cases h), fun _ => trivial⟩
  | .concat ps _ => smoothL_iff ps
  | .warp s _ _ a => by
    show a.interp ≠ .nearest ∧ Smooth s ↔ ∀ b ∈ a :: warpAlgos s, b.interp ≠ .nearest
    rw [smooth_iff s, List.forall_mem_cons]
  | .crop s _ _ _ _ _ => smooth_iff s
  | .overview s _ _ => smooth_iff s
  | .dequant s _ _ => smooth_iff s
theorem smoothL_iff : ∀ ps : List Node, SmoothL ps ↔ ∀ a ∈ warpAlgosL ps, a.interp ≠ .nearest
  | [] => ⟨fun _ a h => (by cases h), fun _ => trivial⟩
  | p :: ps => by
    show Smooth p ∧ SmoothL ps ↔ ∀ b ∈ warpAlgos p ++ warpAlgosL ps, b.interp ≠ .nearest
    rw [smooth_iff p, smoothL_iff ps]
    simp only [List.mem_append]
    constructor
    · rintro ⟨h1, h2⟩ b (h | h)
      · exact h1 b h
      · exact h2 b h
    · intro h
      exact ⟨fun b hb => h b (.inl hb), fun b hb => h b (.inr hb)⟩
end

/-- Optimized images without nearest neighbour warps can be computed. -/
theorem opt_fin (H : Heur) (hE : Env.Shaped E) {n : Node} (hb : Built n) (ho : NoOv n) (hm : Each E.Matches n)
    (hs : Smooth n) {fuel : Nat} {m : Node} (h : opt H fuel n = .ok m) :
    ∃ i, finalize H E fuel n = .ok i ∧ fin E m = .ok i ∧ Announced n i := by
  obtain ⟨hw, hf⟩ := hb.ok
  have g := opt_good (deep := false) (sizeRules H) (by simp) fuel n m ⟨hw, hf, ho⟩ h
  have k := opt_good (deep := false) (keepRules H (nameRules H) (stable_each E.Matches (fun _ _ _ h => by cases h)))
    (by simp) fuel n m ⟨hw, hm⟩ h
  have s := opt_good (deep := false) (keepRules H (nameRules H)
    (stable_algos (P := fun a => a.interp ≠ .nearest) (fun _ h => h))) (by simp) fuel n m
    ⟨hw, ho, (smooth_iff n).1 hs⟩ h
  obtain ⟨i, hi⟩ := fin_total hE m g.inv.wf g.inv.fit k.inv.2 ((smooth_iff m).2 s.inv.2.2)
  have hfin : finalize H E fuel n = .ok i := by rw [finalize, h]; exact hi
  exact ⟨i, hfin, hi, C45_finalize_shape_partial H hE hb ho hm fuel hfin⟩

/-- C45: the default `finalize()`, which optimizes, raises no exception and gives an array of the announced
shape, for images without overviews and nearest neighbour warps, with codes, without empty selections and with at
most one dequantization per path. -/
theorem C45_finalize_default_partial (hE : Env.Shaped E) {n : Node} (hb : Built n) (ho : NoOv n) (hf : Fair n)
    (hd : deqs n ≤ 1) (hm : Each E.Matches n) (hs : Smooth n) :
    ∃ i F, Announced n i ∧ ∀ f, F ≤ f → finalize Heur.code E f n = .ok i := by
  obtain ⟨m, F, h⟩ := C55_no_exception_partial hb ho hf hd
  obtain ⟨i, _, hi, ha⟩ := opt_fin Heur.code hE hb ho hm hs (h F (le_refl _))
  exact ⟨i, F, ha, fun f hf => by rw [finalize, h f hf]; exact hi⟩

/-- Quantized values next to a second picture; two of the six channels on a part. -/
def indexed : Node := .crop (.concat [mkDequant (.leaf rgbLeaf) ⟨0, 1, 0, 255, none⟩, .leaf { rgbLeaf with id := 2 }]
  (5, 4)) 1 4 0 3 (some [4, 0])

theorem rgb_built (i : Nat) : Built (.leaf { rgbLeaf with id := i }) := .leaf _
  ⟨by intro l h; simp only [rgbLeaf, Option.some.injEq] at h; subst h; rfl, by intro h; cases h⟩
  (show Nonneg (5, 4) from ⟨by decide, by decide⟩)

theorem indexed_built : Built indexed := by
  refine .crop _ _ (some ((some 1, some 4), (some 0, some 3))) (some [4, 0])
    (.concat [mkDequant (.leaf rgbLeaf) ⟨0, 1, 0, 255, none⟩, .leaf { rgbLeaf with id := 2 }] _ ?_ rfl) ?_ rfl
  · intro p hp
    simp only [List.mem_cons, List.not_mem_nil, or_false] at hp
    rcases hp with rfl | rfl
    · exact .dequant _ _ (rgb_built 1)
    · exact rgb_built 2
  · intro i hi
    simp only [List.mem_cons, List.not_mem_nil, or_false] at hi
    rcases hi with rfl | rfl <;> decide

/-- The same turned by a quarter. -/
def turned : Node := mkWarp indexed ⟨0, -1, 2, 1, 0, 0⟩ (some (3, 3)) .default

theorem turned_ok : Built turned ∧ NoOv turned ∧ Fair turned ∧ deqs turned ≤ 1 ∧ Each shapeEnv.Matches turned ∧
    Smooth turned ∧ turned.dsize = (3, 3) ∧ turned.nchan = 2 := by
  refine ⟨.warp _ _ (some (3, 3)) _ indexed_built (by decide +kernel) ⟨by decide, by decide⟩,
    ⟨.inl rfl, .inl rfl, trivial⟩, ⟨⟨.inr rfl, .inr rfl, trivial⟩, by simp⟩, by decide,
    ⟨fun _ => ⟨rfl, rfl, rfl⟩, fun _ => ⟨rfl, rfl, rfl⟩, trivial⟩,
    ⟨by decide, trivial, trivial, trivial⟩, by decide +kernel, by decide +kernel⟩

example : ∃ i F, Announced turned i ∧ ∀ f, F ≤ f → finalize Heur.code shapeEnv f turned = .ok i :=
  C45_finalize_default_partial shapeEnv_shaped turned_ok.1 turned_ok.2.1 turned_ok.2.2.1 turned_ok.2.2.2.1
    turned_ok.2.2.2.2.1 turned_ok.2.2.2.2.2.1

/-! ### C62 -/

theorem shape_of {n : Node} {i : Img V} (h : Announced n i) : Img.shape i = shape n := by
  unfold Img.shape shape
  rw [h.h, h.w, h.n]

/-- C62: the self-check passes for every image without overviews and nearest neighbour warps, with codes, without
empty selections and with at most one dequantization per path.  Missing: the others, see the witness. -/
theorem C62_validate_partial (hE : Env.Shaped E) {n : Node} (hb : Built n) (ho : NoOv n) (hf : Fair n)
    (hd : deqs n ≤ 1) (hm : Each E.Matches n) (hs : Smooth n) :
    ∃ F, ∀ f, F ≤ f → validate Heur.code E f n = .ok () := by
  obtain ⟨m, F, h⟩ := C55_no_exception_partial hb ho hf hd
  obtain ⟨i, hi, ha⟩ := C45_finalize_succeeds hE hb hm hs
  have hsh := shape_of ha
  refine ⟨F, fun f hle => ?_⟩
  have e := h f hle
  obtain ⟨h1, h2⟩ := C36_channels Heur.code hb f e
  have h3 := C36_size_partial Heur.code hb ho f e
  have hsm : shape m = shape n := by unfold shape; rw [h2, h3]
  have key : (n.channels = m.channels ∧ n.nchan = m.nchan ∧ Img.shape i = shape n ∧ shape m = shape n) :=
    ⟨h1.symm, h2.symm, hsh, hsm⟩
  have image : validateImage Heur.code E f n = .ok () := by
    unfold validateImage; rw [e]; simp only [hi]; exact if_pos key
  cases n with
  | concat ps d =>
    show validateConcat E _ = _
    unfold validateConcat; rw [hi]; exact if_pos hsh
  | leaf l => exact image
  | warp s tf d a => exact image
  | crop s y0 y1 x0 x1 c => exact image
  | overview s k d => exact image
  | dequant s q d => exact image

example : ∃ F, ∀ f, F ≤ f → validate Heur.code shapeEnv f turned = .ok () :=
  C62_validate_partial shapeEnv_shaped turned_ok.1 turned_ok.2.1 turned_ok.2.2.1 turned_ok.2.2.2.1
    turned_ok.2.2.2.2.1 turned_ok.2.2.2.2.2.1

/-- C62, concats: only the array is looked at, which has the announced shape with overviews, too. -/
theorem C62_concat (H : Heur) (hE : Env.Shaped E) {ps : List Node} {d : Int × Int} (hb : Built (.concat ps d))
    (hm : Each E.Matches (.concat ps d)) (hs : Smooth (.concat ps d)) (fuel : Nat) :
    validate H E fuel (.concat ps d) = .ok () := by
  obtain ⟨i, hi, ha⟩ := C45_finalize_succeeds hE hb hm hs
  show validateConcat E _ = _
  unfold validateConcat
  rw [hi]
  exact if_pos (shape_of ha)

/-- C62: conversely, an image that passes has an array of the announced shape, and its optimized form announces
the same codes and shape. -/
theorem C62_meaning (H : Heur) {n : Node} (fuel : Nat) (h : validate H E fuel n = .ok ()) :
    ∃ i, fin E n = .ok i ∧ (i.h : Int) = n.dsize.2 ∧ (i.w : Int) = n.dsize.1 ∧ i.n = n.nchan ∧
      ((∀ ps d, n ≠ .concat ps d) → ∃ m, opt H fuel n = .ok m ∧ m.channels = n.channels ∧ m.nchan = n.nchan ∧
        m.dsize = n.dsize) := by
  have fin_case : ∀ {i : Img V} {n : Node}, Img.shape i = shape n →
      (i.h : Int) = n.dsize.2 ∧ (i.w : Int) = n.dsize.1 ∧ i.n = n.nchan := by
    intro i n hs
    unfold Img.shape shape at hs
    simp only [Prod.mk.injEq] at hs
    exact hs
  have key : ∀ n : Node, validateImage H E fuel n = .ok () →
      ∃ i, fin E n = .ok i ∧ (i.h : Int) = n.dsize.2 ∧ (i.w : Int) = n.dsize.1 ∧ i.n = n.nchan ∧
      ((∀ ps d, n ≠ .concat ps d) → ∃ m, opt H fuel n = .ok m ∧ m.channels = n.channels ∧ m.nchan = n.nchan ∧
        m.dsize = n.dsize) := by
    intro n h
    unfold validateImage at h
    split at h
    · cases h
    · rename_i m e
      split at h
      · cases h
      · rename_i i ei
        split at h
        · rename_i hh
          obtain ⟨h1, h2, h3, h4⟩ := hh
          obtain ⟨a, b, c⟩ := fin_case h3
          refine ⟨i, ei, a, b, c, fun _ => ⟨m, e, h1.symm, h2.symm, ?_⟩⟩
          unfold shape at h4
          simp only [Prod.mk.injEq] at h4
          exact Prod.ext h4.2.1 h4.1
        · cases h
  cases n with
  | concat ps d =>
    change validateConcat E _ = _ at h
    unfold validateConcat at h
    split at h
    · cases h
    · rename_i i ei
      split at h
      · rename_i hh
        obtain ⟨a, b, c⟩ := fin_case hh
        exact ⟨i, ei, a, b, c, fun hn => absurd rfl (hn ps d)⟩
      · cases h
  | leaf l => exact key _ h
  | warp s tf d a => exact key _ h
  | crop s y0 y1 x0 x1 c => exact key _ h
  | overview s k d => exact key _ h
  | dequant s q d => exact key _ h

/-- C62, the failures: besides the exceptions of optimize and finalize there is only the AssertionError, and it is raised
only if the array has another shape than announced, or the image is no concat and its optimized form announces something
else. -/
theorem C62_refused (H : Heur) {n : Node} (fuel : Nat) {x : PyErr} (h : validate H E fuel n = .error x) :
    ((∀ ps d, n ≠ .concat ps d) ∧ opt H fuel n = .error x) ∨ fin E n = .error x ∨
    x = .assertionError ∧ ∃ i, fin E n = .ok i ∧ (((i.h : Int), (i.w : Int), i.n) ≠ (n.dsize.2, n.dsize.1, n.nchan) ∨
      (∀ ps d, n ≠ .concat ps d) ∧ ∃ m, opt H fuel n = .ok m ∧
        ¬ (m.channels = n.channels ∧ m.nchan = n.nchan ∧ m.dsize = n.dsize)) := by
  have key : ∀ n : Node, (∀ ps d, n ≠ .concat ps d) → validateImage H E fuel n = .error x →
      ((∀ ps d, n ≠ .concat ps d) ∧ opt H fuel n = .error x) ∨ fin E n = .error x ∨
      x = .assertionError ∧ ∃ i, fin E n = .ok i ∧ (((i.h : Int), (i.w : Int), i.n) ≠ (n.dsize.2, n.dsize.1, n.nchan) ∨
        (∀ ps d, n ≠ .concat ps d) ∧ ∃ m, opt H fuel n = .ok m ∧
          ¬ (m.channels = n.channels ∧ m.nchan = n.nchan ∧ m.dsize = n.dsize)) := by
    intro n hn h
    unfold validateImage at h
    split at h
    · rename_i e he
      cases h
      exact .inl ⟨hn, he⟩
    · rename_i m e
      split at h
      · rename_i e he
        cases h
        exact .inr (.inl he)
      · rename_i i ei
        split at h
        · cases h
        · rename_i hh
          cases h
          refine .inr (.inr ⟨rfl, i, ei, ?_⟩)
          by_cases hs : ((i.h : Int), (i.w : Int), i.n) = (n.dsize.2, n.dsize.1, n.nchan)
          · refine .inr ⟨hn, m, e, fun ⟨h1, h2, h3⟩ => hh ⟨h1.symm, h2.symm, hs, ?_⟩⟩
            unfold shape
            rw [h2, h3]
          · exact .inl hs
  cases n with
  | concat ps d =>
    change validateConcat E _ = _ at h
    unfold validateConcat at h
    split at h
    · rename_i e he
      cases h
      exact .inr (.inl he)
    · rename_i i ei
      split at h
      · cases h
      · rename_i hh
        cases h
        exact .inr (.inr ⟨rfl, i, ei, .inl hh⟩)
  | leaf l => exact key _ (by simp) h
  | warp s tf d a => exact key _ (by simp) h
  | crop s y0 y1 x0 x1 c => exact key _ (by simp) h
  | overview s k d => exact key _ (by simp) h
  | dequant s q d => exact key _ (by simp) h

/-- A concat whose file holds an array of another shape than was said. -/
example : validate Heur.code gridEnv 9 (.concat [.leaf { rgbLeaf with dsize := (6, 4) }] (6, 4)) =
    .error .assertionError := by decide +kernel

/-- C62 fails with overviews: the optimized form of this image announces four pixels instead of one. -/
theorem C62_overviews_violated (E : Env V) (i : Img V) (h : fin E halfCrop = .ok i) :
    validate Heur.code E 40 halfCrop = .error .assertionError := by
  obtain ⟨h1, m, hm, h2⟩ := C45_finalize_shape_violated
  have hne : ¬ (shape m = shape halfCrop) := by
    unfold shape; rw [h1, h2]; simp
  show validateImage Heur.code E 40 halfCrop = _
  unfold validateImage
  rw [hm]
  simp only [h]
  exact if_neg fun hh => hne hh.2.2.2

example : ∃ i, fin bigGrid halfCrop = .ok i ∧ (i.h, i.w, i.n) = (1, 1, 3) := by
  obtain ⟨i, h1, h2⟩ := holds_ok (x := fin bigGrid halfCrop) (f := fun i => decide ((i.h, i.w, i.n) = (1, 1, 3)))
    (by decide +kernel)
  exact ⟨i, h1, of_decide_eq_true h2⟩

/-! ### C61 -/

/-- C61: indexing an image and reading its pixels gives numpy's result on the pixels of the image, for every image;
other indices are errors. -/
theorem C61_pixels (E : Env V) (n : Node) (i : Img V) (hi : fin E n = .ok i) (ha : Announced n i) (sl : Space)
    (c : List Nat) :
    Agree (pixels E (getitem n (.two sl))) (.ok (i.slice sl.1 sl.2)) ∧
    Agree (pixels E (getitem n (.three sl c))) ((i.slice sl.1 sl.2).select (some c)) ∧
    getitem n .single = .error .typeError ∧ getitem n .more = .error .valueError :=
  ⟨C24_crop_is_numpy_slice E n i hi ha sl none, C24_crop_is_numpy_slice E n i hi ha sl (some c), rfl, rfl⟩

theorem same_symm {i j : Img V} (h : i.Same j) : j.Same i := by
  obtain ⟨h1, h2, h3, h4⟩ := h
  exact ⟨h1.symm, h2.symm, h3.symm, fun y x k hy hx hk => (h4 y x k (h1 ▸ hy) (h2 ▸ hx) (h3 ▸ hk)).symm⟩

theorem same_trans {i j k : Img V} (h : i.Same j) (h' : j.Same k) : i.Same k := by
  obtain ⟨h1, h2, h3, h4⟩ := h
  obtain ⟨g1, g2, g3, g4⟩ := h'
  exact ⟨h1.trans g1, h2.trans g2, h3.trans g3, fun y x c hy hx hc =>
    (h4 y x c hy hx hc).trans (g4 y x c (h1 ▸ hy) (h2 ▸ hx) (h3 ▸ hc))⟩

theorem npSlice_mem_lt {D : Nat} {a b : Option Int} {r : Nat} (hr : r ∈ npSlice D a b) : r < D :=
  List.mem_range.1 (List.mem_filter.1 hr).1

theorem same_slice {i j : Img V} (h : i.Same j) (ysl xsl : Option Int × Option Int) :
    (i.slice ysl xsl).Same (j.slice ysl xsl) := by
  obtain ⟨h1, h2, h3, h4⟩ := h
  unfold Img.slice
  rw [← h1, ← h2]
  refine ⟨rfl, rfl, h3, fun y x k hy hx hk => ?_⟩
  simp only at hy hx ⊢
  rw [List.getD_eq_getElem _ _ hy, List.getD_eq_getElem _ _ hx]
  exact h4 _ _ _ (npSlice_mem_lt (List.getElem_mem hy)) (npSlice_mem_lt (List.getElem_mem hx)) hk

theorem same_select {i j : Img V} (h : i.Same j) (c : Option (List Nat)) : Agree (i.select c) (j.select c) := by
  cases c with
  | none => exact h
  | some c =>
    obtain ⟨h1, h2, h3, h4⟩ := h
    simp only [Img.select]
    rw [← h3]
    by_cases hc : c.all (fun m => decide (m < i.n)) = true
    · rw [if_pos hc, if_pos hc]
      refine ⟨h1, h2, rfl, fun y x k hy hx hk => ?_⟩
      simp only at hk ⊢
      rw [List.getD_eq_getElem _ _ hk]
      rw [List.all_eq_true] at hc
      exact h4 _ _ _ hy hx (of_decide_eq_true (hc _ (List.getElem_mem hk)))
    · rw [if_neg hc, if_neg hc]
      rfl

/-- The key selects existing channels, and some. -/
def Index.Ok (n : Node) : Index → Prop
  | .two _ => True
  | .three _ c => c ≠ [] ∧ ∀ m ∈ c, m < n.nchan
  | _ => False

/-- numpy's result for a key. -/
def npItem (i : Img V) : Index → Py (Img V)
  | .two sl => .ok (i.slice sl.1 sl.2)
  | .three sl c => (i.slice sl.1 sl.2).select (some c)
  | _ => .error .typeError

/-- C61: `image[key].finalize()` is `image.finalize()[key]`, with the default finalize, which optimizes, for images
that are put together from files by crops, selections, dequantizations and concats.  Missing: warps and overviews
(see C36, C45, C55 for what fails there). -/
theorem C61_finalize_partial {n : Node} (hb : Built n) (hfl : Flat n) (ho : NoOv n) (hf : Fair n) (hd : deqs n ≤ 1)
    (hm : Each E.Matches n) (hq : ∀ q, E.deq q E.nan = E.nan) (hE : Env.Shaped E) {k : Index} (hk : Index.Ok n k) :
    ∃ t i F, getitem n k = .ok t ∧ ∀ f, F ≤ f → finalize Heur.code E f n = .ok i ∧
      Agree (finalize Heur.code E f t) (npItem i k) := by
  obtain ⟨sl, c, ek, hc, hce, enp⟩ : ∃ sl c, getitem n k = crop n (some sl) c true true (.int 0) false ∧
      IdxOk n.nchan c ∧ c ≠ some [] ∧ ∀ i : Img V, npItem i k = (i.slice sl.1 sl.2).select c := by
    cases k with
    | two sl => exact ⟨sl, none, rfl, trivial, by simp, fun _ => rfl⟩
    | three sl c => exact ⟨sl, some c, rfl, hk.2, by simp [hk.1], fun _ => rfl⟩
    | single => exact hk.elim
    | more => exact hk.elim
  have em : crop n (some sl) c true true (.int 0) false = mkCrop n (some sl) c := by simp [Tree.crop, Pad.truthy]
  obtain ⟨t, et⟩ : ∃ t, mkCrop n (some sl) c = .ok t := mkCrop_total' hb.ok.1 hc _
  obtain ⟨y0, y1, x0, x1, rfl⟩ := mkCrop_form et
  have hbt : Built (.crop n y0 y1 x0 x1 c) := .crop n _ (some sl) c hb hc et
  obtain ⟨m, F, h⟩ := C55_no_exception_partial hb ho hf hd
  obtain ⟨m', F', h'⟩ := C55_no_exception_partial hbt ho ⟨hf, hce⟩ hd
  obtain ⟨i0, i, e0, e1, s1⟩ := C36_arrays_flat_partial Heur.code E hb hfl hm hq F (h F (le_refl _))
  obtain ⟨j0, j, e2, e3, s2⟩ := C36_arrays_flat_partial Heur.code E hbt hfl hm hq F' (h' F' (le_refl _))
  have ha := C45_announced_shape hE hb hm e0
  have hag := C24_crop_is_numpy_slice E n i0 e0 ha sl c
  rw [em, et] at hag
  simp only [pixels, e2] at hag
  refine ⟨.crop n y0 y1 x0 x1 c, i, max F F', by rw [ek, em, et], fun f hf => ⟨?_, ?_⟩⟩
  · rw [← e1, finalize, finalize, h f (le_trans (le_max_left _ _) hf), h F (le_refl _)]
  · have e4 : finalize Heur.code E f (.crop n y0 y1 x0 x1 c) = .ok j := by
      rw [← e3, finalize, finalize, h' f (le_trans (le_max_right _ _) hf), h' F' (le_refl _)]
    rw [e4, enp]
    have hss := same_select (same_slice s1 sl.1 sl.2) c
    cases e5 : (i0.slice sl.1 sl.2).select c with
    | error e => rw [e5] at hag; exact hag.elim
    | ok a =>
      rw [e5] at hag hss
      cases e6 : (i.slice sl.1 sl.2).select c with
      | error e => rw [e6] at hss; exact hss.elim
      | ok b =>
        rw [e6] at hss
        exact same_trans (same_trans (same_symm s2) hag) hss

/-- Rows from the second on, the last two columns, the second channel twice. -/
example : ∃ t i F, getitem indexed (.three ((some 1, none), (some (-2), none)) [1, 1]) = .ok t ∧ ∀ f, F ≤ f →
    finalize Heur.code shapeEnv f indexed = .ok i ∧ Agree (finalize Heur.code shapeEnv f t)
      (npItem i (.three ((some 1, none), (some (-2), none)) [1, 1])) :=
  C61_finalize_partial indexed_built ⟨trivial, trivial, trivial⟩ ⟨.inl rfl, .inl rfl, trivial⟩
    ⟨⟨.inr rfl, .inr rfl, trivial⟩, by simp⟩ (by decide) ⟨fun _ => ⟨rfl, rfl, rfl⟩, fun _ => ⟨rfl, rfl, rfl⟩, trivial⟩
    (fun _ => rfl) shapeEnv_shaped ⟨by simp, by decide +kernel⟩

end Verif.Props
