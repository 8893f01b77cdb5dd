/-
C59: the readers agree.  C60: the check for data.
-/
import Verif.Readers
import Verif.Props.Loader

namespace Verif.Props

open Loader

/-! ### C59 -/

theorem boundsOf_window {r : RPart} {w : Int × Int} (h : windowOf r = .ok w) : boundsOf r = .ok (w.1, w.1 + w.2) := by
  cases r with
  | slice a b => cases h; simp only [boundsOf]; congr 2; omega
  | list is => cases h

theorem windowRead_of {o : Beyond} {skip : Bool} {D : Nat} {w : Int × Int} {rows : List Nat}
    (h : gdalRead skip D w = .ok rows) (hne : rows ≠ []) : windowRead o D (w.1, w.1 + w.2) = .ok rows := by
  unfold gdalRead at h
  split at h
  · split at h
    · cases h; exact absurd rfl hne
    · cases h
  · split at h
    · rename_i h1 h2
      cases h
      rw [windowRead, if_pos ⟨h2.1, by omega, h2.2.2⟩]
      congr 3
      congr 1
      omega
    · cases h

/-- Padding with `None` and padding with full slices select the same. -/
theorem pad_same (index : List Part) (he : .ellipsis ∉ index) (n D : Nat) :
    ∃ full, expandIndex index = .ok full ∧ rectify (full.getD n .none) D = rectify ((padIndex index).getD n .none) D := by
  have hc : index.countP (fun p => decide (p = .ellipsis)) = 0 := by
    rw [List.countP_eq_zero]; intro a ha; simp; rintro rfl; exact he ha
  unfold expandIndex padIndex
  simp only [hc]
  rw [if_neg (by omega), if_neg (by omega)]
  by_cases hl : index.length < 3
  · rw [if_pos hl, if_pos hl]
    refine ⟨_, rfl, ?_⟩
    rw [List.getD_eq_getElem?_getD, List.getD_eq_getElem?_getD, List.getElem?_append, List.getElem?_append]
    split
    · rfl
    · rw [List.getElem?_replicate, List.getElem?_replicate]
      split
      · simp only [Option.getD_some, rectify]
        rw [if_neg (by omega)]
      · rfl
  · rw [if_neg hl, if_neg hl]
    exact ⟨_, rfl, rfl⟩

/-- C59: what the GDAL reader reads for an index without an ellipsis, with at least one row and one column and
with bands that exist, the rasterio and the spectral reader read too, whatever these libraries do with other
requests.  Missing from the full statement: ellipsis, empty requests and bands counted from the end. -/
theorem C59_same_selection_partial (o : Beyond) (skip : Bool) (index : List Part) (H W C : Nat) (rows cols : List Nat)
    (bands : List Int) (he : .ellipsis ∉ index) (h : getItem skip index H W C = .ok (rows, cols, bands))
    (hr : rows ≠ []) (hcl : cols ≠ []) (hb : ∀ b ∈ bands, 0 ≤ b ∧ b < C) :
    rasterioItem o index H W C = .ok (rows, cols, bands) ∧ spectralItem o index H W C = .ok (rows, cols, bands) := by
  obtain ⟨full, e, e0⟩ := pad_same index he 0 H
  obtain ⟨full', e', e1⟩ := pad_same index he 1 W
  obtain ⟨full'', e'', e2⟩ := pad_same index he 2 C
  rw [e] at e' e''; cases e'; cases e''
  simp only [getItem, e, Except.ok_bind', e0, e1, e2] at h
  unfold rasterioItem spectralItem
  simp only
  cases ey : rectify ((padIndex index).getD 0 .none) H with
  | error x => rw [ey] at h; cases h
  | ok y =>
    cases ex : rectify ((padIndex index).getD 1 .none) W with
    | error x => rw [ey, ex] at h; cases h
    | ok x =>
      cases ec : rectify ((padIndex index).getD 2 .none) C with
      | error x => rw [ey, ex, ec] at h; cases h
      | ok c =>
        rw [ey, ex, ec] at h
        simp only [Except.ok_bind'] at h ⊢
        cases ewy : windowOf y with
        | error x => rw [ewy] at h; cases h
        | ok wy =>
          cases ewx : windowOf x with
          | error x => rw [ewy, ewx] at h; cases h
          | ok wx =>
            rw [ewy, ewx] at h
            simp only [Except.ok_bind'] at h
            rw [boundsOf_window ewy, boundsOf_window ewx]
            simp only [Except.ok_bind']
            cases eg : gdalRead skip H wy with
            | error x => rw [eg] at h; cases h
            | ok r =>
              cases eg' : gdalRead skip W wx with
              | error x => rw [eg, eg'] at h; cases h
              | ok l =>
                rw [eg, eg'] at h
                simp only [Except.ok_bind'] at h
                cases h
                rw [windowRead_of eg hr, windowRead_of eg' hcl]
                simp only [Except.ok_bind']
                constructor
                · rw [if_pos, List.map_map]
                  · congr 3
                    conv => rhs; rw [← List.map_id (bandsOf C c)]
                    apply List.map_congr_left
                    intro b _
                    simp
                  · rw [List.all_eq_true]
                    intro b hbm
                    obtain ⟨b', hb', rfl⟩ := List.mem_map.1 hbm
                    have := hb b' hb'
                    simp only [decide_eq_true_eq]
                    omega
                · rw [if_pos]
                  rw [List.all_eq_true]
                  intro b hbm
                  simpa using hb b hbm

/-- A library that refuses everything that is not plain. -/
def strict : Beyond := ⟨fun _ _ _ => .error .generic, fun _ _ => .error .generic⟩

example : getItem false [.slice (some 1) none, .int 2] 3 4 5 = .ok ([1, 2], [2], [0, 1, 2, 3, 4]) ∧
    rasterioItem strict [.slice (some 1) none, .int 2] 3 4 5 = .ok ([1, 2], [2], [0, 1, 2, 3, 4]) ∧
    getItem false [.none, .none, .list [4, 0]] 1 2 5 = .ok ([0], [0, 1], [4, 0]) ∧
    spectralItem strict [.none, .none, .list [4, 0]] 1 2 5 = .ok ([0], [0, 1], [4, 0]) := by decide

/-- C59: conversely no reader selects anything else: what the rasterio reader reads within the file, the GDAL
reader reads. -/
theorem C59_nothing_else (o : Beyond) (skip : Bool) (index : List Part) (H W C : Nat) (rows cols : List Nat)
    (bands : List Int) (he : .ellipsis ∉ index)
    (ho : ∀ D a b, o.window D a b = .error .generic) (h : rasterioItem o index H W C = .ok (rows, cols, bands)) :
    getItem skip index H W C = .ok (rows, cols, bands) := by
  obtain ⟨full, e, e0⟩ := pad_same index he 0 H
  obtain ⟨full', e', e1⟩ := pad_same index he 1 W
  obtain ⟨full'', e'', e2⟩ := pad_same index he 2 C
  rw [e] at e' e''; cases e'; cases e''
  simp only [getItem, e, Except.ok_bind', e0, e1, e2]
  have win : ∀ {D : Nat} {r : RPart} {w : Int × Int} {l : List Nat}, boundsOf r = .ok w → windowRead o D w = .ok l →
      ∃ v, windowOf r = .ok v ∧ gdalRead skip D v = .ok l := by
    intro D r w l h1 h2
    cases r with
    | list is => cases h1
    | slice a b =>
      cases h1
      refine ⟨_, rfl, ?_⟩
      unfold windowRead at h2
      split at h2
      · rename_i hh
        cases h2
        unfold gdalRead
        simp only at hh ⊢
        rw [if_neg (by omega), if_pos ⟨hh.1, by omega, by omega⟩]
      · rw [ho] at h2; cases h2
  unfold rasterioItem at h
  simp only at h
  cases ey : rectify ((padIndex index).getD 0 .none) H with
  | error x => rw [ey] at h; cases h
  | ok y =>
    cases ex : rectify ((padIndex index).getD 1 .none) W with
    | error x => rw [ey, ex] at h; cases h
    | ok x =>
      cases ec : rectify ((padIndex index).getD 2 .none) C with
      | error x => rw [ey, ex, ec] at h; cases h
      | ok c =>
        rw [ey, ex, ec] at h
        simp only [Except.ok_bind'] at h ⊢
        cases ewy : boundsOf y with
        | error x => rw [ewy] at h; cases h
        | ok wy =>
          cases ewx : boundsOf x with
          | error x => rw [ewy, ewx] at h; cases h
          | ok wx =>
            rw [ewy, ewx] at h
            simp only [Except.ok_bind'] at h
            cases eg : windowRead o H wy with
            | error x => rw [eg] at h; cases h
            | ok r =>
              cases eg' : windowRead o W wx with
              | error x => rw [eg, eg'] at h; cases h
              | ok l =>
                rw [eg, eg'] at h
                simp only [Except.ok_bind'] at h
                split at h
                · cases h
                  obtain ⟨v, hv, gv⟩ := win ewy eg
                  obtain ⟨v', hv', gv'⟩ := win ewx eg'
                  rw [hv, hv']
                  simp only [Except.ok_bind', gv, gv']
                  congr 3
                  rw [List.map_map]
                  conv => lhs; rw [← List.map_id (bandsOf C c)]
                  apply List.map_congr_left
                  intro b _
                  simp
                · cases h

/-- C59, what fails: only the GDAL reader knows the ellipsis. -/
theorem C59_ellipsis_violated (o : Beyond) :
    getItem false [.ellipsis] 1 2 3 = .ok ([0], [0, 1], [0, 1, 2]) ∧
      rasterioItem o [.ellipsis] 1 2 3 = .error .typeError ∧ spectralItem o [.ellipsis] 1 2 3 = .error .typeError := by
  refine ⟨by decide, rfl, rfl⟩

/-- C59, what fails: a band counted from the end, which GDAL's reader passes on, is an error with rasterio. -/
theorem C59_last_band_violated (o : Beyond) :
    getItem false [.none, .none, .list [-1]] 1 1 3 = .ok ([0], [0], [-1]) ∧
      rasterioItem o [.none, .none, .list [-1]] 1 1 3 = .error .indexError := by
  refine ⟨by decide, ?_⟩
  rfl

/-! ### C60 -/

theorem sum_nonneg {l : List Int} (h : ∀ x ∈ l, 0 ≤ x) : 0 ≤ l.sum := by
  induction l with
  | nil => simp
  | cons x l ih =>
    have := h x (by simp)
    have := ih fun y hy => h y (by simp [hy])
    rw [List.sum_cons]; omega

theorem sum_pos_iff {l : List Int} (h : ∀ x ∈ l, 0 ≤ x) : 0 < l.sum ↔ ∃ x ∈ l, 0 < x := by
  induction l with
  | nil => simp
  | cons x l ih =>
    have h1 := h x (by simp)
    have h2 := sum_nonneg fun y hy => h y (List.mem_cons_of_mem x hy)
    have ih := ih fun y hy => h y (by simp [hy])
    rw [List.sum_cons]
    constructor
    · intro hp
      by_cases hx : 0 < x
      · exact ⟨x, by simp, hx⟩
      · obtain ⟨y, hy, hpos⟩ := ih.1 (by omega)
        exact ⟨y, by simp [hy], hpos⟩
    · rintro ⟨y, hy, hpos⟩
      rcases List.mem_cons.1 hy with rfl | hy
      · omega
      · have := ih.2 ⟨y, hy, hpos⟩
        omega

/-- The pixels of a selection. -/
theorem total_pos {f : Nat → Nat → Int → Int} (hf : ∀ y x c, 0 ≤ f y x c) (sel : List Nat × List Nat × List Int) :
    0 ≤ total f sel ∧ (0 < total f sel ↔ ∃ y ∈ sel.1, ∃ x ∈ sel.2.1, ∃ c ∈ sel.2.2, 0 < f y x c) := by
  have h : ∀ v ∈ (sel.1.flatMap fun y => sel.2.1.flatMap fun x => sel.2.2.map (f y x)), 0 ≤ v := by
    intro v hv
    simp only [List.mem_flatMap, List.mem_map] at hv
    obtain ⟨y, _, x, _, c, _, rfl⟩ := hv
    exact hf y x c
  refine ⟨sum_nonneg h, ?_⟩
  unfold total
  rw [sum_pos_iff h]
  simp only [List.mem_flatMap, List.mem_map]
  constructor
  · rintro ⟨v, ⟨y, hy, x, hx, c, hc, rfl⟩, hv⟩
    exact ⟨y, hy, x, hx, c, hc, hv⟩
  · rintro ⟨y, hy, x, hx, c, hc, hv⟩
    exact ⟨_, ⟨y, hy, x, hx, c, hc, rfl⟩, hv⟩

theorem getItem_two (skip : Bool) (y x : Part) (H W C : Nat) (hy : y ≠ .ellipsis) (hx : x ≠ .ellipsis) :
    getItem skip [y, x] H W C = getItem skip [y, x, .slice none none] H W C := by
  have := (C22_ellipsis skip [y, x] [] H W C (by simp [Ne.symm hy, Ne.symm hx]) (by simp) (by simp)).2
  simpa using this

theorem bands_all (C : Nat) : bandsRead (.slice none none) C = .ok ((List.range C).map (fun (n : Nat) => (n : Int))) := by
  have h := C22_slice_bands_partial C none none (by simp)
  simp only [bandsRead, rectify, Except.ok_bind', bandsOf, if_neg (show ¬ ((C : Int) < 0) by omega), Fused.pySlice,
    Fused.clampIdx, List.length_range]
  simp

theorem gdal_within {skip : Bool} {D : Nat} {w : Int × Int} {rows : List Nat} (h : gdalRead skip D w = .ok rows) :
    ∀ r ∈ rows, r < D := by
  unfold gdalRead at h
  split at h
  · split at h
    · cases h; simp
    · cases h
  · split at h
    · rename_i h1 h2
      cases h
      intro r hr
      obtain ⟨k, hk, rfl⟩ := List.mem_map.1 hr
      rw [List.mem_range] at hk
      omega
    · cases h

theorem rows_within {skip : Bool} {p : Part} {D : Nat} {rows : List Nat} (h : rowsRead skip p D = .ok rows) :
    ∀ r ∈ rows, r < D := by
  unfold rowsRead at h
  cases e : rectify p D with
  | error x => rw [e] at h; cases h
  | ok r =>
    rw [e] at h
    simp only [Except.ok_bind'] at h
    cases e' : windowOf r with
    | error x => rw [e'] at h; cases h
    | ok w =>
      rw [e'] at h
      exact gdal_within h

/-- Nothing is read from a file without rows or columns. -/
theorem empty_total {skip : Bool} {index : List Part} {H W C : Nat} {sel : List Nat × List Nat × List Int}
    (f : Nat → Nat → Int → Int) (h : getItem skip index H W C = .ok sel) (h0 : H = 0 ∨ W = 0) : total f sel = 0 := by
  unfold getItem at h
  cases e : expandIndex index with
  | error x => rw [e] at h; cases h
  | ok full =>
    rw [e] at h
    simp only [Except.ok_bind'] at h
    cases ey : rectify (full.getD 0 .none) H with
    | error x => rw [ey] at h; cases h
    | ok y =>
      cases ex : rectify (full.getD 1 .none) W with
      | error x => rw [ey, ex] at h; cases h
      | ok x =>
        cases ec : rectify (full.getD 2 .none) C with
        | error x => rw [ey, ex, ec] at h; cases h
        | ok c =>
          rw [ey, ex, ec] at h
          simp only [Except.ok_bind'] at h
          cases ewy : windowOf y with
          | error x => rw [ewy] at h; cases h
          | ok wy =>
            cases ewx : windowOf x with
            | error x => rw [ewy, ewx] at h; cases h
            | ok wx =>
              rw [ewy, ewx] at h
              simp only [Except.ok_bind'] at h
              cases eg : gdalRead skip H wy with
              | error x => rw [eg] at h; cases h
              | ok r =>
                cases eg' : gdalRead skip W wx with
                | error x => rw [eg, eg'] at h; cases h
                | ok l =>
                  rw [eg, eg'] at h
                  simp only [Except.ok_bind'] at h
                  cases h
                  have g := gdal_within eg
                  have g' := gdal_within eg'
                  rcases h0 with h0 | h0
                  · cases r with
                    | nil => rfl
                    | cons a r => exact absurd (g a (by simp)) (by omega)
                  · cases l with
                    | nil =>
                      unfold total
                      have : (r.flatMap fun y => ([] : List Nat).flatMap fun x => (bandsOf C c).map (f y x)) = [] := by
                        rw [List.flatMap_eq_nil_iff]; intro _ _; rfl
                      rw [this]; rfl
                    | cons a r => exact absurd (g' a (by simp)) (by omega)

theorem empty_scan {skip : Bool} {H W C : Nat} (f : Nat → Nat → Int → Int) (h0 : H = 0 ∨ W = 0) :
    ∀ (ds : List Int) (t : Int), scan skip f H W C ds 0 = .ok t → t = 0
  | [], t, h => by rw [scan] at h; cases h; rfl
  | d :: ds, t, h => by
    rw [scan] at h
    split at h
    · cases h
    · rename_i sel e
      rw [empty_total f e h0, if_neg (by omega)] at h
      exact empty_scan f h0 ds t h

theorem empty_none {skip : Bool} {H W C : Nat} (f : Nat → Nat → Int → Int) (h0 : H = 0 ∨ W = 0) :
    hasData skip f H W C = false := by
  unfold hasData
  split
  · rfl
  · rename_i t e
    rw [if_pos (empty_scan f h0 _ _ e)]
    split
    · rfl
    · rename_i sel e'
      rw [empty_total f e' h0]; rfl

/-- A window around the centre can be read. -/
theorem centre_reads (skip : Bool) (D : Nat) (hD : 0 < D) (d : Int) (hd : 0 < d) :
    ∃ rows, rowsRead skip (.slice (some ((D / 2 : Nat) - d)) (some ((D / 2 : Nat) + d))) D = .ok rows := by
  simp only [rowsRead, rectify, windowOf, Except.ok_bind', gdalRead]
  rw [if_neg (show ¬ (min (D : Int) ((D / 2 : Nat) + d) < 0) by omega), if_neg (by omega), if_pos (by omega)]
  exact ⟨_, rfl⟩

/-- Windows of both axes. -/
theorem scan_item (skip : Bool) (H W C : Nat) (y x : Part) (hy : y ≠ .ellipsis) (hx : x ≠ .ellipsis)
    (rows cols : List Nat) (h1 : rowsRead skip y H = .ok rows) (h2 : rowsRead skip x W = .ok cols) :
    getItem skip [y, x] H W C = .ok (rows, cols, (List.range C).map (fun (n : Nat) => (n : Int))) := by
  rw [getItem_two skip y x H W C hy hx, C22_axes_independent skip y x _ H W C _ _ _ hy hx (by simp)]
  exact ⟨h1, h2, bands_all C⟩

/-- There is a positive pixel in the file. -/
def SomePositive (f : Nat → Nat → Int → Int) (H W C : Nat) : Prop :=
  ∃ y < H, ∃ x < W, ∃ c < C, 0 < f y x (c : Nat)

theorem scan_sound {skip : Bool} {f : Nat → Nat → Int → Int} (hf : ∀ y x c, 0 ≤ f y x c) {H W C : Nat} (hH : 0 < H)
    (hW : 0 < W) : ∀ (ds : List Int) (t : Int), (∀ d ∈ ds, 0 < d) → 0 ≤ t → (0 < t → SomePositive f H W C) →
    ∃ t', scan skip f H W C ds t = .ok t' ∧ 0 ≤ t' ∧ (0 < t' → SomePositive f H W C)
  | [], t, _, h0, ht => ⟨t, rfl, h0, ht⟩
  | d :: ds, t, hd, h0, ht => by
    obtain ⟨rows, h1⟩ := centre_reads skip H hH d (hd d (by simp))
    obtain ⟨cols, h2⟩ := centre_reads skip W hW d (hd d (by simp))
    have e := scan_item skip H W C _ _ (by simp) (by simp) rows cols h1 h2
    have ht' : 0 < total f (rows, cols, (List.range C).map (fun (n : Nat) => (n : Int))) → SomePositive f H W C := by
      intro hp
      obtain ⟨y, hy, x, hx, c, hc, hpos⟩ := (total_pos hf _).2.1 hp
      obtain ⟨n, hn, rfl⟩ := List.mem_map.1 hc
      exact ⟨y, rows_within h1 y hy, x, rows_within h2 x hx, n, List.mem_range.1 hn, hpos⟩
    rw [scan]
    simp only [e]
    split
    · rename_i hp
      exact ⟨_, rfl, (total_pos hf _).1, ht'⟩
    · exact scan_sound hf hH hW ds _ (fun x hx => hd x (by simp [hx])) (total_pos hf _).1 ht'

/-- C60: for a file without negative pixels, of whatever size, the check says that there is data exactly if some
pixel is not zero; no pixel is overlooked.  Missing from the full statement:
negative pixels. -/
theorem C60_has_data_partial (skip : Bool) (f : Nat → Nat → Int → Int) (hf : ∀ y x c, 0 ≤ f y x c) (H W C : Nat) :
    hasData skip f H W C = true ↔ ∃ y < H, ∃ x < W, ∃ c < C, f y x (c : Nat) ≠ 0 := by
  have spec : SomePositive f H W C ↔ ∃ y < H, ∃ x < W, ∃ c < C, f y x (c : Nat) ≠ 0 := by
    constructor
    · rintro ⟨y, hy, x, hx, c, hc, h⟩; exact ⟨y, hy, x, hx, c, hc, by omega⟩
    · rintro ⟨y, hy, x, hx, c, hc, h⟩
      have := hf y x (c : Nat)
      exact ⟨y, hy, x, hx, c, hc, by omega⟩
  rw [← spec]
  by_cases hH : 0 < H
  · by_cases hW : 0 < W
    · obtain ⟨t, e, h0, ht⟩ := scan_sound (skip := skip) hf hH hW [8, 512, 2048, 5000] 0 (by decide) (by decide)
        (fun h => absurd h (by decide)) (C := C)
      unfold hasData
      rw [e]
      simp only
      split
      · have full : getItem skip [.slice none none] H W C =
            .ok (List.range H, List.range W, (List.range C).map (fun (n : Nat) => (n : Int))) := by
          have := (C22_ellipsis skip [.slice none none] [] H W C (by simp) (by simp) (by simp)).2
          have e2 : getItem skip [.slice none none] H W C =
              getItem skip [.slice none none, .slice none none, .slice none none] H W C := by simpa using this
          rw [e2, C22_axes_independent skip _ _ _ H W C _ _ _ (by simp) (by simp) (by simp)]
          exact ⟨(C22_full_axis skip H hH).2, (C22_full_axis skip W hW).2, bands_all C⟩
        rw [full]
        simp only [decide_eq_true_eq]
        rw [(total_pos hf _).2]
        constructor
        · rintro ⟨y, hy, x, hx, c, hc, hpos⟩
          obtain ⟨n, hn, rfl⟩ := List.mem_map.1 hc
          exact ⟨y, List.mem_range.1 hy, x, List.mem_range.1 hx, n, List.mem_range.1 hn, hpos⟩
        · rintro ⟨y, hy, x, hx, c, hc, hpos⟩
          exact ⟨y, List.mem_range.2 hy, x, List.mem_range.2 hx, _, List.mem_map.2 ⟨c, List.mem_range.2 hc, rfl⟩, hpos⟩
      · rename_i hne
        simp only [decide_eq_true_eq]
        exact ⟨ht, fun _ => by omega⟩
    · rw [empty_none f (.inr (by omega))]
      exact ⟨fun h => (by cases h), fun ⟨y, hy, x, hx, _⟩ => absurd hx (by omega)⟩
  · rw [empty_none f (.inl (by omega))]
    exact ⟨fun h => (by cases h), fun ⟨y, hy, _⟩ => absurd hy (by omega)⟩

example : hasData false (fun y x _ => if y = 40 ∧ x = 0 then 3 else 0) 41 2 1 = true ∧
    hasData false (fun _ _ _ => 0) 4 2 1 = false := by decide +kernel

/-- C60, what fails: negative pixels around the centre hide all others, and opposite pixels cancel. -/
theorem C60_negative_violated :
    hasData false (fun _ _ _ => -1) 2 2 1 = false ∧
    hasData false (fun y _ _ => if y = 0 then 1 else -1) 2 1 1 = false := by decide +kernel

end Verif.Props
