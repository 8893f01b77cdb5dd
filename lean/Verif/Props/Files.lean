/-
C75: an operation tree over files shows the pixels stored in the files.
-/
import Verif.Files
import Verif.Props.Gdal
import Verif.Props.Resize
import Verif.Props.Shape
import Verif.Props.Fix

namespace Verif.Props

open Verif.Tree Verif.Tree.Node Verif.Gdal Verif.Helpers
open Verif.Loader (Part rowsRead bandsRead)

/-! ### Specification -/

/-- The picture stored in a file at a level: the pixels of its bands there, with the no-data pixels shown
as the method says. -/
noncomputable def picture (f : File) (o : Nat) (m : Option Str) : Img Val where
  h := match levelOf o f.first with | none => 0 | some p => p.h
  w := match levelOf o f.first with | none => 0 | some p => p.w
  n := f.bands.length
  px := fun y x k =>
    match f.bands[k]? with
    | none => .nan
    | some b =>
      match levelOf o b with
      | none => .nan
      | some p => (shown m p (p.px y x)).1

/-- The file and the level an operation tree stands for, if it does nothing but choose an overview that
the file has. -/
def levelIn (G : Files) : Node → Option (Nat × Int)
  | .leaf l =>
    if l.nan then none
    else
      match G.file l.id with
      | none => none
      | some _ => some (l.id, 0)
  | .concat [p] _ => levelIn G p
  | .concat _ _ => none
  | .overview s k _ =>
    match levelIn G s with
    | none => none
    | some (id, o) =>
      match G.file id with
      | none => none
      | some f => if o + k ≤ f.first.ovs.length then some (id, o + k) else none
  | .warp _ _ _ _ => none
  | .crop _ _ _ _ _ _ => none
  | .dequant _ _ _ => none

/-- The arrays that files stand for: a leaf is the picture in its file, and an overview of a file is the
picture stored there, if there is one. -/
noncomputable def pictures (G : Files) : Env Val :=
  { G.E with
    img := fun id =>
      match G.file id with
      | none => G.E.img id
      | some f => picture f 0 (G.method id)
    overview := fun s k i =>
      match levelIn G (.overview s k (0, 0)) with
      | none => G.shrink k i
      | some (id, o) =>
        match G.file id with
        | none => G.shrink k i
        | some f => picture f o.toNat (G.method id) }

/-- Files with bands of one type and, at each level, of one size, which is not zero; and resampling that
looks only at pixels. -/
structure RegularFiles (G : Files) : Prop where
  level : ∀ id f, G.file id = some f → ∀ o, o ≤ f.first.ovs.length →
    ∃ d h w, RegularFile f o d h w ∧ 0 < h ∧ 0 < w
  method : ∀ id, Known (G.method id)
  reads : Env.Reads G.E
  shrink : ∀ k {i j}, i.Same j → (G.shrink k i).Same (G.shrink k j)

mutual
/-- Every crop shows something, and overviews that have to be simulated are not of one-band files. -/
def InView (G : Files) : Node → Prop
  | .leaf _ => True
  | .concat ps _ => InViewL G ps
  | .warp s _ _ _ => InView G s
  | .crop s y0 y1 x0 x1 c => InView G s ∧ 0 ≤ y0 ∧ 0 ≤ x0 ∧ c ≠ some [] ∧
      ∀ i, fin (pictures G) s = .ok i →
        npSlice i.h (some y0) (some y1) ≠ [] ∧ npSlice i.w (some x0) (some x1) ≠ []
  | .overview s k d => InView G s ∧ 0 ≤ k ∧
      (levelIn G s = none ∨ levelIn G (.overview s k d) ≠ none ∨
        ∀ i, fin (pictures G) s = .ok i → i.n ≠ 1)
  | .dequant s _ _ => InView G s
def InViewL (G : Files) : List Node → Prop
  | [] => True
  | p :: ps => InView G p ∧ InViewL G ps
end

/-! ### Lemmas -/

namespace FilesAux

theorem getItem_one (W : World) (l : Lazy) (s : Option Int × Option Int) :
    getItem W l [.slice s.1 s.2] =
      getItem W l [.slice s.1 s.2, .slice none none, .slice none none] := rfl

theorem getItem_two (W : World) (l : Lazy) (s t : Option Int × Option Int) :
    getItem W l [.slice s.1 s.2, .slice t.1 t.2] =
      getItem W l [.slice s.1 s.2, .slice t.1 t.2, .slice none none] := rfl

theorem picture_size {f : File} {o : Nat} {d : DType} {h w : Nat} (R : RegularFile f o d h w)
    (m : Option Str) : (picture f o m).h = h ∧ (picture f o m).w = w := by
  obtain ⟨p, hp, _, hh, hw, _⟩ := R.level f.first (List.mem_cons_self ..)
  simp [picture, hp, hh, hw]

theorem getD_map_lt {α β : Type} (g : α → β) (xs : List α) (da : α) (db : β) {i : Nat}
    (h : i < xs.length) : (xs.map g).getD i db = g (xs.getD i da) := by
  simp [List.getD, List.getElem?_eq_getElem h]

theorem read_ok {W : World} {f : File} {o : Nat} {m : Option Str} {d : DType} {h w : Nat}
    (R : RegularFile f o d h w) (hm : Known m) {y x c : Part} {rows cols cs : List Nat}
    (hy : y ≠ .ellipsis) (hx : x ≠ .ellipsis) (hc : c ≠ .ellipsis)
    (hrows : rowsRead W.skip y h = .ok rows) (hcols : rowsRead W.skip x w = .ok cols)
    (hbands : bandsRead c f.bands.length = .ok (cs.map (fun (k : Nat) => (k : Int))))
    (hr : rows ≠ []) (hco : cols ≠ []) (hne : cs ≠ []) (hin : ∀ k ∈ cs, k < f.bands.length) :
    ∃ a, getItem W { file := f, overview := o, method := m } [y, x, c] = .ok a ∧
      a.flat = decide (cs.length = 1) ∧
      (ofArr a).Same ⟨rows.length, cols.length, cs.length, fun i j k =>
        (picture f o m).px (rows.getD i 0) (cols.getD j 0) (cs.getD k 0)⟩ := by
  obtain ⟨ps, hps, hget⟩ := C47_pixels W f o m d h w R hm y x c rows cols _ hy hx hc hrows hcols hbands
    (by simpa using hne) (by
      intro b hb
      obtain ⟨k, hk, rfl⟩ := List.mem_map.1 hb
      have := hin k hk
      omega)
  obtain ⟨hlen, hpick⟩ := List.forall₂_iff_get.1 hps
  rw [List.length_map] at hlen
  have h0 : 0 < rows.length := List.length_pos_of_ne_nil hr
  have h1 : 0 < cols.length := List.length_pos_of_ne_nil hco
  have hd : ∀ i j, i < rows.length → j < cols.length →
      ((wanted m d rows cols ps).data.getD i []).getD j [] =
        ps.map (fun p => shown m p (p.px (rows.getD i 0) (cols.getD j 0))) := by
    intro i j hi hj
    simp only [wanted]
    rw [getD_map_lt _ rows 0 [] hi, getD_map_lt _ cols 0 [] hj]
  refine ⟨_, hget, by simp [wanted, hlen], ?_, ?_, ?_, ?_⟩
  · simp [ofArr, wanted]
  · show ((wanted m d rows cols ps).data.getD 0 []).length = cols.length
    simp only [wanted]
    rw [getD_map_lt _ rows 0 [] h0]
    simp
  · show (((wanted m d rows cols ps).data.getD 0 []).getD 0 []).length = cs.length
    rw [hd 0 0 h0 h1]
    simp [hlen]
  · intro i j k hi hj hk
    have hi' : i < rows.length := by simpa [ofArr, wanted] using hi
    have hj' : j < cols.length := by
      have : j < ((wanted m d rows cols ps).data.getD 0 []).length := hj
      simp only [wanted] at this
      rw [getD_map_lt _ rows 0 [] h0] at this
      simpa using this
    have hk' : k < ps.length := by
      have : k < (((wanted m d rows cols ps).data.getD 0 []).getD 0 []).length := hk
      rw [hd 0 0 h0 h1] at this
      simpa using this
    show (((((wanted m d rows cols ps).data.getD i []).getD j []).getD k (.nan, false))).1 = _
    rw [hd i j hi' hj', getD_map_lt _ ps ps[k] (Val.nan, false) hk', List.getD_eq_getElem _ _ hk']
    have hkc : k < cs.length := by omega
    obtain ⟨n, hn, band, hb, hl⟩ := hpick k (by simpa using hkc) hk'
    simp only [List.get_eq_getElem, List.getElem_map] at hn hl
    have e : n = cs.getD k 0 := by
      rw [List.getD_eq_getElem _ _ hkc]
      rcases hn with hn | ⟨hn, hn'⟩ <;> omega
    subst e
    simp only [picture, hb, hl]

theorem npSlice_all (D : Nat) : npSlice D none none = List.range D := by
  rw [npSlice, List.filter_eq_self]
  intro k hk
  rw [List.mem_range] at hk
  simp; omega

theorem bands_all (C : Nat) :
    bandsRead (.slice none none) C = .ok ((List.range C).map (fun (k : Nat) => (k : Int))) := by
  rw [C22_slice_bands_partial C none none (by simp) (by simp), npSlice_all]

theorem range_getD {n i : Nat} (h : i < n) : (List.range n).getD i 0 = i := by
  rw [List.getD_eq_getElem _ _ (by simpa using h)]
  simp

theorem bands_ne (f : File) : List.range f.bands.length ≠ [] := by
  simp [File.bands]

/-- The whole of a lazy reference. -/
theorem load_ref {G : Files} {f : File} {o : Nat} {m : Option Str} {d : DType} {h w : Nat}
    (R : RegularFile f o d h w) (h0 : 0 < h) (w0 : 0 < w) (hm : Known m) :
    ∃ j, G.load (.ref ⟨f, o, m⟩) = .ok (decide (f.bands.length = 1), j) ∧ j.Same (picture f o m) := by
  obtain ⟨a, h1, h2, h3⟩ := read_ok (W := G.W) R hm (y := .slice none none) (x := .slice none none)
    (c := .slice none none) (by simp) (by simp) (by simp) (C22_full_axis _ h h0).2
    (C22_full_axis _ w w0).2 (bands_all _) (by simp; omega) (by simp; omega) (bands_ne f)
    (fun k hk => List.mem_range.1 hk)
  refine ⟨ofArr a, ?_, ?_⟩
  · simp only [Files.load, Files.read]
    rw [getItem_one G.W _ (none, none), h1]
    simp [h2]
  · obtain ⟨e1, e2⟩ := picture_size R m
    obtain ⟨s1, s2, s3, s4⟩ := h3
    simp only [List.length_range] at s1 s2 s3
    refine ⟨s1.trans e1.symm, s2.trans e2.symm, s3, fun y x k hy hx hk => ?_⟩
    rw [s4 y x k hy hx hk]
    simp only []
    rw [range_getD (by omega), range_getD (by omega), range_getD (by omega)]

/-- A window of a lazy reference. -/
theorem cut_ref {G : Files} {f : File} {o : Nat} {m : Option Str} {d : DType} {h w : Nat}
    (R : RegularFile f o d h w) (hm : Known m) {y0 y1 x0 x1 : Int} {c : Option (List Nat)}
    (hy0 : 0 ≤ y0) (hx0 : 0 ≤ x0) (hc : c ≠ some [])
    (hr : npSlice h (some y0) (some y1) ≠ []) (hco : npSlice w (some x0) (some x1) ≠ []) {i : Img Val}
    (hi : ((picture f o m).slice (some y0, some y1) (some x0, some x1)).select c = .ok i) :
    ∃ j, G.cut y0 y1 x0 x1 c (.ref ⟨f, o, m⟩) = .ok (.arr false j) ∧ j.Same i := by
  obtain ⟨e1, e2⟩ := picture_size R m
  have hrows := C22_slice_rows_partial G.W.skip h (some y0) (some y1) (by simpa using hy0) hr
  have hcols := C22_slice_rows_partial G.W.skip w (some x0) (some x1) (by simpa using hx0) hco
  cases c with
  | none =>
    simp only [Img.select] at hi
    cases hi
    obtain ⟨a, h1, h2, s1, s2, s3, s4⟩ := read_ok (W := G.W) R hm (y := .slice (some y0) (some y1))
      (x := .slice (some x0) (some x1)) (c := .slice none none) (by simp) (by simp) (by simp) hrows hcols
      (bands_all _) hr hco (bands_ne f) (fun k hk => List.mem_range.1 hk)
    refine ⟨ofArr a, ?_, ?_⟩
    · simp only [Files.cut, Files.read]
      rw [getItem_two G.W _ (some y0, some y1) (some x0, some x1), h1]
    · unfold Img.slice
      rw [e1, e2]
      simp only [List.length_range] at s3
      refine ⟨s1, s2, s3, fun y x k hy hx hk => ?_⟩
      rw [s4 y x k hy hx hk]
      simp only []
      rw [range_getD (by omega)]
  | some cs =>
    simp only [Img.select] at hi
    split at hi
    · rename_i hall
      cases hi
      have hin : ∀ k ∈ cs, k < f.bands.length := fun k hk => of_decide_eq_true (List.all_eq_true.1 hall k hk)
      obtain ⟨a, h1, h2, s1, s2, s3, s4⟩ := read_ok (W := G.W) R hm (y := .slice (some y0) (some y1))
        (x := .slice (some x0) (some x1)) (c := .list (cs.map (fun (k : Nat) => (k : Int))))
        (by simp) (by simp) (by simp) hrows hcols (cs := cs) rfl hr hco (by simpa using hc) hin
      refine ⟨ofArr a, ?_, ?_⟩
      · simp only [Files.cut, Files.read, List.cons_append, List.nil_append]
        rw [h1]
      · unfold Img.slice
        rw [e1, e2]
        exact ⟨s1, s2, s3, s4⟩
    · cases hi

/-- How what is handed on stands for an array. -/
def Stands (G : Files) (r : Seen) (lv : Option (Nat × Int)) (i : Img Val) : Prop :=
  match lv with
  | some (id, o) => ∃ f, ∃ k : Nat, G.file id = some f ∧ o = k ∧ k ≤ f.first.ovs.length ∧
      r = .ref ⟨f, k, G.method id⟩ ∧ i = picture f k (G.method id)
  | none => ∃ j, r = .arr false j ∧ j.Same i

theorem load_ok {G : Files} (hG : RegularFiles G) {r : Seen} {lv : Option (Nat × Int)} {i : Img Val}
    (h : Stands G r lv i) : ∃ j, G.load r = .ok (lv.isSome && decide (i.n = 1), j) ∧ j.Same i := by
  cases lv with
  | none =>
    obtain ⟨j, rfl, hj⟩ := h
    exact ⟨j, by simp [Files.load], hj⟩
  | some p =>
    obtain ⟨id, o⟩ := p
    obtain ⟨f, k, hf, rfl, hk, rfl, rfl⟩ := h
    obtain ⟨d, h, w, R, h0, w0⟩ := hG.level id f hf k hk
    obtain ⟨j, h1, h2⟩ := load_ref (G := G) R h0 w0 (hG.method id)
    exact ⟨j, h1, h2⟩

theorem reads_pictures {G : Files} (hG : RegularFiles G) : Env.Reads (pictures G) :=
  ⟨hG.reads.warp, hG.reads.resize⟩

theorem same_catAll {V : Type} : ∀ {as bs : List (Img V)} {i : Img V},
    List.Forall₂ Img.Same as bs → catAll bs = .ok i → ∃ j, catAll as = .ok j ∧ j.Same i
  | _, _, _, .nil, h => by cases h
  | _, _, i, .cons (a := a) (b := b) h1 (.nil), h => by
    simp only [catAll] at h ⊢
    cases h
    exact ⟨a, rfl, h1⟩
  | _, _, i, .cons (a := a) (b := b) h1 (.cons (a := a') (b := b') h2 hs), h => by
    simp only [catAll] at h ⊢
    rename_i as bs
    cases hb : catAll (b' :: bs) with
    | error e => simp only [hb] at h; cases h
    | ok t =>
      simp only [hb] at h
      obtain ⟨t', ht, hts⟩ := same_catAll (.cons h2 hs) hb
      simp only [ht]
      split at h
      · rename_i hc
        cases h
        rw [if_pos ⟨by rw [h1.h, hts.h]; exact hc.1, by rw [h1.w, hts.w]; exact hc.2⟩]
        refine ⟨_, rfl, h1.h, h1.w, by simp [Img.cat, h1.n, hts.n], fun y x k hy hx hk => ?_⟩
        simp only [Img.cat] at hy hx hk ⊢
        rw [← h1.n]
        split
        · rename_i hlt
          exact h1.px y x k hy hx hlt
        · refine hts.px y x _ ?_ ?_ (by omega)
          · rw [hts.h, ← hc.1, ← h1.h]; exact hy
          · rw [hts.w, ← hc.2, ← h1.w]; exact hx
      · cases h

end FilesAux
open FilesAux

theorem loadAll_ok {G : Files} (hG : RegularFiles G) : ∀ {ps : List Node} {rs : List Seen} {is : List (Img Val)},
    List.Forall₂ (fun (q : Seen × Node) i => Stands G q.1 (levelIn G q.2) i) (rs.zip ps) is →
    rs.length = ps.length →
    ∃ js, G.loadAll rs = .ok js ∧ List.Forall₂ Img.Same js is
  | [], [], _, h, _ => by cases h; exact ⟨[], rfl, .nil⟩
  | [], _ :: _, _, _, e => by cases e
  | _ :: _, [], _, _, e => by cases e
  | p :: ps, r :: rs, _, h, e => by
    rw [List.zip_cons_cons] at h
    cases h with
    | cons h1 h2 =>
      obtain ⟨j, e1, e2⟩ := load_ok hG h1
      obtain ⟨js, e3, e4⟩ := loadAll_ok hG h2 (by simpa using e)
      exact ⟨j :: js, by simp [Files.loadAll, e1, e3], .cons e2 e4⟩

mutual
theorem see_ok {G : Files} (hG : RegularFiles G) : ∀ (n : Node) (i : Img Val), InView G n →
    fin (pictures G) n = .ok i → ∃ r, see G n = .ok r ∧ Stands G r (levelIn G n) i
  | .leaf l, i, _, h => by
    unfold Tree.fin at h
    unfold Tree.see levelIn
    split at h
    · rename_i hn
      rw [if_pos hn, if_pos hn]
      split at h
      · cases h
      · rename_i hneg
        cases h
        rw [if_neg hneg]
        exact ⟨_, rfl, _, rfl, Img.Same.refl _⟩
    · rename_i hn
      rw [if_neg hn, if_neg hn]
      cases h
      cases hf : G.file l.id with
      | none =>
        refine ⟨_, rfl, _, rfl, ?_⟩
        simp only [pictures, hf]
        exact Img.Same.refl _
      | some f =>
        refine ⟨_, rfl, f, 0, hf, rfl, Nat.zero_le _, rfl, ?_⟩
        simp only [pictures, hf]
  | .concat ps d, i, hs, h => by
    unfold Tree.fin at h
    unfold Tree.see
    have hs' : InViewL G ps := by simpa only [InView] using hs
    cases hl : finL (pictures G) ps with
    | error e => simp only [hl] at h; cases h
    | ok is =>
      simp only [hl] at h
      obtain ⟨rs, h1, h2, h3⟩ := seeL_ok hG ps is hs' hl
      simp only [h1]
      cases ps with
      | nil =>
        have : rs = [] := List.length_eq_zero_iff.1 h3
        subst this
        cases h2
        cases h
      | cons p ps =>
        cases ps with
        | nil =>
          cases rs with
          | nil => cases h3
          | cons r rs =>
            have : rs = [] := List.length_eq_zero_iff.1 (by simpa using h3)
            subst this
            cases h2 with
            | cons h4 h5 =>
              cases h5
              simp only [catAll] at h
              cases h
              exact ⟨r, rfl, by unfold levelIn; exact h4⟩
        | cons p' ps =>
          obtain ⟨js, e1, e2⟩ := loadAll_ok hG h2 h3
          obtain ⟨j, e3, e4⟩ := same_catAll e2 h
          cases rs with
          | nil => cases h3
          | cons r rs =>
            cases rs with
            | nil => simp at h3
            | cons r' rs =>
              refine ⟨.arr false j, ?_, ?_⟩
              · simp only [Files.join, e1, e3]
              · unfold levelIn
                exact ⟨j, rfl, e4⟩
  | .warp s tf d a, i, hs, h => by
    unfold Tree.fin at h
    unfold Tree.see
    cases hf : fin (pictures G) s with
    | error e => simp only [hf] at h; cases h
    | ok i' =>
      simp only [hf] at h
      obtain ⟨r, h1, h2⟩ := see_ok hG s i' (by simpa only [InView] using hs) hf
      obtain ⟨j, h3, h4⟩ := load_ok hG h2
      simp only [h1, h3]
      have h5 := same_finWarp hG.reads h4 tf d a
      have h6 : finWarp G.E tf d a i' = .ok i := h
      rw [h6] at h5
      cases hw : finWarp G.E tf d a j with
      | error e => rw [hw] at h5; cases h5
      | ok j' =>
        rw [hw] at h5
        exact ⟨_, rfl, by unfold levelIn; exact ⟨j', rfl, h5⟩⟩
  | .crop s y0 y1 x0 x1 c, i, hs, h => by
    unfold Tree.fin at h
    unfold Tree.see
    obtain ⟨hs', hy0, hx0, hc, hne⟩ : InView G s ∧ 0 ≤ y0 ∧ 0 ≤ x0 ∧ c ≠ some [] ∧ _ := by
      simpa only [InView] using hs
    cases hf : fin (pictures G) s with
    | error e => simp only [hf] at h; cases h
    | ok i' =>
      simp only [hf] at h
      obtain ⟨r, h1, h2⟩ := see_ok hG s i' hs' hf
      simp only [h1]
      obtain ⟨n1, n2⟩ := hne i' hf
      unfold levelIn
      cases hl : levelIn G s with
      | none =>
        rw [hl] at h2
        obtain ⟨j, rfl, hj⟩ := h2
        have h5 := same_crop hj (some y0, some y1) (some x0, some x1) c
        rw [h] at h5
        simp only [Files.cut, Bool.false_and, Bool.false_eq_true, if_false]
        cases hw : (j.slice (some y0, some y1) (some x0, some x1)).select c with
        | error e => rw [hw] at h5; cases h5
        | ok j' =>
          rw [hw] at h5
          exact ⟨_, rfl, j', rfl, h5⟩
      | some q =>
        obtain ⟨id, o⟩ := q
        rw [hl] at h2
        obtain ⟨f, k, hf', rfl, hk, rfl, rfl⟩ := h2
        obtain ⟨d, hh, ww, R, h0, w0⟩ := hG.level id f hf' k hk
        obtain ⟨e1, e2⟩ := picture_size R (G.method id)
        rw [e1] at n1
        rw [e2] at n2
        obtain ⟨j, e3, e4⟩ := cut_ref (G := G) R (hG.method id) hy0 hx0 hc n1 n2 h
        exact ⟨_, e3, j, rfl, e4⟩
  | .overview s k d, i, hs, h => by
    unfold Tree.fin at h
    unfold Tree.see
    obtain ⟨hs', hk0, hov⟩ : InView G s ∧ 0 ≤ k ∧ _ := by simpa only [InView] using hs
    cases hf : fin (pictures G) s with
    | error e => simp only [hf] at h; cases h
    | ok i' =>
      simp only [hf] at h
      obtain ⟨r, h1, h2⟩ := see_ok hG s i' hs' hf
      simp only [h1]
      have hlev : levelIn G (.overview s k (0, 0)) = levelIn G (.overview s k d) := by
        simp only [levelIn]
      cases h
      cases hl : levelIn G s with
      | none =>
        rw [hl] at h2
        obtain ⟨j, rfl, hj⟩ := h2
        have e : levelIn G (.overview s k d) = none := by simp only [levelIn, hl]
        rw [e]
        refine ⟨_, rfl, _, rfl, ?_⟩
        simp only [pictures, hlev, e]
        exact hG.shrink k hj
      | some q =>
        obtain ⟨id, o⟩ := q
        rw [hl] at h2
        have hst := h2
        obtain ⟨f, m, hf', rfl, hm, rfl, rfl⟩ := h2
        by_cases hin : (m : Int) + k ≤ f.first.ovs.length
        · have e : levelIn G (.overview s k d) = some (id, (m : Int) + k) := by
            simp only [levelIn, hl, hf', if_pos hin]
          rw [e]
          have en : ((m : Int) + k).toNat = m + k.toNat := by omega
          refine ⟨.ref ⟨f, k + m, G.method id⟩, ?_, f, m + k.toNat, hf', by omega, by omega, ?_, ?_⟩
          · exact if_pos (show (f.first.ovs.length : Int) - (m : Int) ≥ k by omega)
          · congr 2
            omega
          · simp only [pictures, hlev, e, hf', en]
        · have e : levelIn G (.overview s k d) = none := by
            simp only [levelIn, hl, hf', if_neg hin]
          rw [e]
          have hn1 : (picture f m (G.method id)).n ≠ 1 := by
            rcases hov with hov | hov | hov
            · rw [hl] at hov; cases hov
            · exact absurd e hov
            · exact hov _ hf
          obtain ⟨j, h3, h4⟩ := load_ok hG hst
          rw [decide_eq_false hn1] at h3
          have h3' : G.read ⟨f, m, G.method id⟩ [.slice none none] = .ok (false, j) := by
            simpa [Files.load] using h3
          refine ⟨.arr false (G.shrink k j), ?_, _, rfl, ?_⟩
          · refine (if_neg (show ¬ (f.first.ovs.length : Int) - (m : Int) ≥ k by omega)).trans ?_
            rw [h3']
          · simp only [pictures, hlev, e]
            exact hG.shrink k h4
  | .dequant s q d, i, hs, h => by
    unfold Tree.fin at h
    unfold Tree.see
    cases hf : fin (pictures G) s with
    | error e => simp only [hf] at h; cases h
    | ok i' =>
      simp only [hf] at h
      obtain ⟨r, h1, h2⟩ := see_ok hG s i' (by simpa only [InView] using hs) hf
      obtain ⟨j, h3, h4⟩ := load_ok hG h2
      simp only [h1, h3]
      cases h
      refine ⟨_, rfl, ?_⟩
      unfold levelIn
      exact ⟨_, rfl, h4.h, h4.w, h4.n, fun y x k hy hx hk => congrArg (G.E.deq q) (h4.px y x k hy hx hk)⟩
theorem seeL_ok {G : Files} (hG : RegularFiles G) : ∀ (ps : List Node) (is : List (Img Val)), InViewL G ps →
    finL (pictures G) ps = .ok is →
    ∃ rs, seeL G ps = .ok rs ∧
      List.Forall₂ (fun (q : Seen × Node) i => Stands G q.1 (levelIn G q.2) i) (rs.zip ps) is ∧
      rs.length = ps.length
  | [], is, _, h => by
    unfold Tree.finL at h
    cases h
    exact ⟨[], by unfold Tree.seeL; rfl, .nil, rfl⟩
  | p :: ps, is, hs, h => by
    unfold Tree.finL at h
    unfold Tree.seeL
    obtain ⟨hs1, hs2⟩ : InView G p ∧ InViewL G ps := by simpa only [InViewL] using hs
    cases hf : fin (pictures G) p with
    | error e => simp only [hf] at h; cases h
    | ok i =>
      simp only [hf] at h
      cases hl : finL (pictures G) ps with
      | error e => simp only [hl] at h; cases h
      | ok is' =>
        simp only [hl] at h
        cases h
        obtain ⟨r, h1, h2⟩ := see_ok hG p i hs1 hf
        obtain ⟨rs, h3, h4, h5⟩ := seeL_ok hG ps is' hs2 hl
        refine ⟨r :: rs, by simp only [h1, h3], ?_, by simp [h5]⟩
        rw [List.zip_cons_cons]
        exact .cons h2 h4
end

/-! ### C75 -/

/-- C75: an operation tree over regular files finalizes to the pixels computed from the pictures in the
files: crops and overviews that are passed on to GDAL give what they give on the whole picture.  The
array has two dimensions just if nothing but an overview was asked of a one-band file.  Missing: crops
that show nothing, simulated overviews of one-band files and irregular files. -/
theorem C75_pixels_partial (G : Files) (hG : RegularFiles G) (n : Node) (i : Img Val) (hn : InView G n)
    (hi : fin (pictures G) n = .ok i) :
    ∃ j, finalSee G n = .ok ((levelIn G n).isSome && decide (i.n = 1), j) ∧ j.Same i := by
  obtain ⟨r, h1, h2⟩ := see_ok hG n i hn hi
  obtain ⟨j, h3, h4⟩ := load_ok hG h2
  exact ⟨j, by simp only [finalSee, h1, h3], h4⟩

/-- C75 for `finalize()`, which optimizes first: what the optimized tree shows of the files is what it
shows of the pictures in them. -/
theorem C75_optimized_partial (H : Heur) (G : Files) (hG : RegularFiles G) (fuel : Nat) (n m : Node)
    (i : Img Val) (hm : opt H fuel n = .ok m) (hn : InView G m)
    (hi : finalize H (pictures G) fuel n = .ok i) :
    ∃ j flat, finalizeFiles H G fuel n = .ok (flat, j) ∧ j.Same i ∧ (flat = true → i.n = 1) := by
  simp only [finalize, hm] at hi
  obtain ⟨j, h1, h2⟩ := C75_pixels_partial G hG m i hn hi
  refine ⟨j, _, (show finalizeFiles H G fuel n = _ by simp only [finalizeFiles, hm]; exact h1), h2, fun h => ?_⟩
  rw [Bool.and_eq_true] at h
  exact of_decide_eq_true h.2

mutual
/-- No overviews are asked for, and no crop is empty. -/
def Filled : Node → Prop
  | .leaf _ => True
  | .concat ps _ => FilledL ps
  | .warp s _ _ _ => Filled s
  | .crop s y0 y1 x0 x1 c => Filled s ∧ y0 < y1 ∧ x0 < x1 ∧ c ≠ some []
  | .overview _ _ _ => False
  | .dequant s _ _ => Filled s
def FilledL : List Node → Prop
  | [] => True
  | p :: ps => Filled p ∧ FilledL ps
end

mutual
theorem fin_overview {V : Type} (E : Env V) (g : Node → Int → Img V → Img V) : ∀ n : Node, Filled n →
    fin { E with overview := g } n = fin E n
  | .leaf l, _ => by unfold Tree.fin; rfl
  | .concat ps _, h => by
    unfold Tree.fin
    rw [finL_overview E g ps (by simpa only [Filled] using h)]
  | .warp s _ _ _, h => by
    unfold Tree.fin
    rw [fin_overview E g s (by simpa only [Filled] using h)]
    rfl
  | .crop s _ _ _ _ _, h => by
    unfold Tree.fin
    simp only [Filled] at h
    rw [fin_overview E g s h.1]
  | .overview s _ _, h => by
    simp only [Filled] at h
  | .dequant s _ _, h => by
    unfold Tree.fin
    rw [fin_overview E g s (by simpa only [Filled] using h)]
theorem finL_overview {V : Type} (E : Env V) (g : Node → Int → Img V → Img V) : ∀ ps : List Node,
    FilledL ps → finL { E with overview := g } ps = finL E ps
  | [], _ => by unfold Tree.finL; rfl
  | p :: ps, h => by
    unfold Tree.finL
    have h' : Filled p ∧ FilledL ps := by simpa only [FilledL] using h
    rw [fin_overview E g p h'.1, finL_overview E g ps h'.2]
end

/-- The pictures, with overviews made by resampling. -/
noncomputable def flatPictures (G : Files) : Env Val := { pictures G with overview := G.E.overview }

theorem flatPictures_shaped {G : Files} (h : Env.Shaped G.E) : Env.Shaped (flatPictures G) :=
  ⟨h.warp, h.resize, h.overview⟩

theorem fin_flatPictures (G : Files) {n : Node} (h : Filled n) : fin (flatPictures G) n = fin (pictures G) n :=
  fin_overview (pictures G) _ n h

mutual
theorem filled_inView {G : Files} (hE : Env.Shaped G.E) : ∀ n : Node, WF n → Fit n →
    Each (flatPictures G).Matches n → Filled n → InView G n
  | .leaf _, _, _, _, _ => by simp only [InView]
  | .concat ps d, hw, hf, hm, h => by
    simp only [WF] at hw
    simp only [Fit] at hf
    simp only [Each] at hm
    simp only [Filled] at h
    simp only [InView]
    exact filledL_inView hE ps d hw.2 hf.2 hm h
  | .warp s _ _ _, hw, hf, hm, h => by
    simp only [WF] at hw
    simp only [Fit] at hf
    simp only [Each] at hm
    simp only [Filled] at h
    simp only [InView]
    exact filled_inView hE s hw.1 hf.2 hm h
  | .crop s y0 y1 x0 x1 c, hw, hf, hm, h => by
    simp only [WF] at hw
    simp only [Fit] at hf
    simp only [Each] at hm
    simp only [Filled] at h
    simp only [InView]
    obtain ⟨hf1, hf2, hf3, hf4, hf5⟩ := hf
    obtain ⟨hfl, hy, hx, hc⟩ := h
    refine ⟨filled_inView hE s hw.1 hf1 hm hfl, hw.2.1, hw.2.2.1, hc, fun i hi => ?_⟩
    rw [← fin_flatPictures G hfl] at hi
    have hs := fin_shape (flatPictures_shaped hE) s hw.1 hf1 hm i hi
    have a1 := hs.h
    have a2 := hs.w
    constructor
    · rw [npSlice_range _ _ _ hw.2.1 hf2 (by omega)]
      simp; omega
    · rw [npSlice_range _ _ _ hw.2.2.1 hf4 (by omega)]
      simp; omega
  | .overview s _ _, _, _, _, h => by
    simp only [Filled] at h
  | .dequant s _ _, hw, hf, hm, h => by
    simp only [WF] at hw
    simp only [Fit] at hf
    simp only [Each] at hm
    simp only [Filled] at h
    simp only [InView]
    exact filled_inView hE s hw hf.1 hm h
theorem filledL_inView {G : Files} (hE : Env.Shaped G.E) : ∀ (ps : List Node) (d : Int × Int), WFL d ps →
    FitL ps → EachL (flatPictures G).Matches ps → FilledL ps → InViewL G ps
  | [], _, _, _, _, _ => by simp only [InViewL]
  | p :: ps, d, hw, hf, hm, h => by
    simp only [WFL] at hw
    simp only [FitL] at hf
    simp only [EachL] at hm
    simp only [FilledL] at h
    simp only [InViewL]
    exact ⟨filled_inView hE p hw.1 hf.1 hm.1 h.1, filledL_inView hE ps d hw.2.2 hf.2 hm.2 h.2⟩
end

/-- C75: images over regular files built with the API, without overviews and empty crops, of the
announced sizes: without nearest neighbour warps (see C44) they finalize without an exception, to the
announced height, width and number of channels, with the pixels computed from the pictures in the
files. -/
theorem C75_built_partial (G : Files) (hG : RegularFiles G) (hE : Env.Shaped G.E) (n : Node) (hb : Built n)
    (hn : Filled n) (hm : Each (flatPictures G).Matches n) (hs : Smooth n) :
    ∃ i j flat, fin (pictures G) n = .ok i ∧ finalSee G n = .ok (flat, j) ∧ j.Same i ∧ Announced n j ∧
      (flat = true → n.nchan = 1) := by
  obtain ⟨i, hi, ha⟩ := C45_finalize_succeeds (flatPictures_shaped hE) hb hm hs
  rw [fin_flatPictures G hn] at hi
  obtain ⟨hw, hf⟩ := hb.ok
  obtain ⟨j, h1, h2⟩ := C75_pixels_partial G hG n i (filled_inView hE n hw hf hm hn) hi
  refine ⟨i, j, _, hi, h1, h2, ⟨by rw [h2.h]; exact ha.h, by rw [h2.w]; exact ha.w, h2.n.trans ha.n,
    ha.names⟩, fun h => ?_⟩
  rw [Bool.and_eq_true] at h
  rw [← ha.n]
  exact of_decide_eq_true h.2

/-! What is missing. -/

/-- C75, one band: the image announces three dimensions and the array has two.  An operation that does
anything, such as a crop, restores the third (`C75_pixels_partial`). -/
theorem C75_one_band_violated (G : Files) (hG : RegularFiles G) (l : Leaf) (f : File) (hl : l.nan = false)
    (hf : G.file l.id = some f) (h1 : f.rest = []) :
    ∃ j, finalSee G (.leaf l) = .ok (true, j) ∧ j.Same (picture f 0 (G.method l.id)) ∧ j.n = 1 := by
  have hlev : levelIn G (.leaf l) = some (l.id, 0) := by
    unfold levelIn
    rw [if_neg (by simp [hl]), hf]
  have hn : (picture f 0 (G.method l.id)).n = 1 := by simp [picture, File.bands, h1]
  obtain ⟨j, h2, h3⟩ := C75_pixels_partial G hG (.leaf l) (picture f 0 (G.method l.id))
    (by simp only [InView]) (by simp [fin, hl, pictures, hf])
  refine ⟨j, ?_, h3, by rw [h3.n]; exact hn⟩
  rw [h2, hlev]
  simp [hn]

/-- Resampling by moving. -/
def movingEnv : Env Val where
  img := fun _ => ⟨4, 4, 1, fun y x _ => .num ((10 * y + x : Nat) : ℚ)⟩
  deq := fun _ v => v
  nan := .nan
  border := fun _ => .nan
  warp := fun tf d _ i => i.shift ⌊tf.tx⌋ ⌊tf.ty⌋ d .nan
  resize := fun d i => i.shift 0 0 d .nan
  finite := fun v => decide (v ≠ .nan)
  unique := fun l => l.eraseDups.length
  overview := fun _ k i => ⟨(ovSize k i.h).toNat, (ovSize k i.w).toNat, i.n, i.px⟩

/-- The file with two bands and an overview; one with a single band and no overview; a leaf in memory. -/
def someFiles (skip : Bool) : Files where
  file := fun id =>
    if id = 0 then some gridFile
    else if id = 1 then some { gridFile with first := { gridBand with ovs := [] }, rest := [] }
    else none
  method := fun _ => some (p! "float")
  W := { alone true with skip := skip }
  E := movingEnv
  shrink := fun _ i => ⟨i.h / 2, i.w / 2, i.n, fun y x k => i.px (2 * y) (2 * x) k⟩

theorem someFiles_regular (skip : Bool) : RegularFiles (someFiles skip) where
  level := by
    intro id f hf o ho
    simp only [someFiles] at hf
    split at hf
    · cases hf
      have ho' : o = 0 ∨ o = 1 := by
        simp only [gridFile, gridBand, List.length_cons, List.length_nil] at ho
        omega
      rcases ho' with rfl | rfl
      · exact ⟨_, _, _, gridFile_ok.1, by decide, by decide⟩
      · exact ⟨_, _, _, gridFile_ok.2, by decide, by decide⟩
    · split at hf
      · cases hf
        have : o = 0 := by simpa using ho
        subst this
        refine ⟨.int16, 4, 4, ⟨?_, rfl, fun _ _ => rfl, rfl⟩, by decide, by decide⟩
        intro b hb
        simp only [File.bands, List.mem_cons, List.not_mem_nil, or_false] at hb
        subst hb
        obtain ⟨p, h1, h2, h3, h4, h5⟩ := gridFile_ok.1.level gridBand (List.mem_cons_self ..)
        cases h1
        exact ⟨_, rfl, h2, h3, h4, h5⟩
      · cases hf
  method := fun _ => .inr (.inr (.inl rfl))
  reads := ⟨fun _ _ _ _ _ h => same_shift h .., fun _ _ _ h => same_shift h ..⟩
  shrink := fun k i j h => ⟨by simp [someFiles, h.h], by simp [someFiles, h.w], h.n,
    fun y x k hy hx hk => h.px _ _ _ (by simp only [someFiles] at hy; omega)
      (by simp only [someFiles] at hx; omega) hk⟩

theorem movingEnv_shaped : Env.Shaped movingEnv := ⟨fun _ _ _ _ => rfl, fun _ _ => rfl, fun _ _ _ => rfl⟩

/-- An image of the first file; of the second; in memory. -/
def bandPair : Leaf := ⟨0, (4, 4), 2, none, some 1, false⟩
def bandSingle : Leaf := ⟨1, (4, 4), 1, none, none, false⟩
def inMemory : Leaf := ⟨2, (4, 4), 1, none, none, false⟩

/-- The second column of the overview, as the second band and as the first. -/
def column : Node := .crop (mkOverview (.leaf bandPair) 1) 0 2 1 2 (some [1, 0])

/-- The stored overview is read: 20 in the first row; 40 in the second. -/
example : holds (finalSee (someFiles false) column) (fun r => !r.1 && decide (r.2.h = 2 ∧ r.2.w = 1 ∧
    r.2.n = 2 ∧ r.2.px 0 0 0 = .num 20 ∧ r.2.px 1 0 1 = .num 40)) = true := by decide +kernel

theorem column_inView (skip : Bool) : InView (someFiles skip) column := by
  have hl : levelIn (someFiles skip) (mkOverview (.leaf bandPair) 1) = some (0, 1) := rfl
  have hf : fin (pictures (someFiles skip)) (mkOverview (.leaf bandPair) 1) =
      .ok (picture gridFile 1 (some (p! "float"))) := rfl
  have hs := picture_size gridFile_ok.2 (some (p! "float"))
  refine ⟨⟨trivial, by decide, .inr (.inl ?_)⟩, by decide, by decide, by simp, fun i hi => ?_⟩
  · intro h
    exact absurd ((show levelIn (someFiles skip) (mkOverview (.leaf bandPair) 1) = none from h).symm.trans hl)
      (by simp)
  · have e := hf.symm.trans hi
    cases e
    rw [hs.1, hs.2]
    decide

example (skip : Bool) : ∃ i, fin (pictures (someFiles skip)) column = .ok i ∧ i.n = 2 := ⟨_, rfl, rfl⟩

/-- Optimizing leaves the column as it is. -/
example (skip : Bool) : ∃ m, opt Heur.code 6 column = .ok m ∧ InView (someFiles skip) m :=
  ⟨column, rfl, column_inView skip⟩

/-- A part of the one-band file beside an image in memory. -/
def beside : Node := .concat [.crop (.leaf bandSingle) 0 4 0 4 none, .leaf inMemory] (4, 4)

example (skip : Bool) : Filled beside ∧ Smooth beside ∧
    Each (flatPictures (someFiles skip)).Matches beside :=
  ⟨by simp [beside, Filled, FilledL], by simp [beside, Smooth, SmoothL],
    ⟨fun _ => ⟨rfl, rfl, rfl⟩, fun _ => ⟨rfl, rfl, rfl⟩, trivial⟩⟩

example : Built beside := by
  refine .concat [.crop (.leaf bandSingle) 0 4 0 4 none, .leaf inMemory] _ ?_ rfl
  intro p hp
  simp only [List.mem_cons, List.not_mem_nil, or_false] at hp
  rcases hp with rfl | rfl
  · exact .crop (.leaf bandSingle) _ (some ((some 0, some 4), (some 0, some 4))) none
      (.leaf _ ⟨fun l h => (by cases h), fun h => (by cases h)⟩ ⟨by decide, by decide⟩) trivial rfl
  · exact .leaf _ ⟨fun l h => (by cases h), fun h => (by cases h)⟩ ⟨by decide, by decide⟩

/-- C75, one band: an overview that the file does not have is simulated in two dimensions, and taking
its only channel raises an IndexError, optimized or not, although the picture has that channel. -/
theorem C75_simulated_violated (skip : Bool) :
    finalSee (someFiles skip) (.crop (mkOverview (.leaf bandSingle) 1) 0 2 0 2 (some [0])) = .error .indexError ∧
    (∀ f, 6 ≤ f → finalizeFiles Heur.code (someFiles skip) f
      (.crop (mkOverview (.leaf bandSingle) 1) 0 2 0 2 (some [0])) = .error .indexError) ∧
    ∃ i, fin (pictures (someFiles skip)) (.crop (mkOverview (.leaf bandSingle) 1) 0 2 0 2 (some [0])) = .ok i ∧
      i.n = 1 := by
  refine ⟨?_, ?_, ?_⟩
  · cases skip <;> exact raises_iff (by decide +kernel)
  · intro f hf
    obtain ⟨m, h1, h2⟩ := holds_ok (x := opt Heur.code 6
        (.crop (mkOverview (.leaf bandSingle) 1) 0 2 0 2 (some [0])))
      (f := fun m => raises (finalSee (someFiles skip) m) .indexError) (by cases skip <;> decide +kernel)
    rw [finalizeFiles, enough h1 f hf]
    exact raises_iff h2
  · exact ⟨_, rfl, rfl⟩

/-- C75, empty crops: where GDAL refuses to read nothing and kwimage does, too, an empty crop raises,
although the picture has an empty part there. -/
theorem C75_empty_violated :
    finalSee (someFiles false) (.crop (.leaf bandPair) 1 1 0 4 none) = .error .generic ∧
    ∃ i, fin (pictures (someFiles false)) (.crop (.leaf bandPair) 1 1 0 4 none) = .ok i ∧ i.h = 0 := by
  refine ⟨?_, ?_⟩
  · exact raises_iff (by decide +kernel)
  · exact ⟨_, rfl, rfl⟩

end Verif.Props
