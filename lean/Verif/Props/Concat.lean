/-
C27 (take_channels) and C28 (channel concatenation), on pixels.
-/
import Verif.TakeView
import Verif.Props.Shape

namespace Verif.Props

open Verif.Tree Verif.Helpers Verif.Tree.Node

variable {V : Type}

/-! ### C28 -/

/-- C28: a concat can be built exactly from images of the same size. -/
theorem C28_construction (ps : List Node) :
    (∃ n, mkConcat ps = .ok n) ↔ ps ≠ [] ∧ ∀ p ∈ ps, ∀ q ∈ ps, p.dsize = q.dsize := by
  cases ps with
  | nil => simp [mkConcat]
  | cons p ps =>
    simp only [mkConcat]
    constructor
    · rintro ⟨n, h⟩
      split at h
      · rename_i hall
        rw [List.all_eq_true] at hall
        refine ⟨by simp, ?_⟩
        have key : ∀ q ∈ p :: ps, q.dsize = p.dsize := by
          intro q hq
          rcases List.mem_cons.1 hq with rfl | hq
          · rfl
          · exact of_decide_eq_true (hall q hq)
        intro a ha b hb
        rw [key a ha, key b hb]
      · cases h
    · rintro ⟨_, h⟩
      rw [if_pos]
      · exact ⟨_, rfl⟩
      rw [List.all_eq_true]
      intro q hq
      exact decide_eq_true (h q (by simp [hq]) p (by simp))

/-- C28: what the concat announces. -/
theorem C28_announces (ps : List Node) (n : Node) (h : mkConcat ps = .ok n) :
    (∀ p ∈ ps, n.dsize = p.dsize) ∧ n.nchan = (ps.map nchan).sum ∧
    (∀ ls : List (List Str), List.Forall₂ (fun p l => p.channels = some l) ps ls →
      n.channels = some ls.flatten) ∧
    ((∃ p ∈ ps, p.channels = none) → n.channels = none) := by
  obtain ⟨d, rfl, hne, hd⟩ := mkConcat_ok h
  refine ⟨fun p hp => (hd p hp).symm, ?_, ?_, ?_⟩
  · show nchans ps = _
    clear h hne hd
    induction ps with
    | nil => rfl
    | cons p ps ih => simp [nchans, ih]
  · intro ls hls
    show channelsL ps = _
    clear h hne hd
    induction hls with
    | nil => rfl
    | cons h _ ih => simp [channelsL, h, ih]
  · rintro ⟨p, hp, hc⟩
    show channelsL ps = _
    clear h hne hd
    induction ps with
    | nil => simp at hp
    | cons q ps ih =>
      rcases List.mem_cons.1 hp with rfl | hp
      · simp [channelsL, hc]
      · simp only [channelsL, ih hp]
        cases q.channels <;> rfl

/-- The channels of an array as functions of row and column. -/
def planes (nan : V) (i : Img V) : List (Nat → Nat → V) :=
  (List.range i.n).map (fun k y x => if y < i.h ∧ x < i.w then i.px y x k else nan)

theorem planes_get (nan : V) (i : Img V) {k y x : Nat} (hk : k < i.n) (hy : y < i.h) (hx : x < i.w)
    (f : Nat → Nat → V) : (planes nan i).getD k f y x = i.px y x k := by
  have e : (planes nan i)[k]? = some (fun y x => if y < i.h ∧ x < i.w then i.px y x k else nan) := by
    rw [planes, List.getElem?_map, List.getElem?_range hk]
    rfl
  rw [List.getD_eq_getElem?_getD, e]
  simp only [Option.getD_some, hy, hx, and_self, if_true]

theorem planes_cat (nan : V) (a b : Img V) (hh : a.h = b.h) (hw : a.w = b.w) :
    planes nan (a.cat b) = planes nan a ++ planes nan b := by
  unfold planes
  simp only [Img.cat]
  rw [List.range_add, List.map_append, List.map_map]
  congr 1
  · apply List.map_congr_left
    intro k hk
    rw [List.mem_range] at hk
    simp [hk]
  · apply List.map_congr_left
    intro k hk
    simp [hh, hw]

/-- Concatenating arrays concatenates their channels. -/
theorem catAll_planes (nan : V) : ∀ (as : List (Img V)) (j : Img V), catAll as = .ok j →
    planes nan j = as.flatMap (planes nan) ∧ (∀ a ∈ as, a.h = j.h ∧ a.w = j.w)
  | [], j, h => by cases h
  | [a], j, h => by cases h; simp
  | a :: b :: as, j, h => by
    rw [catAll] at h
    · split at h
      · cases h
      · rename_i c ec
        split at h
        · rename_i hs
          cases h
          obtain ⟨h1, h2⟩ := catAll_planes nan (b :: as) c ec
          refine ⟨?_, ?_⟩
          · rw [planes_cat nan a c hs.1 hs.2, h1]
            rfl
          · intro x hx
            rcases List.mem_cons.1 hx with rfl | hx
            · exact ⟨rfl, rfl⟩
            · obtain ⟨e1, e2⟩ := h2 x hx
              exact ⟨e1.trans hs.1.symm, e2.trans hs.2.symm⟩
        · cases h
    · simp

/-- Arrays of the same height and width can be concatenated. -/
theorem catAll_total (d : Int × Int) (bs : List (Img V)) : bs ≠ [] →
    (∀ a ∈ bs, (a.h : Int) = d.2 ∧ (a.w : Int) = d.1) → ∃ j, catAll bs = .ok j := by
  induction bs with
  | nil => intro h; exact (h rfl).elim
  | cons a bs ih =>
    intro _ hh
    cases bs with
    | nil => exact ⟨a, rfl⟩
    | cons b bs =>
      obtain ⟨c, ec⟩ := ih (by simp) (fun a ha => hh a (by simp [ha]))
      refine ⟨a.cat c, ?_⟩
      rw [catAll]
      · obtain ⟨_, h2⟩ := catAll_planes (a.px 0 0 0) _ _ ec
        obtain ⟨e1, e2⟩ := h2 b (by simp)
        obtain ⟨e3, e4⟩ := hh a (by simp)
        obtain ⟨e5, e6⟩ := hh b (by simp)
        rw [ec]
        simp only
        rw [if_pos]
        constructor <;> omega
      · simp

theorem finL_forall₂ (E : Env V) : ∀ (ps : List Node) (as : List (Img V)),
    finL E ps = .ok as ↔ List.Forall₂ (fun p a => fin E p = .ok a) ps as
  | [], as => by
    simp only [finL, Except.ok.injEq]
    exact ⟨fun h => h ▸ .nil, fun h => by cases h; rfl⟩
  | p :: ps, as => by
    constructor
    · intro h
      unfold finL at h
      split at h
      · cases h
      · rename_i a ea
        split at h
        · cases h
        · rename_i bs eb
          cases h
          exact .cons ea ((finL_forall₂ E ps bs).1 eb)
    · intro h
      cases h with
      | cons h1 h2 =>
        unfold finL
        rw [h1, (finL_forall₂ E ps _).2 h2]

/-- C28 on pixels: if the parts have arrays, the concat has one, of their height and width; the channels
of part `o` follow those of the parts before it. -/
theorem C28_pixels (E : Env V) (hE : Env.Shaped E) {ps : List Node} (hb : ∀ p ∈ ps, Built p)
    (hm : ∀ p ∈ ps, Each E.Matches p) {n : Node} (h : mkConcat ps = .ok n) {as : List (Img V)}
    (has : List.Forall₂ (fun p a => fin E p = .ok a) ps as) :
    ∃ j, fin E n = .ok j ∧ j.n = (ps.map nchan).sum ∧
      ∀ o (ho : o < as.length), as[o].h = j.h ∧ as[o].w = j.w ∧
        ∀ k y x, k < as[o].n → y < j.h → x < j.w →
          j.px y x (((ps.take o).map nchan).sum + k) = as[o].px y x k := by
  obtain ⟨d, rfl, hne, hd⟩ := mkConcat_ok h
  have hshape : ∀ p a, p ∈ ps → fin E p = .ok a → HasShape p a := fun p a hp ha =>
    fin_shape hE p (hb p hp).ok.1 (hb p hp).ok.2 (hm p hp) a ha
  have hfa : ∀ a ∈ as, (a.h : Int) = d.2 ∧ (a.w : Int) = d.1 := by
    intro a ha
    obtain ⟨p, hp, e⟩ := forall₂_mem_right has ha
    have := hshape p a hp e
    exact ⟨by rw [this.h, hd p hp], by rw [this.w, hd p hp]⟩
  have hne' : as ≠ [] := by
    rintro rfl
    cases has
    exact hne rfl
  obtain ⟨j, ej⟩ := catAll_total d as hne' hfa
  obtain ⟨h1, h2⟩ := catAll_planes E.nan as j ej
  have hlen : ∀ (qs : List Node) (bs : List (Img V)), (∀ p ∈ qs, p ∈ ps) →
      List.Forall₂ (fun p a => fin E p = .ok a) qs bs →
      (bs.flatMap (planes E.nan)).length = (qs.map nchan).sum := by
    intro qs bs hq hh
    induction hh with
    | nil => rfl
    | @cons p a qs bs e _ ih =>
      rw [List.flatMap_cons, List.length_append, ih fun p hp => hq p (by simp [hp])]
      simp only [List.map_cons, List.sum_cons]
      congr 1
      rw [← (hshape p a (hq p (by simp)) e).n]
      simp [planes]
  refine ⟨j, ?_, ?_, ?_⟩
  · simp only [fin, (finL_forall₂ E ps as).2 has, ej]
  · rw [← hlen ps as (fun p hp => hp) has, ← h1]
    simp [planes]
  · intro o ho
    obtain ⟨e1, e2⟩ := h2 as[o] (List.getElem_mem ho)
    refine ⟨e1, e2, ?_⟩
    intro k y x hk hy hx
    have hlen0 := hlen (ps.take o) (as.take o) (fun p hp => List.mem_of_mem_take hp)
      (List.forall₂_take o has)
    have hlenj : j.n = (as.flatMap (planes E.nan)).length := by rw [← h1]; simp [planes]
    have split : as.flatMap (planes E.nan) = (as.take o).flatMap (planes E.nan) ++
        (planes E.nan as[o] ++ (as.drop (o + 1)).flatMap (planes E.nan)) := by
      conv => lhs; rw [← List.take_append_drop o as, List.drop_eq_getElem_cons ho]
      rw [List.flatMap_append, List.flatMap_cons]
    have hkp : k < (planes E.nan as[o]).length := by simpa [planes] using hk
    have hlt : ((ps.take o).map nchan).sum + k < j.n := by
      rw [hlenj, split, List.length_append, List.length_append, hlen0]
      omega
    rw [← planes_get E.nan j hlt hy hx (fun _ _ => E.nan), h1, split, ← hlen0,
      ← planes_get E.nan as[o] hk (by omega) (by omega) (fun _ _ => E.nan)]
    simp only [List.getD_eq_getElem?_getD]
    rw [List.getElem?_append_right (by omega), Nat.add_sub_cancel_left, List.getElem?_append_left hkp]

/-- The statement of `C28_pixels` with three channels, one and three again. -/
example : ∃ n, mkConcat [.leaf rgbLeaf, .crop (.leaf rgbLeaf) 0 4 0 5 (some [1]), .leaf rgbLeaf] = .ok n ∧
    ∃ j, fin gridEnv n = .ok j ∧ j.n = 7 ∧ j.px 2 3 3 = (2, 3, 1) ∧ j.px 2 3 6 = (2, 3, 2) := by
  refine ⟨_, rfl, _, rfl, ?_⟩
  decide

theorem channelsL_none : ∀ ps : List Node, channelsL ps = none ↔ ∃ p ∈ ps, p.channels = none
  | [] => by simp [channelsL]
  | p :: ps => by
    have ih := channelsL_none ps
    cases e : p.channels with
    | none => simp [channelsL, e]
    | some a =>
      cases e' : channelsL ps with
      | none => rw [e'] at ih; simpa [channelsL, e, e'] using ih
      | some b => rw [e'] at ih; simpa [channelsL, e, e'] using ih

theorem channelsL_get : ∀ (ps : List Node) (names : List Str), (∀ p ∈ ps, WF p) →
    channelsL ps = some names → ∀ o (ho : o < ps.length), ∃ l, ps[o].channels = some l ∧
      ∀ k, k < l.length → names[((ps.take o).map nchan).sum + k]? = l[k]?
  | [], _, _, _, o, ho => absurd ho (by simp)
  | p :: ps, names, hw, h, o, ho => by
    cases e : p.channels with
    | none => simp [channelsL, e] at h
    | some a =>
      cases e' : channelsL ps with
      | none => simp [channelsL, e, e'] at h
      | some b =>
        simp only [channelsL, e, e', Option.some.injEq] at h
        subst h
        have hl : a.length = p.nchan := channels_length p a (hw p (by simp)) e
        cases o with
        | zero =>
          refine ⟨a, e, fun k hk => ?_⟩
          simp only [List.take_zero, List.map_nil, List.sum_nil, Nat.zero_add]
          exact List.getElem?_append_left hk
        | succ o =>
          obtain ⟨l, h1, h2⟩ := channelsL_get ps b (fun p hp => hw p (by simp [hp])) e' o
            (by simpa using ho)
          refine ⟨l, h1, fun k hk => ?_⟩
          rw [← h2 k hk]
          simp only [List.take_succ_cons, List.map_cons, List.sum_cons]
          rw [List.getElem?_append_right (by omega)]
          congr 1
          omega

/-- C28 on codes: the codes of part `o` stand where its channels are (`C28_pixels`), and the codes of a
concat are unknown exactly if those of a part are. -/
theorem C28_codes {ps : List Node} (hb : ∀ p ∈ ps, Built p) {n : Node} (h : mkConcat ps = .ok n) :
    (n.channels = none ↔ ∃ p ∈ ps, p.channels = none) ∧
    ∀ names, n.channels = some names → ∀ o (ho : o < ps.length), ∃ l, ps[o].channels = some l ∧
      l.length = ps[o].nchan ∧
      ∀ k, k < l.length → names[((ps.take o).map nchan).sum + k]? = l[k]? := by
  obtain ⟨d, rfl, _, _⟩ := mkConcat_ok h
  refine ⟨channelsL_none ps, fun names hn o ho => ?_⟩
  obtain ⟨l, h1, h2⟩ := channelsL_get ps names (fun p hp => (hb p hp).ok.1) hn o ho
  exact ⟨l, h1, channels_length _ l (hb _ (List.getElem_mem ho)).ok.1 h1, h2⟩

example : ∃ n : Node, mkConcat [.leaf rgbLeaf, .crop (.leaf rgbLeaf) 0 4 0 5 (some [1])] = .ok n ∧
    n.channels = some [p! "r", p! "g", p! "b", p! "g"] := ⟨_, rfl, rfl⟩

/-! ### C27 -/

variable {E : Env V}

mutual
/-- Trees whose arrays exist and have the announced shapes, also below concats. -/
def Live (E : Env V) : Node → Prop
  | .concat ps d => LiveL E ps ∧ ∃ i, fin E (.concat ps d) = .ok i ∧ HasShape (.concat ps d) i
  | .leaf l => ∃ i, fin E (.leaf l) = .ok i ∧ HasShape (.leaf l) i
  | .warp s tf d a => ∃ i, fin E (.warp s tf d a) = .ok i ∧ HasShape (.warp s tf d a) i
  | .crop s y0 y1 x0 x1 c => ∃ i, fin E (.crop s y0 y1 x0 x1 c) = .ok i ∧ HasShape (.crop s y0 y1 x0 x1 c) i
  | .overview s k d => ∃ i, fin E (.overview s k d) = .ok i ∧ HasShape (.overview s k d) i
  | .dequant s q d => ∃ i, fin E (.dequant s q d) = .ok i ∧ HasShape (.dequant s q d) i
def LiveL (E : Env V) : List Node → Prop
  | [] => True
  | p :: ps => Live E p ∧ LiveL E ps
end

theorem LiveL_iff (ps : List Node) : LiveL E ps ↔ ∀ p ∈ ps, Live E p := by
  induction ps with
  | nil => simp [LiveL]
  | cons p ps ih => simp [LiveL, ih]

theorem Live.ok {n : Node} (h : Live E n) : ∃ i, fin E n = .ok i ∧ HasShape n i := by
  cases n with
  | concat ps d => exact h.2
  | leaf l => exact h
  | warp s tf d a => exact h
  | crop s y0 y1 x0 x1 c => exact h
  | overview s k d => exact h
  | dequant s q d => exact h

mutual
theorem live_of (hE : Env.Shaped E) : ∀ (n : Node), WF n → Fit n → Each E.Matches n → ∀ i, fin E n = .ok i →
    Live E n
  | .leaf l, hw, hf, hm, i, h => ⟨i, h, fin_shape hE _ hw hf hm i h⟩
  | .warp s tf d a, hw, hf, hm, i, h => ⟨i, h, fin_shape hE _ hw hf hm i h⟩
  | .crop s y0 y1 x0 x1 c, hw, hf, hm, i, h => ⟨i, h, fin_shape hE _ hw hf hm i h⟩
  | .overview s k d, hw, hf, hm, i, h => ⟨i, h, fin_shape hE _ hw hf hm i h⟩
  | .dequant s q d, hw, hf, hm, i, h => ⟨i, h, fin_shape hE _ hw hf hm i h⟩
  | .concat ps d, hw, hf, hm, i, h => by
    refine ⟨?_, i, h, fin_shape hE _ hw hf hm i h⟩
    unfold fin at h
    split at h
    · cases h
    · rename_i as e
      exact liveL_of hE ps d hw.2 hf.2 hm as e
theorem liveL_of (hE : Env.Shaped E) : ∀ (ps : List Node) (d : Int × Int), WFL d ps → FitL ps →
    EachL E.Matches ps → ∀ as, finL E ps = .ok as → LiveL E ps
  | [], _, _, _, _, _, _ => trivial
  | p :: ps, d, hw, hf, hm, as, h => by
    unfold finL at h
    split at h
    · cases h
    · rename_i a ea
      split at h
      · cases h
      · rename_i bs eb
        exact ⟨live_of hE p hw.1 hf.1 hm.1 a ea, liveL_of hE ps d hw.2.2 hf.2 hm.2 bs eb⟩
end

mutual
/-- The channels of the array of a tree. -/
def seen (E : Env V) : Node → List (Nat → Nat → V)
  | .concat ps _ => seenL E ps
  | .leaf l => match fin E (.leaf l) with | .ok i => planes E.nan i | .error _ => []
  | .warp s tf d a => match fin E (.warp s tf d a) with | .ok i => planes E.nan i | .error _ => []
  | .crop s y0 y1 x0 x1 c =>
    match fin E (.crop s y0 y1 x0 x1 c) with | .ok i => planes E.nan i | .error _ => []
  | .overview s k d => match fin E (.overview s k d) with | .ok i => planes E.nan i | .error _ => []
  | .dequant s q d => match fin E (.dequant s q d) with | .ok i => planes E.nan i | .error _ => []
def seenL (E : Env V) : List Node → List (Nat → Nat → V)
  | [] => []
  | p :: ps => seen E p ++ seenL E ps
end

theorem seenL_eq (ps : List Node) : seenL E ps = ps.flatMap (seen E) := by
  induction ps with
  | nil => rfl
  | cons p ps ih => rw [seenL, ih, List.flatMap_cons]

mutual
theorem seen_planes : ∀ (n : Node) (i : Img V), fin E n = .ok i → seen E n = planes E.nan i
  | .leaf l, i, h => by rw [seen]; simp only [h]
  | .warp s tf d a, i, h => by rw [seen]; simp only [h]
  | .crop s y0 y1 x0 x1 c, i, h => by rw [seen]; simp only [h]
  | .overview s k d, i, h => by rw [seen]; simp only [h]
  | .dequant s q d, i, h => by rw [seen]; simp only [h]
  | .concat ps d, i, h => by
    rw [seen]
    unfold fin at h
    split at h
    · cases h
    · rename_i as e
      rw [seenL_planes ps as e, (catAll_planes E.nan as i h).1]
theorem seenL_planes : ∀ (ps : List Node) (as : List (Img V)), finL E ps = .ok as →
    seenL E ps = as.flatMap (planes E.nan)
  | [], as, h => by
    simp only [finL, Except.ok.injEq] at h
    subst h; rfl
  | p :: ps, as, h => by
    unfold finL at h
    split at h
    · cases h
    · rename_i a ea
      split at h
      · cases h
      · rename_i bs eb
        cases h
        rw [seenL, seen_planes p a ea, seenL_planes ps bs eb, List.flatMap_cons]
end

theorem live_concat {qs : List Node} {c : Node} (hq : ∀ q ∈ qs, Live E q) (hc : mkConcat qs = .ok c) :
    Live E c := by
  obtain ⟨d, rfl, hne, hd⟩ := mkConcat_ok hc
  refine ⟨(LiveL_iff _).2 hq, ?_⟩
  obtain ⟨as, has⟩ : ∃ as, List.Forall₂ (fun p a => fin E p = .ok a ∧ HasShape p a) qs as := by
    clear hc hne hd
    induction qs with
    | nil => exact ⟨[], .nil⟩
    | cons q qs ih =>
      obtain ⟨a, ha⟩ := (hq q (by simp)).ok
      obtain ⟨as, has⟩ := ih fun q h => hq q (by simp [h])
      exact ⟨a :: as, .cons ha has⟩
  have hfa : ∀ a ∈ as, (a.h : Int) = d.2 ∧ (a.w : Int) = d.1 := by
    intro a ha
    obtain ⟨p, hp, e, hs⟩ := forall₂_mem_right has ha
    exact ⟨by rw [hs.h, hd p hp], by rw [hs.w, hd p hp]⟩
  have hne' : as ≠ [] := by
    rintro rfl
    cases has
    exact hne rfl
  obtain ⟨j, ej⟩ := catAll_total d as hne' hfa
  obtain ⟨h1, h2⟩ := catAll_planes E.nan as j ej
  refine ⟨j, by simp only [fin, (finL_forall₂ E qs as).2 (has.imp fun _ _ h => h.1), ej], ?_⟩
  obtain ⟨a, ha⟩ := List.exists_mem_of_ne_nil _ hne'
  obtain ⟨e1, e2⟩ := h2 a ha
  obtain ⟨e3, e4⟩ := hfa a ha
  refine ⟨by rw [← e1, e3]; rfl, by rw [← e2, e4]; rfl, ?_⟩
  have e5 : j.n = (planes E.nan j).length := by simp [planes]
  rw [e5, h1]
  show _ = nchans qs
  clear * - has
  induction has with
  | nil => rfl
  | cons h _ ih =>
    rw [List.flatMap_cons, List.length_append, ih, nchans, ← h.2.n]
    simp [planes]

theorem live_crop {p : Node} (hp : Live E p) {idxs : List Nat} (hi : ∀ i ∈ idxs, i < nchan p) :
    ∃ i j, fin E p = .ok i ∧ HasShape p i ∧ fin E (.crop p 0 p.dsize.2 0 p.dsize.1 (some idxs)) = .ok j ∧
      j.h = i.h ∧ j.w = i.w ∧ j.n = idxs.length ∧
      ∀ y x k, y < i.h → x < i.w → j.px y x k = i.px y x (idxs.getD k 0) := by
  obtain ⟨i, ei, hs⟩ := hp.ok
  have hh := hs.h
  have hw := hs.w
  have hsel := select_ok (i.slice (some 0, some p.dsize.2) (some 0, some p.dsize.1)) (c := some idxs)
    (show IdxOk i.n (some idxs) by rw [hs.n]; exact hi)
  obtain ⟨e1, e2, e3⟩ := slice_shape i (le_refl 0) (by omega : (0 : Int) ≤ p.dsize.2) (by omega) (le_refl 0)
    (by omega : (0 : Int) ≤ p.dsize.1) (by omega)
  refine ⟨i, _, ei, hs, by simp only [fin, ei]; exact hsel, by simp only; omega, by simp only; omega, rfl, ?_⟩
  intro y x k hy hx
  simp only [selAt, Img.slice]
  rw [npSlice_range _ _ _ (le_refl 0) (by omega) (by omega),
    npSlice_range _ _ _ (le_refl 0) (by omega) (by omega)]
  rw [List.getD_eq_getElem _ _ (by simp; omega), List.getD_eq_getElem (l := List.map _ _) _ (by simp; omega)]
  simp

theorem live_take : TakeStable (Live E) where
  parts := fun h p hp => (LiveL_iff _).1 h.1 p hp
  concat := fun _ hq hc => live_concat (fun q h => (hq q h).1) hc
  nan := by
    intro ps d names h
    obtain ⟨i, _, hs⟩ := h.ok
    have h1 : (i.h : Int) = d.2 := hs.h
    have h2 : (i.w : Int) = d.1 := hs.w
    have h0 : ¬ (d.1 < 0 ∨ d.2 < 0) := by omega
    refine ⟨⟨d.2.toNat, d.1.toNat, (names.map List.length).getD 0, fun _ _ _ => E.nan⟩, ?_, ?_, ?_, rfl⟩
    · simp only [fin, if_true, h0, if_false]
    · simp only [dsize]; omega
    · simp only [dsize]; omega
  crop := by
    intro p idxs t _ hp hi h
    obtain ⟨i, j, ei, hs, ej, e1, e2, e3, _⟩ := live_crop hp hi
    rw [mkCrop_none_form h]
    refine ⟨j, ej, ?_, ?_, e3⟩
    · rw [e1, hs.h]; simp only [dsize]; omega
    · rw [e2, hs.w]; simp only [dsize]; omega

theorem live_view : View (Live E) (seen E) (fun _ _ => E.nan) (fun _ _ => E.nan) where
  len := by
    intro n h
    obtain ⟨i, ei, hs⟩ := h.ok
    rw [seen_planes n i ei, ← hs.n]
    simp [planes]
  parts := live_take.parts
  concat := fun ps d => by rw [seen, seenL_eq]
  crop := by
    intro p idxs hp _ hi
    obtain ⟨i, j, ei, hs, ej, e1, e2, e3, e4⟩ := live_crop hp hi
    rw [seen_planes _ j ej, seen_planes p i ei]
    apply List.ext_getElem
    · simp [planes, pick, e3]
    intro k h1 h2
    have hk : k < idxs.length := by simpa [pick] using h2
    have hik : idxs[k] < i.n := by rw [hs.n]; exact hi _ (List.getElem_mem hk)
    funext y x
    have e5 : (pick (fun _ _ => E.nan) (planes E.nan i) idxs)[k] =
        (planes E.nan i).getD idxs[k] (fun _ _ => E.nan) := by simp [pick]
    rw [e5, List.getD_eq_getElem _ _ (by simpa [planes] using hik)]
    have e6 : ∀ (a : Img V) (m : Nat) (hm : m < (planes E.nan a).length), (planes E.nan a)[m] y x =
        if y < a.h ∧ x < a.w then a.px y x m else E.nan := by
      intro a m hm
      have : (planes E.nan a)[m] = fun y x => if y < a.h ∧ x < a.w then a.px y x m else E.nan := by
        simp [planes]
      rw [this]
    rw [e6, e6, e1, e2]
    by_cases hc : y < i.h ∧ x < i.w
    · rw [if_pos hc, if_pos hc, e4 y x k hc.1 hc.2, List.getD_eq_getElem _ _ hk]
    · rw [if_neg hc, if_neg hc]
  nan := by
    rintro d l ⟨p, hp, rfl⟩
    obtain ⟨i, _, hs⟩ := hp.ok
    have h1 := hs.h
    have h2 := hs.w
    have h0 : ¬ (p.dsize.1 < 0 ∨ p.dsize.2 < 0) := by omega
    rw [seen_planes _ ⟨p.dsize.2.toNat, p.dsize.1.toNat, l.length, fun _ _ _ => E.nan⟩
      (by simp only [nanLeaf, fin, if_true, h0, if_false]; rfl)]
    apply List.ext_getElem
    · simp [planes]
    intro k h1 h2
    simp [planes]

/-- From the channels back to the array. -/
theorem planes_at {t : Node} {j : Img V} (hj : fin E t = .ok j) {k y x : Nat} {f : Nat → Nat → V}
    (h : (seen E t)[k]? = some f) (hy : y < j.h) (hx : x < j.w) : k < j.n ∧ j.px y x k = f y x := by
  rw [seen_planes t j hj] at h
  have hk : k < j.n := by
    have := (List.getElem?_eq_some_iff.1 h).1
    simpa [planes] using this
  refine ⟨hk, ?_⟩
  rw [← planes_get E.nan j hk hy hx (fun _ _ => E.nan), List.getD_eq_getElem?_getD, h]
  rfl

theorem forall₂_getElem? {α β} {R : α → β → Prop} {l : List α} {m : List β} (h : List.Forall₂ R l m) {k : Nat}
    {a : α} (ha : l[k]? = some a) : ∃ b, m[k]? = some b ∧ R a b := by
  induction h generalizing k with
  | nil => simp at ha
  | cons h _ ih =>
    cases k with
    | zero => simp only [List.getElem?_cons_zero, Option.some.injEq] at ha; subst ha; exact ⟨_, rfl, h⟩
    | succ k => simpa using ih (by simpa using ha)

theorem names_codes {names codes l : List Str} (hd : names.Nodup)
    (h : List.Forall₂ (NamedCode names) codes l) : l = codes := by
  induction h with
  | nil => rfl
  | @cons c s codes l h _ ih =>
    rw [ih]
    congr 1
    unfold NamedCode at h
    split at h
    · exact h
    · rename_i i e
      rw [h]
      exact osetIndex_nodup hd e

/-- Selecting by distinct codes, whatever the comparison of the specs says, as long as it accepts equal codes
only. -/
theorem takeNamesIf_px (hE : Env.Shaped E) {same : Bool} {n : Node} (hw : WF n) (hf : Fit n) (hm : Each E.Matches n)
    {i : Img V} (hi : fin E n = .ok i) {names : List Str} (hn : n.channels = some names) (hd : names.Nodup)
    {codes : List Str} (hsame : same = true → n.channels = some codes) {policy : Policy} {t : Node}
    (h : takeNamesIf same n codes policy = .ok t) :
    t.channels = some codes ∧ t.dsize = n.dsize ∧ ∃ j, fin E t = .ok j ∧ j.h = i.h ∧ j.w = i.w ∧
      j.n = codes.length ∧ ∀ k code, codes[k]? = some code → ∀ y x, y < i.h → x < i.w →
        (∀ m, names[m]? = some code → j.px y x k = i.px y x m) ∧ (code ∉ names → j.px y x k = E.nan) := by
  obtain ⟨w1, w2, w3, l, w4, w5⟩ := takeNamesIf_ok hw hn hsame hd h
  have hlive := live_of hE n hw hf hm i hi
  have hone : Live E (.concat [n] n.dsize) := live_concat (qs := [n]) (by simpa using hlive) rfl
  have hs : HasShape n i := fin_shape hE n hw hf hm i hi
  obtain ⟨j, hj, hjs⟩ := (takeNamesIf_stable live_take hw hlive hone h).ok
  have hview := takeNamesIf_view live_view hlive hn hsame (channels_length n names hw hn) hd h
  have e1 : (j.h : Int) = i.h := by rw [hjs.h, w2, hs.h]
  have e2 : (j.w : Int) = i.w := by rw [hjs.w, w2, hs.w]
  refine ⟨by rw [w4, names_codes hd w5], w2, j, hj, by omega, by omega, ?_, ?_⟩
  · rw [hjs.n, ← channels_length t l w1 w4, names_codes hd w5]
  intro k code hk y x hy hx
  obtain ⟨f, hf1, hf2⟩ := forall₂_getElem? hview hk
  obtain ⟨hkn, hpx⟩ := planes_at hj hf1 (y := y) (x := x) (by omega) (by omega)
  unfold SeenCode at hf2
  constructor
  · intro m hmn
    have hmem : code ∈ names := List.mem_of_getElem? hmn
    split at hf2
    · rename_i e
      exact absurd hmem (osetIndex_none.1 e)
    · rename_i m' e
      have h1 := (osetIndex_nodup hd e)
      have hlt := osetIndex_lt e
      have h2 : names[m']? = some code := by
        rw [List.getElem?_eq_getElem hlt, ← List.getD_eq_getElem _ [] hlt, h1]
      have : m' = m := (List.getElem?_inj hlt hd).1 (h2.trans hmn.symm)
      subst this
      rw [hpx, hf2, seen_planes n i hi]
      refine planes_get E.nan i ?_ hy hx _
      rw [hs.n, ← channels_length n names hw hn]
      exact hlt
  · intro hmiss
    rw [osetIndex_none.2 hmiss] at hf2
    rw [hpx, hf2]

/-- C27 on pixels, selection by codes (distinct codes): the result announces exactly the requested codes
and the size of the image; its array has one channel per requested code, equal to the channel of that
code, or NaN everywhere if the image has no such code. -/
theorem C27_take_by_code_partial (hE : Env.Shaped E) {n : Node} (hb : Built n) (hm : Each E.Matches n)
    {i : Img V} (hi : fin E n = .ok i) {names : List Str} (hn : n.channels = some names) (hd : names.Nodup)
    {codes : List Str} {policy : Policy} {t : Node} (h : takeNames n codes policy = .ok t) :
    t.channels = some codes ∧ t.dsize = n.dsize ∧ ∃ j, fin E t = .ok j ∧ j.h = i.h ∧ j.w = i.w ∧
      j.n = codes.length ∧ ∀ k code, codes[k]? = some code → ∀ y x, y < i.h → x < i.w →
        (∀ m, names[m]? = some code → j.px y x k = i.px y x m) ∧ (code ∉ names → j.px y x k = E.nan) :=
  takeNamesIf_px hE hb.ok.1 hb.ok.2 hm hi hn hd (fun e => of_decide_eq_true e) h

/-- C27 on pixels, selection by positions: channel `k` of the result is channel `idxs[k]`. -/
theorem C27_take_by_index (hE : Env.Shaped E) {n : Node} (hb : Built n) (hm : Each E.Matches n)
    {i : Img V} (hi : fin E n = .ok i) {idxs : List Nat} (hr : ∀ m ∈ idxs, m < n.nchan) {t : Node}
    (h : takeIdx n idxs = .ok t) :
    t.channels = n.channels.map (fun names => idxs.map (fun m => names.getD m [])) ∧ t.dsize = n.dsize ∧
    ∃ j, fin E t = .ok j ∧ j.h = i.h ∧ j.w = i.w ∧ j.n = idxs.length ∧
      ∀ k m, idxs[k]? = some m → ∀ y x, y < i.h → x < i.w → j.px y x k = i.px y x m := by
  obtain ⟨hw, hf⟩ := hb.ok
  have ht := takeIdx_ok n hw idxs t hr h
  have hlive := live_of hE n hw hf hm i hi
  have hs : HasShape n i := fin_shape hE n hw hf hm i hi
  obtain ⟨j, hj, hjs⟩ := (takeIdx_stable live_take n hw hlive idxs t hr h).ok
  have hview := takeIdx_view live_view n hlive idxs t hr h
  have e1 : (j.h : Int) = i.h := by rw [hjs.h, ht.dsize, hs.h]
  have e2 : (j.w : Int) = i.w := by rw [hjs.w, ht.dsize, hs.w]
  refine ⟨ht.channels, ht.dsize, j, hj, by omega, by omega, ?_, ?_⟩
  · rw [hjs.n, ← den_length, ht.den]; simp [pick]
  intro k m hk y x hy hx
  have hf1 : (seen E t)[k]? = some ((seen E n).getD m (fun _ _ => E.nan)) := by
    rw [hview, pick, List.getElem?_map, hk]; rfl
  obtain ⟨hkn, hpx⟩ := planes_at hj hf1 (y := y) (x := x) (by omega) (by omega)
  rw [hpx, seen_planes n i hi]
  refine planes_get E.nan i ?_ hy hx _
  rw [hs.n]
  exact hr m (List.mem_of_getElem? hk)

/-- C27: selection by codes succeeds unless a code is missing and the policy is 'error'. -/
theorem C27_raises_iff_missing {n : Node} (hb : Built n) {names codes : List Str}
    (hn : n.channels = some names) (hc : codes ≠ []) :
    (∃ t, takeNames n codes .returnNan = .ok t) ∧
    ((∃ t, takeNames n codes .error = .ok t) ↔ ∀ c ∈ codes, c ∈ names) ∧
    ((∃ c ∈ codes, c ∉ names) → takeNames n codes .error = .error .valueError) := by
  obtain ⟨hw, hf⟩ := hb.ok
  have key : (∃ c ∈ codes, c ∉ names) → takeNames n codes .error = .error .valueError := by
    rintro ⟨c, h1, h2⟩
    have hany : (reqsOf names codes).any (fun r => r.1.isNone) = true := by
      rw [List.any_eq_true]
      exact ⟨_, List.mem_map.2 ⟨c, h1, rfl⟩, by simp [osetIndex_none.2 h2]⟩
    have hne : names ≠ codes := by rintro rfl; exact h2 h1
    by_cases hcc : ∃ ps d, n = .concat ps d
    · obtain ⟨ps, d, rfl⟩ := hcc
      have hn' : channelsL ps = some names := by rw [Node.channels] at hn; exact hn
      simp only [takeNames, takeNamesIf, hn, hn', Option.some.injEq, hne, decide_false, Bool.false_eq_true, if_false]
      rw [← reqsOf, if_pos ⟨trivial, hany⟩]
    · rw [takeNames, concat_form (fun ps d e => hcc ⟨ps, d, e⟩), hn]
      simp only
      rw [if_neg, if_neg (by simpa using hne), if_pos ⟨trivial, hany⟩]
      rw [List.all_eq_true]
      intro hall
      have := hall c h1
      rw [osetIndex_none.2 h2] at this
      cases this
  refine ⟨takeNamesIf_total _ hw hn hc _ (by intro h; cases h), ⟨?_, ?_⟩, key⟩
  · rintro ⟨t, ht⟩ c hcm
    by_contra hcn
    rw [key ⟨c, hcm, hcn⟩] at ht
    cases ht
  · intro h
    exact takeNamesIf_total _ hw hn hc _ fun _ => h

/-- C27: selection by existing positions succeeds if the codes of the image are known. -/
theorem C27_index_succeeds {n : Node} (hb : Built n) (hn : n.channels.isSome) {idxs : List Nat} (hne : idxs ≠ [])
    (hr : ∀ m ∈ idxs, m < n.nchan) : ∃ t, takeIdx n idxs = .ok t :=
  takeIdx_total n hb.ok.1 hn idxs hne hr

/-- A one channel image of the same size with the code `a` (twice in `twice`). -/
def abLeaf : Leaf := ⟨1, (5, 4), 3, some [p! "a", p! "b", p! "a"], none, false⟩
def cLeaf : Leaf := ⟨2, (5, 4), 3, some [p! "c", p! "x", p! "y"], none, false⟩

/-- C27 fails if a code occurs twice: asking for `c` gives the second channel called `a`, since positions
in the set of distinct codes are used as positions in the list of all codes. -/
theorem C27_repeated_codes_violated :
    (Node.concat [.leaf abLeaf, .leaf cLeaf] (5, 4) : Node).channels =
      some [p! "a", p! "b", p! "a", p! "c", p! "x", p! "y"] ∧
    ∃ t : Node, takeNames (.concat [.leaf abLeaf, .leaf cLeaf] (5, 4)) [p! "c"] .error = .ok t ∧
      t.channels = some [p! "a"] := by
  refine ⟨by decide, ?_⟩
  have h : (match (takeNames (.concat [.leaf abLeaf, .leaf cLeaf] (5, 4)) [p! "c"] .error : Py Node) with
    | .ok t => t.channels | .error _ => none) = some [p! "a"] := by decide +kernel
  split at h
  · rename_i t e
    exact ⟨t, e, h⟩
  · cases h

/-- Non-vacuity of `C27_take_by_code_partial`: `b`, a missing code and `r` of two images. -/
example : ∃ n t, Built n ∧ n.channels = some [p! "r", p! "g", p! "b", p! "c", p! "x", p! "y"] ∧
    takeNames n [p! "x", p! "zz", p! "r"] .returnNan = .ok t ∧ t.nchan = 3 := by
  have h1 : Built (.leaf rgbLeaf) := .leaf rgbLeaf
    ⟨by intro l h; simp only [rgbLeaf, Option.some.injEq] at h; subst h; rfl, by intro h; cases h⟩
    ⟨by decide, by decide⟩
  have h2 : Built (.leaf cLeaf) := .leaf cLeaf
    ⟨by intro l h; simp only [cLeaf, Option.some.injEq] at h; subst h; rfl, by intro h; cases h⟩
    ⟨by decide, by decide⟩
  have hb : Built (.concat [.leaf rgbLeaf, .leaf cLeaf] (5, 4)) := .concat [.leaf rgbLeaf, .leaf cLeaf] _
    (by intro p hp; simp only [List.mem_cons, List.not_mem_nil, or_false] at hp; rcases hp with rfl | rfl <;> assumption)
    rfl
  have h : (match (takeNames (.concat [.leaf rgbLeaf, .leaf cLeaf] (5, 4)) [p! "x", p! "zz", p! "r"]
      .returnNan : Py Node) with
    | .ok t => some t.nchan | .error _ => none) = some 3 := by decide +kernel
  split at h
  · rename_i t e
    exact ⟨_, t, hb, by decide, e, by simpa using h⟩
  · cases h

end Verif.Props
