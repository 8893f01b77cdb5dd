/-
C72: channels selected by numbers that count from the end, by one number or by a slice.
-/
import Verif.ChanIdx
import Verif.Props.Check
import Verif.Props.Concat
import Verif.Props.Stride

namespace Verif.Props

open Verif.Tree Verif.Helpers Verif.Tree.Node

variable {V : Type}

/-! ### specification -/

/-- The number `i` stands for position `p` of an axis of length `n`. -/
def Counts (n : Nat) (i : Int) (p : Nat) : Prop := p < n ∧ (i = p ∨ i = (p : Int) - n)

/-- The positions numpy selects along an axis of length `n`. -/
def Picks (n : Nat) : CIdx → List Nat → Prop
  | .list l, ps => List.Forall₂ (Counts n) l ps
  | .int i, ps => ∃ p, ps = [p] ∧ Counts n i p
  | .slice a b, ps => ps = npSlice n a b
  | .step a b k, ps => Strides n a b k ps

/-- The exception for a selection that does not exist, as in numpy. -/
def refusal : CIdx → PyErr
  | .step _ _ _ => .valueError
  | _ => .indexError

/-! ### lemmas -/

theorem axisPos_ok {n : Nat} {i : Int} {p : Nat} : axisPos n i = .ok p ↔ Counts n i p := by
  unfold axisPos Counts
  by_cases hi : i < 0
  · rw [if_pos hi]
    by_cases hj : 0 ≤ i + (n : Int) ∧ i + (n : Int) < n
    · rw [if_pos hj, Except.ok.injEq]; omega
    · rw [if_neg hj]
      exact ⟨fun h => (by cases h), fun h => absurd h (by omega)⟩
  · rw [if_neg hi]
    by_cases hj : 0 ≤ i ∧ i < (n : Int)
    · rw [if_pos hj, Except.ok.injEq]; omega
    · rw [if_neg hj]
      exact ⟨fun h => (by cases h), fun h => absurd h (by omega)⟩

theorem axisPos_error {n : Nat} {i : Int} {e : PyErr} (h : axisPos n i = .error e) : e = .indexError := by
  unfold axisPos at h
  generalize (if i < 0 then i + (n : Int) else i) = j at h
  by_cases hj : 0 ≤ j ∧ j < (n : Int)
  · rw [if_pos hj] at h; cases h
  · rw [if_neg hj] at h; cases h; rfl

theorem mapAll_axis {n : Nat} {l : List Int} {ps : List Nat} :
    mapAll (axisPos n) l = .ok ps ↔ List.Forall₂ (Counts n) l ps := by
  induction l generalizing ps with
  | nil =>
    rw [mapAll]
    constructor
    · intro h; cases h; exact .nil
    · intro h; cases h; rfl
  | cons i l ih =>
    rw [mapAll]
    cases h : axisPos n i with
    | error e =>
      simp only
      constructor
      · intro h'; cases h'
      · intro h'
        cases h' with
        | cons h1 h2 => rw [axisPos_ok.2 h1] at h; cases h
    | ok p =>
      simp only
      cases h2 : mapAll (axisPos n) l with
      | error e =>
        simp only
        constructor
        · intro h'; cases h'
        · intro h'
          cases h' with
          | cons h3 h4 => rw [ih.2 h4] at h2; cases h2
      | ok qs =>
        simp only [Except.ok.injEq]
        constructor
        · rintro rfl
          exact .cons (axisPos_ok.1 h) (ih.1 h2)
        · intro h'
          cases h' with
          | cons h3 h4 =>
            rw [axisPos_ok.2 h3] at h
            rw [ih.2 h4] at h2
            cases h; cases h2; rfl

theorem mapAll_axis_error {n : Nat} {l : List Int} {e : PyErr} (h : mapAll (axisPos n) l = .error e) :
    e = .indexError := by
  induction l with
  | nil => rw [mapAll] at h; cases h
  | cons i l ih =>
    rw [mapAll] at h
    split at h
    · rename_i h1; cases h; exact axisPos_error h1
    · split at h
      · rename_i h1; cases h; exact ih h1
      · cases h

theorem npBound_clamp (n : Nat) (i : Int) : npBound n i = (Fused.clampIdx n i : Int) := by
  unfold npBound Fused.clampIdx
  split <;> omega

theorem pySlice_range (n : Nat) (a b : Option Int) : Fused.pySlice (List.range n) a b = npSlice n a b := by
  have key : ∀ lo hi : Nat, hi ≤ n → ((List.range n).take hi).drop lo =
      (List.range n).filter (fun (k : Nat) => decide ((lo : Int) ≤ k ∧ (k : Int) < hi)) := by
    intro lo hi h
    have e : (fun (k : Nat) => decide ((lo : Int) ≤ k ∧ (k : Int) < hi)) = fun k => decide (lo ≤ k ∧ k < hi) := by
      funext k; rw [decide_eq_decide]; omega
    rw [e, filter_range_interval n lo hi h]
    apply List.ext_getElem?
    intro k
    rw [List.getElem?_drop, List.getElem?_map]
    by_cases hk : lo + k < hi
    · rw [List.getElem?_take_of_lt hk, List.getElem?_range (by omega), List.getElem?_range (by omega)]
      rfl
    · rw [List.getElem?_eq_none (by simp; omega), List.getElem?_eq_none (by simp; omega)]
      rfl
  have hc : ∀ i, Fused.clampIdx n i ≤ n := by
    intro i; unfold Fused.clampIdx; split <;> omega
  unfold Fused.pySlice npSlice
  simp only [List.length_range]
  cases a <;> cases b <;> simp only [npBound_clamp]
  · exact key 0 n (le_refl _)
  · exact key 0 _ (hc _)
  · exact key _ n (le_refl _)
  · exact key _ _ (hc _)

theorem pySlice_map {α β} (f : α → β) (l : List α) (a b : Option Int) :
    Fused.pySlice (l.map f) a b = (Fused.pySlice l a b).map f := by
  unfold Fused.pySlice
  simp only [List.length_map, List.map_drop, List.map_take]

theorem range_getD {α} (d : α) (l : List α) : (List.range l.length).map (fun k => l.getD k d) = l := by
  apply List.ext_getElem
  · simp
  · intro k h1 h2
    simp only [List.getElem_map, List.getElem_range]
    rw [List.getD_eq_getElem _ _ h2]

theorem positions_ok {n : Nat} {c : CIdx} {ps : List Nat} : c.positions n = .ok ps ↔ Picks n c ps := by
  cases c with
  | list l => exact mapAll_axis
  | int i =>
    simp only [CIdx.positions, Picks]
    cases h : axisPos n i with
    | error e =>
      simp only
      constructor
      · intro h'; cases h'
      · rintro ⟨p, rfl, hp⟩
        rw [axisPos_ok.2 hp] at h; cases h
    | ok p =>
      simp only [Except.ok.injEq]
      constructor
      · rintro rfl; exact ⟨p, rfl, axisPos_ok.1 h⟩
      · rintro ⟨q, rfl, hq⟩
        rw [axisPos_ok.2 hq] at h; cases h; rfl
  | slice a b =>
    simp only [CIdx.positions, Picks, Except.ok.injEq, pySlice_range]
    exact ⟨fun h => h.symm, fun h => h.symm⟩
  | step a b k => exact stride_ok

theorem positions_error {n : Nat} {c : CIdx} {e : PyErr} (h : c.positions n = .error e) : e = refusal c := by
  cases c with
  | list l => exact mapAll_axis_error h
  | int i =>
    simp only [CIdx.positions] at h
    split at h
    · rename_i h1; cases h; exact axisPos_error h1
    · cases h
  | slice a b => simp only [CIdx.positions] at h; cases h
  | step a b k => exact (stride_error h).2

theorem picks_lt {n : Nat} {c : CIdx} {ps : List Nat} (h : Picks n c ps) : ∀ p ∈ ps, p < n := by
  cases c with
  | list l =>
    simp only [Picks] at h
    induction h with
    | nil => simp
    | cons h1 _ ih =>
      intro p hp
      rcases List.mem_cons.1 hp with rfl | hp
      · exact h1.1
      · exact ih p hp
  | int i =>
    obtain ⟨p, rfl, hp⟩ := h
    intro q hq
    rw [List.mem_singleton] at hq
    exact hq ▸ hp.1
  | slice a b =>
    simp only [Picks] at h
    subst h
    intro p hp
    unfold npSlice at hp
    exact List.mem_range.1 (List.mem_filter.1 hp).1
  | step a b k => exact strides_lt h

theorem pyIndex_axis (names : List Str) (i : Int) : Fused.pyIndex names i =
    (match axisPos names.length i with
      | .ok p => .ok (names.getD p [])
      | .error e => .error e) := by
  unfold Fused.pyIndex axisPos
  simp only
  generalize (if i < 0 then i + (names.length : Int) else i) = j
  by_cases h1 : j < 0
  · rw [if_pos h1, if_neg (by omega)]
  · rw [if_neg h1]
    by_cases h2 : j < names.length
    · rw [if_pos (by omega)]
      have h3 : j.toNat < names.length := by omega
      rw [List.getElem?_eq_getElem h3]
      simp only
      rw [List.getD_eq_getElem _ _ h3]
    · rw [if_neg (by omega), List.getElem?_eq_none (by omega)]

theorem pyTake_axis (names : List Str) (l : List Int) : Fused.pyTake names l =
    (match mapAll (axisPos names.length) l with
      | .ok ps => .ok (ps.map (fun p => names.getD p []))
      | .error e => .error e) := by
  induction l with
  | nil => rfl
  | cons i l ih =>
    rw [mapAll, Fused.pyTake, pyIndex_axis]
    cases h : axisPos names.length i with
    | error e => rfl
    | ok p =>
      simp only [Except.ok_bind', ih]
      cases h2 : mapAll (axisPos names.length) l with
      | error e => rfl
      | ok qs => rfl

theorem cropChans_known (names : List Str) (c : CIdx) : cropChans (some names) c =
    (match c.positions names.length with
      | .ok ps => .ok (some (ps.map (fun p => names.getD p [])), ps.length)
      | .error e => .error e) := by
  cases c with
  | list l =>
    rw [cropChans, pyTake_axis, CIdx.positions]
    cases h : mapAll (axisPos names.length) l with
    | error e => rfl
    | ok ps => simp
  | int i =>
    rw [cropChans, pyIndex_axis, CIdx.positions]
    cases h : axisPos names.length i with
    | error e => rfl
    | ok p => rfl
  | slice a b =>
    rw [cropChans, CIdx.positions]
    have e : Fused.pySlice names a b =
        (Fused.pySlice (List.range names.length) a b).map (fun p => names.getD p []) := by
      rw [← pySlice_map, range_getD]
    simp only
    rw [e]
    simp
  | step a b k =>
    rw [cropChans, CIdx.positions, pyStride_eq]
    cases h : Fused.stride names.length a b k with
    | error e => rfl
    | ok ps => simp

theorem picks_unknown {n : Nat} {l : List Int} {ps : List Nat} (h : List.Forall₂ (Counts n) l ps) :
    l.map (axisOr n) = ps := by
  induction h with
  | nil => rfl
  | cons h1 _ ih => rw [List.map_cons, ih, axisOr, axisPos_ok.2 h1]

theorem mkRawCrop_form {n : Node} {sl : Option Space} {c : CIdx} {t : RawCrop Quantization}
    (h : mkRawCrop n sl c = .ok t) : t.sub = n ∧ t.c = c ∧ cropChans n.channels c = .ok (t.names, t.num) ∧
      t.y0 = (match sl with | none => 0 | some s => (normSlice n.dsize.2 s.1.1 s.1.2).1) ∧
      t.y1 = (match sl with | none => n.dsize.2 | some s => (normSlice n.dsize.2 s.1.1 s.1.2).2) ∧
      t.x0 = (match sl with | none => 0 | some s => (normSlice n.dsize.1 s.2.1 s.2.2).1) ∧
      t.x1 = (match sl with | none => n.dsize.1 | some s => (normSlice n.dsize.1 s.2.1 s.2.2).2) := by
  unfold mkRawCrop at h
  split at h
  · cases h
  · rename_i names num e
    cases sl with
    | none => cases h; exact ⟨rfl, rfl, e, rfl, rfl, rfl, rfl⟩
    | some s => cases h; exact ⟨rfl, rfl, e, rfl, rfl, rfl, rfl⟩

theorem node_picks {t : RawCrop Quantization} {ps : List Nat} (h : Picks t.sub.nchan t.c ps) :
    t.node = .crop t.sub t.y0 t.y1 t.x0 t.x1 (some ps) := by
  obtain ⟨sub, y0, y1, x0, x1, c, names, num⟩ := t
  unfold RawCrop.node
  simp only at h ⊢
  cases c with
  | list l =>
    simp only
    rw [picks_unknown (show List.Forall₂ (Counts sub.nchan) l ps from h)]
  | int i => simp only [positions_ok.2 h]
  | slice a b => simp only [positions_ok.2 h]
  | step a b k => simp only [positions_ok.2 h]

/-- The crop is the crop with the positions its selection stands for. -/
theorem cropC_eq {n : Node} (hn : ∀ l, n.channels = some l → l.length = n.nchan) {sl : Option Space} {c : CIdx}
    {ps : List Nat} (hp : Picks n.nchan c ps) (hk : n.channels.isSome ∨ ∃ l, c = .list l) :
    cropC n sl c = mkCrop n sl (some ps) := by
  have hck : chanCheck n (some ps) = .ok () := by
    unfold chanCheck
    cases e : n.channels with
    | none => rfl
    | some names =>
      simp only
      rw [if_pos]
      rw [List.all_eq_true]
      intro p hpm
      rw [decide_eq_true_eq, hn names e]
      exact picks_lt hp p hpm
  obtain ⟨r, hr⟩ : ∃ r, cropChans n.channels c = .ok r := by
    cases e : n.channels with
    | some names => rw [cropChans_known, hn names e, positions_ok.2 hp]; exact ⟨_, rfl⟩
    | none =>
      rw [e] at hk
      rcases hk with h | ⟨l, rfl⟩
      · cases h
      · exact ⟨_, rfl⟩
  unfold cropC mkRawCrop mkCrop
  rw [hr, hck]
  cases sl with
  | none =>
    simp only
    rw [node_picks (ps := ps) (by exact hp)]
  | some s =>
    simp only
    rw [node_picks (ps := ps) (by exact hp)]

/-! ### C72: building and reading -/

/-- C72: `image[y0:y1, x0:x1, c]` shows the pixels numpy shows, for lists of numbers (negative ones count from
the end), single numbers and slices with or without a step; the codes are those of the channels that are shown, and the announced
number of channels is right. -/
theorem C72_pixels (E : Env V) (n : Node) (i : Img V) (hi : fin E n = .ok i) (ha : Announced n i) (sl : Space)
    {c : CIdx} {ps : List Nat} (hp : Picks i.n c ps) {t : RawCrop Quantization} (h : mkRawCrop n (some sl) c = .ok t) :
    Agree (t.fin E) ((i.slice sl.1 sl.2).select (some ps)) ∧
    t.names = n.channels.map (fun names => ps.map (fun p => names.getD p [])) ∧ t.num = ps.length := by
  have hp' : Picks n.nchan c ps := ha.n ▸ hp
  obtain ⟨e1, e2, e3, e4⟩ := mkRawCrop_form h
  have hk : n.channels.isSome ∨ ∃ l, c = .list l := by
    cases e : n.channels with
    | some _ => exact .inl rfl
    | none =>
      rw [e] at e3
      cases c with
      | list l => exact .inr ⟨l, rfl⟩
      | int i => cases e3
      | slice a b => cases e3
      | step a b k => cases e3
  have e5 : cropC n (some sl) c = .ok t.node := by rw [cropC, h]
  have e6 : t.fin E = fin E t.node := by
    rw [node_picks (ps := ps) (by rw [e1, e2]; exact hp'), RawCrop.fin, fin, e1, hi]
    simp only
    rw [e2, positions_ok.2 hp]
  have e7 := C24_crop_is_numpy_slice E n i hi ha sl (some ps)
  have e8 : Tree.crop n (some sl) (some ps) true true (.int 0) false = mkCrop n (some sl) (some ps) := by
    simp [Tree.crop, Pad.truthy]
  rw [e8, ← cropC_eq ha.names hp' hk, e5] at e7
  refine ⟨e6 ▸ e7, ?_⟩
  cases e : n.channels with
  | some names =>
    rw [e, cropChans_known, ha.names names e, positions_ok.2 hp'] at e3
    simp only [Except.ok.injEq, Prod.mk.injEq] at e3
    exact ⟨e3.1.symm, e3.2.symm⟩
  | none =>
    rw [e] at e3
    rcases hk with hk | ⟨l, rfl⟩
    · rw [e] at hk; cases hk
    · simp only [cropChans, Except.ok.injEq, Prod.mk.injEq] at e3
      refine ⟨e3.1.symm, ?_⟩
      rw [← e3.2]
      exact List.Forall₂.length_eq hp

/-- C72: with known codes exactly the numbers that exist are accepted, and the others raise IndexError, as in
numpy; a slice with step zero raises ValueError.  With unknown codes lists are accepted and checked when the image is read; single numbers and slices are
refused with a TypeError (`len` of a number). -/
theorem C72_accepts (E : Env V) (n : Node) (i : Img V) (hi : fin E n = .ok i) (ha : Announced n i) (sl : Space)
    (c : CIdx) :
    (n.channels.isSome → (∀ ps, Picks i.n c ps → ∃ t, mkRawCrop n (some sl) c = .ok t) ∧
      ((∀ ps, ¬ Picks i.n c ps) → mkRawCrop n (some sl) c = .error (refusal c))) ∧
    (n.channels = none → ∀ l, c = .list l → ∃ t, mkRawCrop n (some sl) c = .ok t ∧
      ((∀ ps, ¬ Picks i.n c ps) → t.fin E = .error .indexError)) ∧
    (n.channels = none → (∀ l, c ≠ .list l) → mkRawCrop n (some sl) c = .error .typeError) := by
  refine ⟨?_, ?_, ?_⟩
  · intro hs
    obtain ⟨names, e⟩ := Option.isSome_iff_exists.1 hs
    have e3 := cropChans_known names c
    rw [ha.names names e, ← ha.n] at e3
    constructor
    · intro ps hp
      rw [positions_ok.2 hp] at e3
      unfold mkRawCrop
      rw [e, e3]
      exact ⟨_, rfl⟩
    · intro hno
      cases hpos : c.positions i.n with
      | ok ps => exact absurd (positions_ok.1 hpos) (hno ps)
      | error er =>
        rw [hpos] at e3
        unfold mkRawCrop
        rw [e, e3, positions_error hpos]
  · rintro e l rfl
    refine ⟨⟨n, (normSlice n.dsize.2 sl.1.1 sl.1.2).1, (normSlice n.dsize.2 sl.1.1 sl.1.2).2,
      (normSlice n.dsize.1 sl.2.1 sl.2.2).1, (normSlice n.dsize.1 sl.2.1 sl.2.2).2, .list l, none, l.length⟩, ?_, ?_⟩
    · unfold mkRawCrop
      rw [e]
      rfl
    · intro hno
      rw [RawCrop.fin]
      simp only [hi]
      cases hpos : (CIdx.list l).positions i.n with
      | ok ps => exact absurd (positions_ok.1 hpos) (hno ps)
      | error er => rw [positions_error hpos]; rfl
  · intro e hno
    unfold mkRawCrop
    rw [e]
    cases c with
    | list l => exact absurd rfl (hno l)
    | int i => rfl
    | slice a b => rfl
    | step a b k => rfl

/-- C72: storing the positions instead of the selection changes neither the array (nor the exception) nor the
codes nor the number of channels.  (`ChanIdx.lean` stores positions.) -/
theorem C72_stored (E : Env V) (n : Node) (ha : ∀ i, fin E n = .ok i → i.n = n.nchan)
    (hn : ∀ l, n.channels = some l → l.length = n.nchan) {sl : Option Space} {c : CIdx} {t : RawCrop Quantization}
    (h : mkRawCrop n sl c = .ok t) :
    t.fin E = fin E t.node ∧ t.names = t.node.channels ∧ t.num = t.node.nchan := by
  obtain ⟨e1, e2, e3, -⟩ := mkRawCrop_form h
  obtain ⟨sub, y0, y1, x0, x1, c', names, num⟩ := t
  simp only at e1 e2 e3
  subst e1 e2
  by_cases hex : ∃ ps, Picks sub.nchan c' ps
  · obtain ⟨ps, hp⟩ := hex
    rw [node_picks (ps := ps) hp, RawCrop.fin, fin]
    simp only
    refine ⟨?_, ?_⟩
    · cases hi : fin E sub with
      | error e => rfl
      | ok i =>
        simp only
        rw [ha i hi, positions_ok.2 hp]
    · cases e : sub.channels with
      | some ns =>
        rw [e, cropChans_known, hn ns e, positions_ok.2 hp] at e3
        simp only [Except.ok.injEq, Prod.mk.injEq] at e3
        rw [Node.channels, Node.nchan, e]
        exact ⟨e3.1.symm, e3.2.symm⟩
      | none =>
        rw [e] at e3
        rw [Node.channels, Node.nchan, e]
        cases c' with
        | list l =>
          simp only [cropChans, Except.ok.injEq, Prod.mk.injEq] at e3
          exact ⟨e3.1.symm, by rw [← e3.2]; exact List.Forall₂.length_eq hp⟩
        | int i => cases e3
        | slice a b => cases e3
        | step a b k => cases e3
  · cases e : sub.channels with
    | some ns =>
      exfalso
      rw [e, cropChans_known, hn ns e] at e3
      split at e3
      · rename_i ps hpos; exact hex ⟨ps, positions_ok.1 hpos⟩
      · cases e3
    | none =>
      rw [e] at e3
      cases c' with
      | int i => cases e3
      | slice a b => cases e3
      | step a b k => cases e3
      | list l =>
        simp only [cropChans, Except.ok.injEq, Prod.mk.injEq] at e3
        obtain ⟨rfl, rfl⟩ := e3
        rw [RawCrop.node, RawCrop.fin, fin, Node.channels, Node.nchan, e]
        simp only
        refine ⟨?_, rfl, by simp⟩
        cases hi : fin E sub with
        | error e => rfl
        | ok i =>
          simp only
          have hin := ha i hi
          cases hpos : (CIdx.list l).positions i.n with
          | ok ps => exact absurd ⟨ps, hin ▸ positions_ok.1 hpos⟩ hex
          | error er =>
            rw [positions_error hpos]
            simp only [Img.select, refusal]
            rw [if_neg]
            intro hall
            rw [List.all_eq_true] at hall
            apply hex
            refine ⟨l.map (axisOr sub.nchan), ?_⟩
            simp only [Picks]
            refine forall₂_map_right ?_
            intro k hk
            have := hall _ (List.mem_map.2 ⟨k, hk, rfl⟩)
            rw [decide_eq_true_eq] at this
            have hsn : (i.slice (some y0, some y1) (some x0, some x1)).n = sub.nchan := by
              rw [← hin]; rfl
            rw [hsn] at this
            rw [axisOr] at this ⊢
            cases hax : axisPos sub.nchan k with
            | ok p => exact axisPos_ok.1 hax
            | error e => rw [hax] at this; simp at this

/-- Non-vacuity of `C72_pixels`: the last and the first channel of a picture, its last channel, and all but the
first. -/
example : Announced (.leaf rgbLeaf) (gridEnv.img 1) ∧ Picks 3 (.list [-1, 0]) [2, 0] ∧ Picks 3 (.int (-1)) [2] ∧
    Picks 3 (.slice (some 1) none) [1, 2] ∧
    (∀ c ∈ [CIdx.list [-1, 0], .int (-1), .slice (some 1) none], ∃ t,
      mkRawCrop (.leaf rgbLeaf : Node) (some ((none, none), (some 1, none))) c = .ok t) ∧
    (mkRawCrop (.leaf rgbLeaf : Node) (some ((none, none), (some 1, none))) (.list [3])).isOk = false := by
  refine ⟨⟨rfl, rfl, rfl, by intro l h; simp only [Node.channels, rgbLeaf, Option.some.injEq] at h; subst h; rfl⟩,
    by simp [Picks, Counts], by simp [Picks, Counts], (by unfold Picks; decide), ?_, by decide +kernel⟩
  intro c hc
  simp only [List.mem_cons, List.not_mem_nil, or_false] at hc
  rcases hc with rfl | rfl | rfl <;> exact ⟨_, rfl⟩

/-! ### lemmas about take_channels -/

theorem takeInts_image {n : Node} (hc : ∀ ps d, n ≠ .concat ps d) (l : List Int) :
    takeInts n l = cropC n none (.list l) := by
  cases n with
  | concat ps d => exact absurd rfl (hc ps d)
  | _ => rw [takeInts]

theorem takeIdx_image {n : Node} (hc : ∀ ps d, n ≠ .concat ps d) (l : List Nat) :
    takeIdx n l = mkCrop n none (some l) := by
  cases n with
  | concat ps d => exact absurd rfl (hc ps d)
  | _ => rw [takeIdx]

theorem takersI_eq (ps : List Node) : takersI ps = ps.map (fun p => (p, takeInts p)) := by
  induction ps with
  | nil => rw [takersI]; rfl
  | cons p ps ih => rw [takersI, ih]; rfl

/-- What a segment remembers about its numbers. -/
structure SegInv (s : SegI) (start : Int) (l : List Int) : Prop where
  start : s.start = start
  indexes : s.indexes = l
  stop : ∀ b, s.stop = some b → s.start < b ∧
    (List.range (b - s.start).toNat).map (fun k => s.start + (k : Nat)) = s.indexes

theorem SegI.inv_new (o : Nat) (i : Int) : SegInv (SegI.new o i) i [i] := by
  refine ⟨rfl, rfl, ?_⟩
  intro b hb
  simp only [SegI.new, Option.some.injEq] at hb
  subst hb
  simp only [SegI.new]
  refine ⟨by omega, ?_⟩
  rw [show (i + 1 - i).toNat = 1 by omega]
  simp

theorem SegI.inv_add {s : SegI} {i : Int} {l : List Int} (h : SegInv s i l) (j : Int) : SegInv (s.add j) i (l ++ [j]) := by
  refine ⟨h.start, by simp [SegI.add, h.indexes], ?_⟩
  intro b hb
  simp only [SegI.add] at hb ⊢
  split at hb
  · rename_i e
    simp only [Option.some.injEq] at hb
    subst hb
    obtain ⟨h1, h2⟩ := h.stop j e
    refine ⟨by omega, ?_⟩
    rw [show (j + 1 - s.start).toNat = (j - s.start).toNat + 1 by omega, List.range_succ, List.map_append, h2]
    simp
    omega
  · cases hb

theorem SegI.add_comp (s : SegI) (j : Int) : (s.add j).comp = s.comp := rfl

theorem accLoopI_neg {sizes : List Nat} (hs : sizes ≠ []) {l : List Int} (hl : ∀ i ∈ l, i < 0) {s : SegI}
    (hc : s.comp = 0) : accLoopI sizes ([], some s) l = .ok [l.foldl SegI.add s] := by
  induction l generalizing s with
  | nil => rfl
  | cons i l ih =>
    rw [accLoopI]
    have : unravelI sizes i = some (0, i) := by
      rw [unravelI, if_pos (hl i (by simp)), if_neg hs]
    rw [this]
    simp only [hc, if_true]
    rw [ih (fun j hj => hl j (by simp [hj])) (s := s.add i) (by rw [SegI.add_comp, hc])]
    rfl

theorem foldl_inv {l : List Int} {s : SegI} {i : Int} {m : List Int} (h : SegInv s i m) :
    SegInv (l.foldl SegI.add s) i (m ++ l) := by
  induction l generalizing s m with
  | nil => simpa using h
  | cons j l ih =>
    have := ih (SegI.inv_add h j)
    simpa using this

theorem foldl_comp (l : List Int) (s : SegI) : (l.foldl SegI.add s).comp = s.comp := by
  induction l generalizing s with
  | nil => rfl
  | cons j l ih => rw [List.foldl_cons, ih, SegI.add_comp]

/-- C72: negative numbers are looked up in the first part only: `take_channels` of a concat with negative numbers
is `take_channels` of its first part. -/
theorem C72_negative_first_part {p : Node} {ps : List Node} {d : Int × Int} (hk : (channelsL (p :: ps)).isSome)
    {l : List Int} (hne : l ≠ []) (hl : ∀ i ∈ l, i < 0) :
    takeInts (.concat (p :: ps) d) l =
      (match takeInts p l with
        | .error e => .error e
        | .ok t => .ok (.concat [t] t.dsize)) := by
  obtain ⟨names, hn⟩ := Option.isSome_iff_exists.1 hk
  cases l with
  | nil => exact absurd rfl hne
  | cons i is =>
    have hi : i < 0 := hl i (by simp)
    rw [takeInts, hn]
    simp only [concatTakeI, takersI_eq]
    have e1 : accLoopI (((p :: ps).map (fun p => (p, takeInts p))).map (fun p => p.1.nchan)) ([], none) (i :: is) =
        .ok [is.foldl SegI.add (.new 0 i)] := by
      rw [accLoopI]
      have : unravelI (((p :: ps).map (fun p => (p, takeInts p))).map (fun p => p.1.nchan)) i = some (0, i) := by
        rw [unravelI, if_pos hi, if_neg (by simp)]
      rw [this]
      exact accLoopI_neg (by simp) (fun j hj => hl j (by simp [hj])) rfl
    rw [e1]
    have hinv := foldl_inv (l := is) (SegI.inv_new 0 i)
    have hcomp := foldl_comp is (.new 0 i)
    generalize is.foldl SegI.add (.new 0 i) = s at hinv hcomp
    have hidx : s.indexer p.nchan = .ok (some (i :: is)) := by
      unfold SegI.indexer
      cases hb : s.stop with
      | none => simp only; rw [hinv.indexes]; rfl
      | some b =>
        simp only
        rw [if_neg (by rw [hinv.start]; omega), if_pos (hinv.stop b hb).2, hinv.indexes]
        rfl
    have hsub : SegI.sub ((p :: ps).map (fun p => (p, takeInts p))) s = takeInts p (i :: is) := by
      unfold SegI.sub
      rw [hcomp]
      simp only [SegI.new, List.map_cons, List.getElem?_cons_zero, hidx]
    simp only [mapAll, hsub]
    cases takeInts p (i :: is) with
    | error e => rfl
    | ok t => rfl

/-! ### numbers that do not count from the end -/

/-- The numbers as integers. -/
abbrev castL (l : List Nat) : List Int := l.map (fun (k : Nat) => (k : Int))

theorem unravel_lt {sizes : List Nat} {i o j : Nat} (h : unravel sizes i = some (o, j)) :
    ∃ k, sizes[o]? = some k ∧ j < k := by
  induction sizes generalizing i o with
  | nil => cases h
  | cons n ns ih =>
    rw [unravel] at h
    split at h
    · cases h; exact ⟨n, rfl, by assumption⟩
    · cases e : unravel ns (i - n) with
      | none => rw [e] at h; cases h
      | some q =>
        rw [e] at h
        simp only [Option.map_some, Option.some.injEq, Prod.mk.injEq] at h
        obtain ⟨h1, h2⟩ := h
        subst h1 h2
        obtain ⟨k, hk, hlt⟩ := ih (o := q.1) (i := i - n) (by rw [e])
        exact ⟨k, by simpa using hk, hlt⟩

/-- The two kinds of segments agree. -/
structure SegR (sizes : List Nat) (s : Seg) (t : SegI) : Prop where
  comp : s.comp = some t.comp
  start : ∃ a, s.start = some a ∧ t.start = (a : Int) ∧ ∀ b, s.stop = some b → a < b
  stop : t.stop = s.stop.map (fun (k : Nat) => (k : Int))
  indexes : t.indexes = castL s.indexes
  range : ∀ j ∈ s.indexes, ∃ k, sizes[t.comp]? = some k ∧ j < k

theorem segR_new {sizes : List Nat} {o j : Nat} (h : ∃ k, sizes[o]? = some k ∧ j < k) :
    SegR sizes ((Seg.new (some o)).add j none) (SegI.new o j) := by
  refine ⟨rfl, ⟨j, rfl, rfl, ?_⟩, rfl, rfl, ?_⟩
  · intro b hb
    simp only [Seg.add, Seg.new, Option.some.injEq] at hb
    omega
  · intro i hi
    simp only [Seg.add, Seg.new, List.nil_append, List.mem_singleton] at hi
    subst hi
    exact h

theorem segR_add {sizes : List Nat} {s : Seg} {t : SegI} (h : SegR sizes s t) {j : Nat}
    (hj : ∃ k, sizes[t.comp]? = some k ∧ j < k) : SegR sizes (s.add j none) (t.add j) := by
  obtain ⟨a, ha, hta, hab⟩ := h.start
  have e1 : (s.add j none).comp = s.comp := Seg.add_comp s j none
  have e2 : (s.add j none).start = some a := by simp [Seg.add, ha]
  have e3 : (s.add j none).stop = if s.stop = some j then some (j + 1) else none := by simp [Seg.add, ha]
  refine ⟨by rw [e1, h.comp]; rfl, ⟨a, e2, hta, ?_⟩, ?_, ?_, ?_⟩
  · intro b hb
    rw [e3] at hb
    split at hb
    · rename_i hs
      have := hab j hs
      simp only [Option.some.injEq] at hb
      omega
    · cases hb
  · rw [e3]
    simp only [SegI.add, h.stop]
    cases hs : s.stop with
    | none => simp
    | some b =>
      simp only [Option.map_some, Option.some.injEq, Nat.cast_inj]
      by_cases hbj : b = j
      · rw [if_pos hbj, if_pos hbj]; simp
      · rw [if_neg hbj, if_neg hbj]; rfl
  · rw [Seg.add_indexes]
    simp [SegI.add, h.indexes]
  · intro i hi
    rw [Seg.add_indexes] at hi
    rcases List.mem_append.1 hi with hi | hi
    · exact h.range i hi
    · rw [List.mem_singleton] at hi
      subst hi
      exact hj

theorem unravelI_nat (sizes : List Nat) (i : Nat) :
    unravelI sizes (i : Int) = (unravel sizes i).map (fun p => (p.1, (p.2 : Int))) := by
  rw [unravelI, if_neg (by omega)]
  rfl

theorem accLoop_nat {sizes : List Nat} (l : List Nat) {st : Acc} {sti : List SegI × Option SegI}
    (h1 : List.Forall₂ (SegR sizes) st.1 sti.1) (h2 : Option.Rel (SegR sizes) st.2 sti.2) :
    (accLoop sizes st (l.map (fun i => (some i, none))) = .error .indexError ∧
      accLoopI sizes sti (castL l) = .error .indexError) ∨
    ∃ segs segsI, accLoop sizes st (l.map (fun i => (some i, none))) = .ok segs ∧
      accLoopI sizes sti (castL l) = .ok segsI ∧ List.Forall₂ (SegR sizes) segs segsI := by
  induction l generalizing st sti with
  | nil =>
    right
    obtain ⟨a, b⟩ := st
    obtain ⟨ai, bi⟩ := sti
    simp only at h1 h2
    refine ⟨_, _, rfl, rfl, ?_⟩
    refine List.rel_append h1 ?_
    cases h2 with
    | some h => exact .cons h .nil
    | none => exact .nil
  | cons i l ih =>
    rw [List.map_cons, accLoop, castL, List.map_cons, accLoopI, unravelI_nat]
    simp only [locate]
    cases e : unravel sizes i with
    | none => left; exact ⟨rfl, rfl⟩
    | some q =>
      obtain ⟨o, j⟩ := q
      have hlt := unravel_lt e
      simp only [Option.map_some]
      obtain ⟨a, b⟩ := st
      obtain ⟨ai, bi⟩ := sti
      simp only at h1 h2
      cases h2 with
      | none =>
        simp only [extend]
        exact ih h1 (.some (segR_new hlt))
      | some h =>
        rename_i s t
        simp only [extend]
        rw [h.comp]
        by_cases hc : t.comp = o
        · rw [if_pos (by rw [hc]), if_pos hc]
          exact ih h1 (.some (segR_add h (hc ▸ hlt)))
        · rw [if_neg (by simpa using hc), if_neg hc]
          exact ih (List.rel_append h1 (.cons h .nil)) (.some (segR_new hlt))

theorem indexer_nat {sizes : List Nat} {s : Seg} {t : SegI} (h : SegR sizes s t) (n : Nat) :
    t.indexer n = (match s.indexer n with
      | .error e => .error e
      | .ok r => .ok (r.map castL)) := by
  obtain ⟨a, ha, hta, hab⟩ := h.start
  unfold SegI.indexer Seg.indexer
  rw [ha, hta, h.stop, h.indexes]
  cases hs : s.stop with
  | none => rfl
  | some b =>
    have hlt := hab b hs
    simp only [Option.map_some]
    by_cases h0 : a = 0 ∧ b = n
    · rw [if_pos h0, if_pos (by omega)]
      have : ((castL s.indexes).head? = some 0 ∧ (castL s.indexes).getLast? = some ((b : Int) - 1)) ↔
          (s.indexes.head? = some 0 ∧ s.indexes.getLast? = some (b - 1)) := by
        simp only [castL, List.head?_map, List.getLast?_map]
        constructor
        · rintro ⟨g1, g2⟩
          constructor
          · cases e : s.indexes.head? with
            | none => rw [e] at g1; cases g1
            | some x => rw [e] at g1; simp only [Option.map_some, Option.some.injEq] at g1 ⊢; omega
          · cases e : s.indexes.getLast? with
            | none => rw [e] at g2; cases g2
            | some x => rw [e] at g2; simp only [Option.map_some, Option.some.injEq] at g2 ⊢; omega
        · rintro ⟨g1, g2⟩
          rw [g1, g2]
          simp only [Option.map_some, Option.some.injEq]
          omega
      by_cases hh : s.indexes.head? = some 0 ∧ s.indexes.getLast? = some (b - 1)
      · rw [if_pos hh, if_pos (this.2 hh)]; rfl
      · rw [if_neg hh, if_neg (fun g => hh (this.1 g))]
    · rw [if_neg h0, if_neg (by omega)]
      have : (List.range ((b : Int) - (a : Int)).toNat).map (fun k => (a : Int) + (k : Nat)) = castL s.indexes ↔
          (List.range (b - a)).map (fun k => a + k) = s.indexes := by
        rw [show ((b : Int) - (a : Int)).toNat = b - a by omega]
        have e : (List.range (b - a)).map (fun k => (a : Int) + (k : Nat)) =
            castL ((List.range (b - a)).map (fun k => a + k)) := by
          simp [castL]
        rw [e]
        constructor
        · intro g
          exact (List.map_injective_iff.2 (fun x y hxy => by simpa using hxy)) g
        · intro g; rw [g]
      by_cases hh : (List.range (b - a)).map (fun k => a + k) = s.indexes
      · rw [if_pos hh, if_pos (this.2 hh)]; rfl
      · rw [if_neg hh, if_neg (fun g => hh (this.1 g))]

theorem counts_nat {n : Nat} {l : List Nat} (h : ∀ i ∈ l, i < n) : List.Forall₂ (Counts n) (castL l) l := by
  induction l with
  | nil => exact .nil
  | cons i l ih => exact .cons ⟨h i (by simp), .inl rfl⟩ (ih fun j hj => h j (by simp [hj]))

theorem names_length {n : Node} (hw : WF n) : ∀ l, n.channels = some l → l.length = n.nchan :=
  fun l h => channels_length n l hw h

theorem image_nat {n : Node} (hw : WF n) (hc : ∀ ps d, n ≠ .concat ps d) {l : List Nat} (h : ∀ i ∈ l, i < n.nchan) :
    takeInts n (castL l) = takeIdx n l := by
  rw [takeInts_image hc, takeIdx_image hc]
  exact cropC_eq (names_length hw) (c := .list (castL l)) (counts_nat h) (.inr ⟨_, rfl⟩)

theorem mapAll_rel {α β γ} {R : α → β → Prop} {f : α → Py γ} {g : β → Py γ} {l : List α} {m : List β}
    (h : List.Forall₂ R l m) (hfg : ∀ x y, R x y → f x = g y) : mapAll f l = mapAll g m := by
  induction h with
  | nil => rfl
  | cons h1 _ ih => rw [mapAll, mapAll, hfg _ _ h1, ih]

mutual
/-- Numbers that exist and do not count from the end are positions. -/
theorem takeInts_nat : ∀ (n : Node), WF n → ∀ l : List Nat, (∀ i ∈ l, i < n.nchan) →
    takeInts n (castL l) = takeIdx n l
  | .leaf _, hw, _, h => image_nat hw (by intro _ _ e; cases e) h
  | .warp _ _ _ _, hw, _, h => image_nat hw (by intro _ _ e; cases e) h
  | .crop _ _ _ _ _ _, hw, _, h => image_nat hw (by intro _ _ e; cases e) h
  | .overview _ _ _, hw, _, h => image_nat hw (by intro _ _ e; cases e) h
  | .dequant _ _ _, hw, _, h => image_nat hw (by intro _ _ e; cases e) h
  | .concat ps d, hw, l, _ => by
    have hps : WFL d ps := by rw [WF] at hw; exact hw.2
    have ih := takeInts_natL ps d hps
    rw [takeInts, takeIdx]
    cases hn : channelsL ps with
    | none => rfl
    | some names =>
      simp only [concatTakeI, concatTake, takersI_eq, takers_eq]
      have e1 : (ps.map (fun p => (p, takeInts p))).map (fun p => p.1.nchan) = ps.map nchan := by
        simp [Function.comp_def]
      have e2 : (ps.map (fun p => (p, takeIdx p))).map (fun p => p.1.nchan) = ps.map nchan := by
        simp [Function.comp_def]
      rw [e1, e2]
      rcases accLoop_nat (sizes := ps.map nchan) l (st := ([], none)) (sti := ([], none)) .nil .none with
        ⟨h1, h2⟩ | ⟨segs, segsI, h1, h2, h3⟩
      · rw [h1, h2]
      · have hm : mapAll (Seg.sub d (ps.map (fun p => (p, takeIdx p)))) segs =
            mapAll (SegI.sub (ps.map (fun p => (p, takeInts p)))) segsI := by
          refine mapAll_rel h3 ?_
          intro s t hst
          unfold Seg.sub SegI.sub
          rw [hst.comp]
          simp only [List.getElem?_map]
          cases hp : ps[t.comp]? with
          | none => rfl
          | some p =>
            simp only [Option.map_some]
            rw [indexer_nat hst]
            cases hx : s.indexer p.nchan with
            | error e => rfl
            | ok r =>
              cases r with
              | none => rfl
              | some idxs =>
                simp only [Option.map_some]
                refine (ih p (List.mem_of_getElem? hp) idxs ?_).symm
                have hidx : idxs = s.indexes := by
                  obtain ⟨a, ha, -, -⟩ := hst.start
                  unfold Seg.indexer at hx
                  rw [ha] at hx
                  cases hs : s.stop with
                  | none => rw [hs] at hx; cases hx; rfl
                  | some b =>
                    rw [hs] at hx
                    simp only at hx
                    split at hx
                    · split at hx
                      · cases hx
                      · cases hx
                    · split at hx
                      · cases hx; rfl
                      · cases hx
                intro j hj
                rw [hidx] at hj
                obtain ⟨k, hk, hlt⟩ := hst.range j hj
                rw [List.getElem?_map, hp] at hk
                simp only [Option.map_some, Option.some.injEq] at hk
                omega
        rw [h1, h2]
        simp only [hm]
        cases mapAll (SegI.sub (ps.map (fun p => (p, takeInts p)))) segsI <;> rfl
theorem takeInts_natL : ∀ (ps : List Node) (d : Int × Int), WFL d ps → ∀ p ∈ ps, ∀ l : List Nat,
    (∀ i ∈ l, i < p.nchan) → takeInts p (castL l) = takeIdx p l
  | [], _, _, p, hp, _, _ => by simp at hp
  | q :: qs, d, h, p, hp, l, hl => by
    rw [WFL] at h
    rcases List.mem_cons.1 hp with e | hp
    · rw [e] at hl ⊢
      exact takeInts_nat q h.1 l hl
    · exact takeInts_natL qs d h.2.2 p hp l hl
end

/-! ### C72: take_channels -/

/-- C72: `take_channels` with a list of numbers gives the channels numpy selects, if the image is not a concat or no
number counts from the end.  Missing: numbers that count from the end in concats, `C72_negative_violated`. -/
theorem C72_take_partial {E : Env V} (hE : Env.Shaped E) {n : Node} (hb : Tree.Built n) (hm : Each E.Matches n)
    {i : Img V} (hi : fin E n = .ok i) {l : List Int} {ps : List Nat} (hp : List.Forall₂ (Counts n.nchan) l ps)
    (hc : (∀ qs d, n ≠ .concat qs d) ∨ ∀ k ∈ l, 0 ≤ k) {t : Node} (h : takeInts n l = .ok t) :
    t.channels = n.channels.map (fun names => ps.map (fun m => names.getD m [])) ∧ t.dsize = n.dsize ∧
    ∃ j, fin E t = .ok j ∧ j.h = i.h ∧ j.w = i.w ∧ j.n = l.length ∧
      ∀ k m, ps[k]? = some m → ∀ y x, y < i.h → x < i.w → j.px y x k = i.px y x m := by
  have hr : ∀ m ∈ ps, m < n.nchan := picks_lt (c := .list l) hp
  have e : takeInts n l = takeIdx n ps := by
    rcases hc with hc | hc
    · rw [takeInts_image hc, takeIdx_image hc]
      exact cropC_eq (names_length hb.ok.1) (c := .list l) hp (.inr ⟨_, rfl⟩)
    · have el : l = castL ps := by
        clear h hr
        induction hp with
        | nil => rfl
        | cons h1 _ ih =>
          rw [castL, List.map_cons, ih (fun k hk => hc k (by simp [hk]))]
          have h0 := hc _ (List.mem_cons_self ..)
          rcases h1 with ⟨h2, h3 | h3⟩
          · rw [h3]
          · omega
      rw [el]
      exact takeInts_nat n hb.ok.1 ps hr
  rw [e] at h
  have := C27_take_by_index hE hb hm hi hr h
  rwa [← List.Forall₂.length_eq hp] at this

/-- C72: in a concat negative numbers count from the end of the first part: the result shows the channels of the
first part, whatever the other parts are. -/
theorem C72_negative_pixels {E : Env V} (hE : Env.Shaped E) {p : Node} {qs : List Node} {d : Int × Int}
    (hb : Tree.Built p) (hm : Each E.Matches p) (hc : ∀ qs d, p ≠ .concat qs d) (hk : (channelsL (p :: qs)).isSome)
    {i : Img V} (hi : fin E p = .ok i) {l : List Int} {ps : List Nat} (hne : l ≠ []) (hl : ∀ k ∈ l, k < 0)
    (hp : List.Forall₂ (Counts p.nchan) l ps) :
    ∃ t j, takeInts (.concat (p :: qs) d) l = .ok t ∧ fin E t = .ok j ∧ j.n = l.length ∧
      ∀ k m, ps[k]? = some m → ∀ y x, y < i.h → x < i.w → j.px y x k = i.px y x m := by
  have hr : ∀ m ∈ ps, m < p.nchan := picks_lt (c := .list l) hp
  have e : takeInts p l = takeIdx p ps := by
    rw [takeInts_image hc, takeIdx_image hc]
    exact cropC_eq (names_length hb.ok.1) (c := .list l) hp (.inr ⟨_, rfl⟩)
  have hps : ps ≠ [] := by
    rintro rfl
    cases hp
    exact hne rfl
  obtain ⟨t, ht⟩ := takeIdx_total p hb.ok.1 (channelsL_some hk p (by simp)) ps hps hr
  rw [← e] at ht
  obtain ⟨-, -, j, hj, -, -, hn, hpx⟩ := C72_take_partial hE hb hm hi hp (.inl hc) ht
  refine ⟨.concat [t] t.dsize, j, ?_, ?_, hn, hpx⟩
  · rw [C72_negative_first_part hk hne hl, ht]
  · rw [fin, finL, hj, finL]
    rfl

/-! ### C72: optimizing -/

/-- C72: if no number counts from the end, optimizing a crop of a concat is optimizing the crop with these positions
(to which C36, C61 and the other theorems about `optimize` apply). -/
theorem C72_optimize_partial (H : Heur) (fuel : Nat) {n : Node} (hb : Tree.Built n) {sl : Option Space} {l : List Nat}
    (hl : ∀ i ∈ l, i < n.nchan) {t : RawCrop Quantization} (ht : mkRawCrop n sl (.list (castL l)) = .ok t)
    {r : Py Node} (h : optCropC H fuel t = some r) :
    mkCrop n sl (some l) = .ok t.node ∧ opt H (fuel + 1) t.node = r := by
  obtain ⟨e1, e2, e3, -⟩ := mkRawCrop_form ht
  have hp : Picks n.nchan (.list (castL l)) l := counts_nat hl
  have hnode : t.node = .crop t.sub t.y0 t.y1 t.x0 t.x1 (some l) :=
    node_picks (ps := l) (by rw [e1, e2]; exact hp)
  refine ⟨?_, ?_⟩
  · rw [← cropC_eq (names_length hb.ok.1) hp (.inr ⟨_, rfl⟩), cropC, ht]
  · rw [hnode]
    unfold optCropC at h
    split at h
    · rename_i ps d hs
      simp only [Option.some.injEq] at h
      rw [← h, opt, optStep, optCrop, hs]
      simp only [cropRest, finishCrop]
      rw [e1] at hs
      have g := opt_good (deep := false) (nameRules H) (by simp) fuel n _ hb.ok.1 hs
      have hcn : (Node.concat ps d : Node).nchan = n.nchan := g.rel.nchan
      unfold cropConcat cropConcatC
      rw [e2]
      simp only [takeC]
      rw [takeInts_nat (.concat ps d) g.inv l (by rw [hcn]; exact hl)]
      cases takeIdx (.concat ps d) l <;> rfl
    · cases h

/-- Two pictures with the codes `r|g|b` and `c|x|y`. -/
def twoParts : Node := .concat [.leaf rgbLeaf, .leaf cLeaf] (5, 4)

/-- Every pixel knows its file, its column and its channel. -/
def fileEnv : Env (Nat × Nat × Nat) := { gridEnv with img := fun id => ⟨4, 5, 3, fun _ x k => (id, x, k)⟩ }

/-- The codes and the first pixels of all channels of an image. -/
def glance (E : Env V) (n : Node) : Option (Option (List Str) × List V) :=
  match fin E n with
  | .ok i => some (n.channels, (List.range i.n).map (fun k => i.px 0 0 k))
  | .error _ => none

/-- C72 fails for concats: the last channel is asked for, the last channel of the first part is returned; and
numbers that exist in numpy raise IndexError. -/
theorem C72_negative_violated :
    glance fileEnv twoParts = some (some [p! "r", p! "g", p! "b", p! "c", p! "x", p! "y"],
      [(1, 0, 0), (1, 0, 1), (1, 0, 2), (2, 0, 0), (2, 0, 1), (2, 0, 2)]) ∧
    Picks 6 (.list [-1]) [5] ∧
    (∃ t, takeInts twoParts [-1] = .ok t ∧ glance fileEnv t = some (some [p! "b"], [(1, 0, 2)])) ∧
    Picks 6 (.list [-4]) [2] ∧ takeInts twoParts [-4] = .error .indexError := by
  refine ⟨by decide +kernel, by simp [Picks, Counts], ?_, by simp [Picks, Counts], raises_iff (by decide +kernel)⟩
  obtain ⟨t, h1, h2⟩ := holds_ok (x := takeInts twoParts [-1])
    (f := fun t => decide (glance fileEnv t = some (some [p! "b"], [(1, 0, 2)]))) (by decide +kernel)
  exact ⟨t, h1, of_decide_eq_true h2⟩

/-- The whole picture. -/
def everywhere : Space := ((none, none), (none, none))

/-- What is shown by the optimized form of `twoParts[:, :, c]`. -/
def shows (c : CIdx) : Option (Option (List Str) × List (Nat × Nat × Nat)) :=
  match mkRawCrop twoParts (some everywhere) c with
  | .error _ => none
  | .ok t =>
    match optCropC Heur.code 20 t with
    | some (.ok m) => glance fileEnv m
    | _ => none

/-- What is shown by `twoParts[:, :, c]`. -/
def showsRaw (c : CIdx) : Option (Option (List Str) × List (Nat × Nat × Nat)) :=
  match mkRawCrop twoParts (some everywhere) c with
  | .error _ => none
  | .ok t => match t.fin fileEnv with
    | .error _ => none
    | .ok i => some (t.names, (List.range i.n).map (fun k => i.px 0 0 k))

/-- C72 fails with `optimize`: a number counted from the end selects another channel than without. -/
theorem C72_optimize_negative_violated :
    showsRaw (.list [-1]) = some (some [p! "y"], [(2, 0, 2)]) ∧
    shows (.list [-1]) = some (some [p! "b"], [(1, 0, 2)]) :=
  ⟨by decide +kernel, by decide +kernel⟩

/-- C72 fails with `optimize`: a single number is taken for a number of channels.  Channel 1 is asked for; a channel
`u0` of NaN is returned. -/
theorem C72_optimize_number_violated :
    showsRaw (.int 1) = some (some [p! "g"], [(1, 0, 1)]) ∧
    shows (.int 1) = some (some [p! "u0"], [(9, 9, 9)]) :=
  ⟨by decide +kernel, by decide +kernel⟩

/-- C72 fails with `optimize`: slices of channels of a concat, with or without a step, raise TypeError, at
every concat. -/
theorem C72_optimize_slice_violated (H : Heur) (fuel : Nat) {n : Node} {sl : Option Space} {a b : Option Int}
    {t : RawCrop Quantization} (ht : mkRawCrop n sl (.slice a b) = .ok t ∨ ∃ k, mkRawCrop n sl (.step a b k) = .ok t)
    {r : Py Node} (h : optCropC H fuel t = some r) : r = .error .typeError := by
  have e2 : t.c = .slice a b ∨ ∃ k, t.c = .step a b k := by
    rcases ht with ht | ⟨k, ht⟩
    · exact .inl (mkRawCrop_form ht).2.1
    · exact .inr ⟨k, (mkRawCrop_form ht).2.1⟩
  unfold optCropC at h
  split at h
  · simp only [Option.some.injEq] at h
    rw [← h]
    rcases e2 with e2 | ⟨k, e2⟩ <;> rw [e2] <;> rfl
  · cases h

/-- Non-vacuity of the step: every other channel from the end. -/
example : showsRaw (.step none none (-2)) =
      some (some [p! "y", p! "c", p! "g"], [(2, 0, 2), (2, 0, 0), (1, 0, 1)]) ∧
    Picks 6 (.step none none (-2)) [5, 3, 1] := ⟨by decide +kernel, stride_strides (by decide)⟩

/-- Non-vacuity: the slice is shown without `optimize`. -/
example : showsRaw (.slice (some 1) (some (-3))) = some (some [p! "g", p! "b"], [(1, 0, 1), (1, 0, 2)]) ∧
    holds (mkRawCrop twoParts (some everywhere) (.slice (some 1) (some (-3))))
      (fun t => (optCropC Heur.code 20 t).isSome) = true := ⟨by decide +kernel, by decide +kernel⟩

/-- Non-vacuity of `C72_take_partial`, `C72_negative_pixels` and `C72_optimize_partial`. -/
example : Tree.Built twoParts ∧ (∃ t, takeInts twoParts [5, 0] = .ok t) ∧ (∃ t, takeInts (.leaf rgbLeaf : Node) [-1] = .ok t) ∧
    shows (.list [5, 0]) = some (some [p! "y", p! "r"], [(2, 0, 2), (1, 0, 0)]) ∧
    List.Forall₂ (Counts 3) [-1, -3] [2, 0] := by
  refine ⟨?_, ?_, ?_, by decide +kernel, by simp [Counts]⟩
  · refine .concat [.leaf rgbLeaf, .leaf cLeaf] _ ?_ rfl
    intro p hp
    simp only [List.mem_cons, List.not_mem_nil, or_false] at hp
    rcases hp with rfl | rfl
    · exact .leaf _ ⟨by intro l h; simp only [rgbLeaf, Option.some.injEq] at h; subst h; rfl, by intro h; cases h⟩
        ⟨by decide, by decide⟩
    · exact .leaf _ ⟨by intro l h; simp only [cLeaf, Option.some.injEq] at h; subst h; rfl, by intro h; cases h⟩
        ⟨by decide, by decide⟩
  · obtain ⟨t, h, -⟩ := holds_ok (x := takeInts twoParts [5, 0]) (f := fun _ => true) (by decide +kernel)
    exact ⟨t, h⟩
  · obtain ⟨t, h, -⟩ := holds_ok (x := takeInts (.leaf rgbLeaf : Node) [-1]) (f := fun _ => true) (by decide +kernel)
    exact ⟨t, h⟩

end Verif.Props
