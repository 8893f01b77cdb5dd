/-
C87: the element type of arrays, and the border it decides.
-/
import Verif.TypeRules
import Verif.Props.Needed
import Verif.Props.Whole

namespace Verif.Props

open Tree Helpers Node

/-! #### specification -/

/-- The type of the values of a channel by itself: the one named by the last dequantization, or the one of its
file; a channel that comes from nowhere consists of NaN. -/
def chanType (N : Np) (c : Src) : Elem :=
  match c.qs.getLast? with
  | some q => N.orig q
  | none =>
    match c.leaf with
    | some (f, _) => N.file f
    | none => .f64

/-- The channel consists of floats. -/
def ownFloat (N : Np) (c : Src) : Bool := (chanType N c).float

/-- The type that holds all values of several types. -/
def joinOf (l : List Elem) : Elem := l.foldr promote .bool

/-- Arrays of types in `S` put together hold floats iff one of them does.  (An array of `uint64` and an array of
`int64` are put together to floats.) -/
def Np.Floats (N : Np) (S : Elem → Prop) : Prop := ∀ l, l ≠ [] → (∀ a ∈ l, S a) →
  S (N.result l) ∧ (N.result l).float = l.any Elem.float

/-- A set of types for which it does not matter in which order they are promoted. -/
structure Joins (S : Elem → Prop) : Prop where
  bool : S .bool
  closed : ∀ a b, S a → S b → S (promote a b)
  assoc : ∀ a b c, S a → S b → S c → promote (promote a b) c = promote a (promote b c)

/-- `np.result_type` of types in such a set. -/
def Np.Result (N : Np) (S : Elem → Prop) : Prop := ∀ l, l ≠ [] → (∀ a ∈ l, S a) → N.result l = joinOf l

/-- A leaf with channels. -/
def Banded (l : Leaf) : Prop := l.nchan ≠ 0

/-! #### types -/

theorem promote_comm (a b : Elem) : promote a b = promote b a := by cases a <;> cases b <;> rfl

theorem promote_self (a : Elem) : promote a a = a := by cases a <;> rfl

theorem promote_bool (a : Elem) : promote a .bool = a := by cases a <;> rfl

theorem promote_float (a b : Elem) (h : ¬ (a.kind = .u ∧ b.kind = .i) ∧ ¬ (a.kind = .i ∧ b.kind = .u)) :
    (promote a b).float = (a.float || b.float) := by
  revert h
  cases a <;> cases b <;> decide

/-- Without signed integers the order does not matter. -/
theorem joins_unsigned : Joins (fun t => t.kind ≠ .i) where
  bool := by decide
  closed := by intro a b; cases a <;> cases b <;> decide
  assoc := by intro a b c; cases a <;> cases b <;> cases c <;> decide

/-- Without unsigned integers the order does not matter. -/
theorem joins_signed : Joins (fun t => t.kind ≠ .u) where
  bool := by decide
  closed := by intro a b; cases a <;> cases b <;> decide
  assoc := by intro a b c; cases a <;> cases b <;> cases c <;> decide

/-- In general it does. -/
example : promote (promote .u16 .i16) .f32 ≠ promote .u16 (promote .i16 .f32) := by decide

/-- The integers that a type holds exactly, without gaps: `2 ^ 11`, `2 ^ 24` and `2 ^ 53` are the precisions of the
floating point formats. -/
def _root_.Verif.Tree.Elem.range : Elem → Int × Int
  | .bool => (0, 1)
  | .u8 => (0, 2 ^ 8 - 1)
  | .u16 => (0, 2 ^ 16 - 1)
  | .u32 => (0, 2 ^ 32 - 1)
  | .u64 => (0, 2 ^ 64 - 1)
  | .i8 => (-2 ^ 7, 2 ^ 7 - 1)
  | .i16 => (-2 ^ 15, 2 ^ 15 - 1)
  | .i32 => (-2 ^ 31, 2 ^ 31 - 1)
  | .i64 => (-2 ^ 63, 2 ^ 63 - 1)
  | .f16 => (-2 ^ 11, 2 ^ 11)
  | .f32 => (-2 ^ 24, 2 ^ 24)
  | .f64 => (-2 ^ 53, 2 ^ 53)

/-- An integer among them. -/
def _root_.Verif.Tree.Elem.Has (t : Elem) (k : Int) : Prop := t.range.1 ≤ k ∧ k ≤ t.range.2

/-- C87, types of arrays put together: the common type of two types holds the numbers of both (64 bit integers excepted,
which numpy may turn into floats), and no smaller type of its kind does. -/
theorem C87_common_partial (a b : Elem) :
    (∀ k, a.Has k → (a ≠ .u64 ∧ a ≠ .i64) ∨ (promote a b).float = false → (promote a b).Has k) ∧
    (∀ k, b.Has k → (b ≠ .u64 ∧ b ≠ .i64) ∨ (promote a b).float = false → (promote a b).Has k) ∧
    ∀ t : Elem, t.kind = (promote a b).kind → (∀ k, a.Has k → t.Has k) → (∀ k, b.Has k → t.Has k) →
      (promote a b).bits ≤ t.bits := by
  have key : ∀ s t : Elem, (∀ k, s.Has k → t.Has k) ↔ t.range.1 ≤ s.range.1 ∧ s.range.2 ≤ t.range.2 := by
    intro s t
    constructor
    · intro h
      have h0 : s.range.1 ≤ s.range.2 := by cases s <;> decide
      exact ⟨(h _ ⟨le_refl _, h0⟩).1, (h _ ⟨h0, le_refl _⟩).2⟩
    · rintro ⟨h1, h2⟩ k ⟨h3, h4⟩
      exact ⟨h1.trans h3, h4.trans h2⟩
  refine ⟨fun k hk hx => (key a _).2 ?_ k hk, fun k hk hx => (key b _).2 ?_ k hk, fun t ht h1 h2 => ?_⟩
  · revert hx; clear hk key; cases a <;> cases b <;> decide
  · revert hx; clear hk key; cases a <;> cases b <;> decide
  · rw [key] at h1 h2
    revert ht h1 h2
    clear key
    cases a <;> cases b <;> cases t <;> decide

/-- Bytes next to signed bytes need two bytes. -/
example : promote .u8 .i8 = .i16 ∧ promote .i32 .f32 = .f64 ∧ promote .u64 .i8 = .f64 := by decide

theorem joinOf_const {l : List Elem} {t : Elem} (h : ∀ a ∈ l, a = t) (hl : l ≠ []) : joinOf l = t := by
  induction l with
  | nil => exact absurd rfl hl
  | cons a l ih =>
    rw [joinOf, List.foldr_cons, h a (by simp)]
    cases l with
    | nil => exact promote_bool t
    | cons b l =>
      have := ih (fun x hx => h x (by simp [hx])) (by simp)
      rw [joinOf] at this
      rw [this, promote_self]

variable {S : Elem → Prop}

theorem Joins.join (h : Joins S) {l : List Elem} (hl : ∀ a ∈ l, S a) : S (joinOf l) := by
  induction l with
  | nil => exact h.bool
  | cons a l ih => exact h.closed _ _ (hl a (by simp)) (ih fun x hx => hl x (by simp [hx]))

theorem Joins.append (h : Joins S) {l k : List Elem} (hl : ∀ a ∈ l, S a) (hk : ∀ a ∈ k, S a) :
    joinOf (l ++ k) = promote (joinOf l) (joinOf k) := by
  induction l with
  | nil => rw [List.nil_append, promote_comm]; exact (promote_bool _).symm
  | cons a l ih =>
    have hl' : ∀ x ∈ l, S x := fun x hx => hl x (by simp [hx])
    have := ih hl'
    simp only [joinOf, List.cons_append, List.foldr_cons] at this ⊢
    rw [this]
    exact (h.assoc _ _ _ (hl a (by simp)) (h.join hl') (h.join hk)).symm

/-! #### trees -/

/-- All channels of an image that is not put together have the type of its array. -/
theorem solo_type (N : Np) : ∀ n : Node, Solo n → WF n → ∀ c ∈ src n, chanType N c = elem N n
  | .leaf l, _, _, c, hc => by
    rw [src] at hc
    obtain ⟨i, _, rfl⟩ := List.mem_map.1 hc
    cases hn : l.nan <;> simp [chanType, elem, hn]
  | .concat .., h, _, _, _ => h.elim
  | .warp s _ _ _, h, hw, c, hc => by
    rw [src_warp] at hc
    exact solo_type N s h hw.1 c hc
  | .crop s _ _ _ _ ch, h, hw, c, hc => by
    rw [src_crop] at hc
    cases ch with
    | none => exact solo_type N s h hw.1 c hc
    | some ch =>
      exact solo_type N s h hw.1 c (pick_mem (fun i hi => by rw [src_length]; exact hw.2.2.2 i hi) hc)
  | .overview s _ _, h, hw, c, hc => by
    rw [src_overview] at hc
    exact solo_type N s h hw c hc
  | .dequant s q _, _, _, c, hc => by
    rw [src_dequant] at hc
    obtain ⟨t, _, rfl⟩ := List.mem_map.1 hc
    simp [chanType, Src.deq, elem]

mutual
theorem live_src : ∀ n : Node, WF n → Fair n → Each Banded n → src n ≠ []
  | .leaf l, _, _, h => fun e => h (by have := src_length (.leaf l); rw [e] at this; exact this.symm)
  | .concat ps d, hw, hf, h => by rw [src_concat]; exact live_srcL ps d hw.2 hf h hw.1
  | .warp s _ _ _, hw, hf, h => by rw [src_warp]; exact live_src s hw.1 hf h
  | .crop s _ _ _ _ c, hw, hf, h => by
    rw [src_crop]
    cases c with
    | none => exact live_src s hw.1 hf.1 h
    | some c =>
      intro e
      simp only [selSrc, pick, List.map_eq_nil_iff] at e
      exact hf.2 (by rw [e])
  | .overview s _ _, hw, hf, h => by rw [src_overview]; exact live_src s hw hf h
  | .dequant s _ _, hw, hf, h => by rw [src_dequant]; simpa using live_src s hw hf h
theorem live_srcL : ∀ (ps : List Node) (d : Int × Int), WFL d ps → FairL ps → EachL Banded ps → ps ≠ [] → srcL ps ≠ []
  | [], _, _, _, _, h => absurd rfl h
  | p :: ps, _, hw, hf, h, _ => by rw [srcL]; simp [live_src p hw.1 hf.1 h.1]
end

theorem any_const {α : Type} {f : α → Bool} {l : List α} {b : Bool} (h : ∀ a ∈ l, f a = b) (hl : l ≠ []) :
    l.any f = b := by
  cases b with
  | true =>
    obtain ⟨a, ha⟩ := List.exists_mem_of_ne_nil _ hl
    exact List.any_eq_true.2 ⟨a, ha, h a ha⟩
  | false => exact List.any_eq_false.2 fun a ha => by simp [h a ha]

theorem solo_float (N : Np) {n : Node} (hs : Solo n) (hw : WF n) (hl : src n ≠ []) :
    (elem N n).float = (src n).any (ownFloat N) :=
  (any_const (fun c hc => by rw [ownFloat, solo_type N n hs hw c hc]) hl).symm

theorem solo_join (N : Np) {n : Node} (hs : Solo n) (hw : WF n) (hl : src n ≠ []) :
    elem N n = joinOf ((src n).map (chanType N)) :=
  (joinOf_const (by
    intro a ha
    obtain ⟨c, hc, rfl⟩ := List.mem_map.1 ha
    exact solo_type N n hs hw c hc) (by simpa using hl)).symm

theorem solo_in (N : Np) {n : Node} (hs : Solo n) (hw : WF n) (hl : src n ≠ []) (hc : ∀ c ∈ src n, S (chanType N c)) :
    S (elem N n) := by
  obtain ⟨c, h⟩ := List.exists_mem_of_ne_nil _ hl
  rw [← solo_type N n hs hw c h]
  exact hc c h

mutual
theorem tidy_float {N : Np} (hN : Np.Floats N S) : ∀ n : Node, Unpicked n → WF n → Fair n → Each Banded n →
    (∀ c ∈ src n, S (chanType N c)) → S (elem N n) ∧ (elem N n).float = (src n).any (ownFloat N)
  | .leaf l, _, hw, hf, h, hc =>
    ⟨solo_in N trivial hw (live_src _ hw hf h) hc, solo_float N trivial hw (live_src _ hw hf h)⟩
  | .concat ps d, ht, hw, hf, h, hc => by
    rw [src_concat] at hc ⊢
    obtain ⟨e1, e2⟩ := tidy_floatL hN ps d ht hw.2 hf h hc
    rw [elem, ← e2]
    exact hN _ (by have := hw.1; cases ps <;> simp [elemL] at this ⊢) e1
  | .warp s _ _ _, ht, hw, hf, h, hc => by
    rw [src_warp] at hc ⊢
    rw [elem]; exact tidy_float hN s ht hw.1 hf h hc
  | .crop s y0 y1 x0 x1 c, ht, hw, hf, h, hc => by
    rcases ht.2 with rfl | hs
    · rw [src_crop] at hc ⊢
      rw [elem]; exact tidy_float hN s ht.1 hw.1 hf.1 h hc
    · exact ⟨solo_in N (n := .crop s y0 y1 x0 x1 c) hs hw (live_src _ hw hf h) hc,
        solo_float N (n := .crop s y0 y1 x0 x1 c) hs hw (live_src _ hw hf h)⟩
  | .overview s _ _, ht, hw, hf, h, hc => by
    rw [src_overview] at hc ⊢
    rw [elem]; exact tidy_float hN s ht hw hf h hc
  | .dequant s q _, ht, hw, hf, h, hc => by
    rw [src_dequant] at hc ⊢
    have key : ∀ c ∈ (src s).map (Src.deq q), chanType N c = N.orig q := by
      intro c hc
      obtain ⟨t, _, rfl⟩ := List.mem_map.1 hc
      simp [chanType, Src.deq]
    have hl : (src s).map (Src.deq q) ≠ [] := by simpa using live_src s hw hf h
    rw [elem]
    refine ⟨?_, (any_const (fun c hc => by rw [ownFloat, key c hc]) hl).symm⟩
    obtain ⟨c, hc'⟩ := List.exists_mem_of_ne_nil _ hl
    rw [← key c hc']
    exact hc c hc'
theorem tidy_floatL {N : Np} (hN : Np.Floats N S) : ∀ (ps : List Node) (d : Int × Int), UnpickedL ps → WFL d ps → FairL ps →
    EachL Banded ps → (∀ c ∈ srcL ps, S (chanType N c)) →
    (∀ a ∈ elemL N ps, S a) ∧ (elemL N ps).any Elem.float = (srcL ps).any (ownFloat N)
  | [], _, _, _, _, _, _ => ⟨by simp [elemL], rfl⟩
  | p :: ps, d, ht, hw, hf, h, hc => by
    rw [srcL] at hc ⊢
    obtain ⟨e1, e2⟩ := tidy_float hN p ht.1 hw.1 hf.1 h.1 fun c hc' => hc c (List.mem_append_left _ hc')
    obtain ⟨f1, f2⟩ := tidy_floatL hN ps d ht.2 hw.2.2 hf.2 h.2 fun c hc' => hc c (List.mem_append_right _ hc')
    rw [elemL, List.any_cons, List.any_append, e2, f2]
    refine ⟨fun a ha => ?_, rfl⟩
    rcases List.mem_cons.1 ha with rfl | ha
    · exact e1
    · exact f1 a ha
end

mutual
theorem tidy_join {N : Np} (hS : Joins S) (hN : Np.Result N S) : ∀ n : Node, Unpicked n → WF n → Fair n → Each Banded n →
    (∀ c ∈ src n, S (chanType N c)) → elem N n = joinOf ((src n).map (chanType N))
  | .leaf l, _, hw, hf, h, _ => solo_join N trivial hw (live_src _ hw hf h)
  | .concat ps d, ht, hw, hf, h, hc => by
    rw [src_concat] at hc ⊢
    obtain ⟨e1, e2⟩ := tidy_joinL hS hN ps d ht hw.2 hf h hc
    rw [elem, hN _ (by have := hw.1; cases ps <;> simp [elemL] at this ⊢) e2, e1]
  | .warp s _ _ _, ht, hw, hf, h, hc => by
    rw [src_warp] at hc ⊢
    rw [elem]; exact tidy_join hS hN s ht hw.1 hf h hc
  | .crop s y0 y1 x0 x1 c, ht, hw, hf, h, hc => by
    rcases ht.2 with rfl | hs
    · rw [src_crop] at hc ⊢
      rw [elem]; exact tidy_join hS hN s ht.1 hw.1 hf.1 h hc
    · exact solo_join N (n := .crop s y0 y1 x0 x1 c) hs hw (live_src _ hw hf h)
  | .overview s _ _, ht, hw, hf, h, hc => by
    rw [src_overview] at hc ⊢
    rw [elem]; exact tidy_join hS hN s ht hw hf h hc
  | .dequant s q _, ht, hw, hf, h, _ => by
    rw [src_dequant, elem]
    refine (joinOf_const (fun c hc => ?_) (by simpa using live_src s hw hf h)).symm
    rw [List.map_map] at hc
    obtain ⟨t, _, rfl⟩ := List.mem_map.1 hc
    simp [chanType, Src.deq]
theorem tidy_joinL {N : Np} (hS : Joins S) (hN : Np.Result N S) : ∀ (ps : List Node) (d : Int × Int), UnpickedL ps → WFL d ps →
    FairL ps → EachL Banded ps → (∀ c ∈ srcL ps, S (chanType N c)) →
    joinOf (elemL N ps) = joinOf ((srcL ps).map (chanType N)) ∧ ∀ a ∈ elemL N ps, S a
  | [], _, _, _, _, _, _ => ⟨rfl, by simp [elemL]⟩
  | p :: ps, d, ht, hw, hf, h, hc => by
    rw [srcL] at hc ⊢
    have h1 : ∀ c ∈ src p, S (chanType N c) := fun c hc' => hc c (List.mem_append_left _ hc')
    have h2 : ∀ c ∈ srcL ps, S (chanType N c) := fun c hc' => hc c (List.mem_append_right _ hc')
    have e := tidy_join hS hN p ht.1 hw.1 hf.1 h.1 h1
    obtain ⟨f1, f2⟩ := tidy_joinL hS hN ps d ht.2 hw.2.2 hf.2 h.2 h2
    have s1 : ∀ a ∈ (src p).map (chanType N), S a := by
      intro a ha
      obtain ⟨c, hc', rfl⟩ := List.mem_map.1 ha
      exact h1 c hc'
    have s2 : ∀ a ∈ (srcL ps).map (chanType N), S a := by
      intro a ha
      obtain ⟨c, hc', rfl⟩ := List.mem_map.1 ha
      exact h2 c hc'
    constructor
    · rw [List.map_append, hS.append s1 s2, ← e, ← f1, elemL]; rfl
    · rw [elemL]
      intro a ha
      rcases List.mem_cons.1 ha with rfl | ha
      · rw [e]; exact hS.join s1
      · exact f2 a ha
end

/-! #### optimized images -/

mutual
/-- A selection of channels by positions makes no leaves. -/
theorem takeIdx_each {f : Leaf → Prop} : ∀ (n : Node), Each f n → ∀ idxs t, takeIdx n idxs = .ok t → Each f t
  | .leaf l, hn, idxs, t, h => by rw [takeIdx] at h; exact (firm_each f).mkCrop hn h
  | .warp s tf d a, hn, idxs, t, h => by rw [takeIdx] at h; exact (firm_each f).mkCrop hn h
  | .crop s y0 y1 x0 x1 c, hn, idxs, t, h => by rw [takeIdx] at h; exact (firm_each f).mkCrop hn h
  | .overview s k d, hn, idxs, t, h => by rw [takeIdx] at h; exact (firm_each f).mkCrop hn h
  | .dequant s q d, hn, idxs, t, h => by rw [takeIdx] at h; exact (firm_each f).mkCrop hn h
  | .concat ps d, hn, idxs, t, h => by
    have hps := takeIdx_eachL ps hn
    rw [takeIdx] at h
    split at h
    · cases h
    · unfold concatTake at h
      split at h
      · cases h
      · rename_i segs hsegs
        split at h
        · cases h
        · rename_i comps hcomps
          obtain ⟨d', rfl, _, _⟩ := mkConcat_ok h
          refine (EachL_iff _ _).2 fun q hq => ?_
          obtain ⟨sg, hsg, hsub⟩ := forall₂_mem_right (mapAll_ok hcomps) hq
          obtain ⟨r1, _, r3⟩ := accLoop_ok hsegs (by simp [accSegs])
          have r4 := accLoop_nonempty hsegs (by simp [accSegs])
          simp only [accSegs, Option.toList_none, List.append_nil, List.flatMap_nil, List.nil_append] at r1
          unfold Seg.sub at hsub
          split at hsub
          · rename_i hcomp
            exfalso
            obtain ⟨j, hj⟩ := List.exists_mem_of_ne_nil _ (r4 sg hsg)
            have : Option.none ∈ segs.flatMap Seg.rep := by
              rw [List.mem_flatMap]
              exact ⟨sg, hsg, by simp only [Seg.rep, List.mem_map]; exact ⟨j, hj, by simp [hcomp]⟩⟩
            rw [r1, List.mem_map] at this
            obtain ⟨r, hr, e⟩ := this
            have hs : r.1.isSome := by
              obtain ⟨i, _, rfl⟩ := List.mem_map.1 hr
              rfl
            have := r3 r hr hs
            rw [e] at this
            cases this
          · rename_i o ho
            rw [takers_eq] at hsub
            simp only [List.getElem?_map] at hsub
            cases hp : ps[o]? with
            | none => rw [hp] at hsub; simp at hsub
            | some p =>
              rw [hp] at hsub
              simp only [Option.map_some] at hsub
              have hmem : p ∈ ps := List.mem_of_getElem? hp
              split at hsub
              · cases hsub
              · cases hsub; exact (EachL_iff _ _).1 hn _ hmem
              · rename_i idxs' hix
                exact hps p hmem idxs' q hsub
theorem takeIdx_eachL {f : Leaf → Prop} : ∀ (ps : List Node), EachL f ps → ∀ p ∈ ps, ∀ idxs t,
    takeIdx p idxs = .ok t → Each f t
  | [], _, p, hp, _, _, _ => by simp at hp
  | q :: qs, hq, p, hp, idxs, t, ht => by
    rcases List.mem_cons.1 hp with e | hp
    · rw [e] at ht; exact takeIdx_each q hq.1 idxs t ht
    · exact takeIdx_eachL qs hq.2 p hp idxs t ht
end

theorem nanLeaf_banded {k : Nat} {d : Int × Int} {names : List Str} (h : names ≠ []) :
    Each Banded (nanLeaf k d (some names)) := by
  cases names with
  | nil => exact absurd rfl h
  | cons a l => simp [nanLeaf, Each, Banded]

/-- `optimize` makes no leaves without channels. -/
theorem bandedRules (H : Heur) : Rules H (fun n => Sane n ∧ Each Banded n) Drops := by
  refine keepRulesIn H (saneRules H) (firm_each Banded) (fun _ hc ht => takeIdx_each _ hc _ _ ht) ?_ ?_
  · intro l tf d a h hn hl
    have hw := h.plain.wf.1
    obtain ⟨names, e⟩ := Option.isSome_iff_exists.1 (hw.2 hn).1
    rw [e]
    refine nanLeaf_banded fun e' => hl ?_
    rw [← hw.1 _ e, e']; rfl
  · intro l y0 y1 x0 x1 c r h hn hl hr
    have hw := h.plain.wf.1
    obtain ⟨names, e⟩ := Option.isSome_iff_exists.1 (hw.2 hn).1
    have hnn : names ≠ [] := fun e' => hl (by rw [← hw.1 _ e, e']; rfl)
    have hc := h.fair.2
    unfold nanCrop at hr
    cases c with
    | none =>
      simp only [e] at hr
      split at hr
      · cases hr
      · split at hr
        · cases hr
        · cases hr; exact nanLeaf_banded hnn
    | some c =>
      simp only [e] at hr
      split at hr
      · cases hr
      · rename_i ns hns
        split at hns
        · cases hns
          split at hr
          · cases hr
          · split at hr
            · cases hr
            · cases hr
              refine nanLeaf_banded fun e' => hc ?_
              simp only [pick, List.map_eq_nil_iff] at e'
              rw [e']
        · cases hns

mutual
theorem nf_unpicked {H : Heur} : ∀ m : Node, NF H true m → Unpicked m
  | .leaf _, _ => trivial
  | .concat ps _, h => nfL_unpicked ps (by rw [NF] at h; exact h rfl)
  | .warp s _ _ _, h => nf_unpicked s h.1
  | .crop s y0 y1 x0 x1 c, h =>
    ⟨nf_unpicked s h.1, .inr (nf_solo (.crop s y0 y1 x0 x1 c) h (by simp))⟩
  | .overview s _ _, h => nf_unpicked s h.1
  | .dequant s _ _, h => nf_unpicked s h.1
theorem nfL_unpicked {H : Heur} : ∀ ps : List Node, NFL H true ps → UnpickedL ps
  | [], _ => trivial
  | p :: ps, h => ⟨nf_unpicked p h.1, nfL_unpicked ps h.2⟩
end

/-- C87, kinds: the array of an optimized image consists of floats iff one of its channels does by itself, whatever
else the image is made of; and it does before iff it does afterwards, unless channels are selected from images put
together.  Missing: overviews. -/
theorem C87_kind_partial (H : Heur) {N : Np} (hN : Np.Floats N S) {n : Node} (hb : Tree.Built n) (ho : NoOv n) (hf : Fair n)
    (hc : Each Banded n) (ht : ∀ c ∈ src n, S (chanType N c)) (fuel : Nat) {m : Node} (h : opt H fuel n = .ok m) :
    ((elem N m).float = true ↔ ∃ c ∈ src n, (chanType N c).float = true) ∧
    (Unpicked n → (elem N n).float = (elem N m).float) := by
  have e := (C69_origin H hb fuel h).1
  have g := opt_good (deep := true) (bandedRules H) (fun _ _ _ h => h.dims.1) fuel n m
    ⟨⟨⟨hb.ok.1, hb.ok.2, ho⟩, hf⟩, hc⟩ h
  have h1 := (tidy_float hN m (nf_unpicked m g.nf) g.inv.1.plain.wf g.inv.1.fair g.inv.2 (by rwa [e])).2
  rw [e] at h1
  constructor
  · rw [h1, List.any_eq_true]; rfl
  · intro hu
    rw [h1, (tidy_float hN n hu hb.ok.1 hf hc ht).2]

/-- C87, types: the type of the array of an optimized image is the smallest one for all of its channels, if the
types of the channels can be promoted in any order.  Missing: overviews. -/
theorem C87_type_partial (H : Heur) {N : Np} (hS : Joins S) (hN : Np.Result N S) {n : Node} (hb : Tree.Built n) (ho : NoOv n)
    (hf : Fair n) (hc : Each Banded n) (ht : ∀ c ∈ src n, S (chanType N c)) (fuel : Nat) {m : Node}
    (h : opt H fuel n = .ok m) : elem N m = joinOf ((src n).map (chanType N)) := by
  rw [← (C69_origin H hb fuel h).1] at ht ⊢
  have g := opt_good (deep := true) (bandedRules H) (fun _ _ _ h => h.dims.1) fuel n m
    ⟨⟨⟨hb.ok.1, hb.ok.2, ho⟩, hf⟩, hc⟩ h
  exact tidy_join hS hN m (nf_unpicked m g.nf) g.inv.1.plain.wf g.inv.1.fair g.inv.2 ht

/-- C87: if no channels are selected from images put together, then `optimize` keeps the type of the array.  For
selections see `C87_selection_violated`. -/
theorem C87_same (H : Heur) {N : Np} (hN : ∀ l t, l ≠ [] → (∀ a ∈ l, a = t) → N.result l = t) {n : Node} (hb : Tree.Built n)
    (hu : Unpicked n) (fuel : Nat) {m : Node} (h : opt H fuel n = .ok m) : elem N m = elem N n :=
  (opt_good (deep := false) (typeRules H hN) (by simp) fuel n m ⟨hb.ok.1, hu⟩ h).rel.elem

/-! #### arrays -/

variable {V : Type} {E : Bool → Env V}

/-- The same files, read as floats or as integers. -/
structure SameFiles (E : Bool → Env V) : Prop where
  img : ∀ b, (E b).img = (E true).img
  nan : ∀ b, (E b).nan = (E true).nan
  deq : ∀ b, (E b).deq = (E true).deq

theorem SameFiles.leaf (h : SameFiles E) (b b' : Bool) (l : Leaf) : fin (E b) (.leaf l) = fin (E b') (.leaf l) := by
  simp only [fin, h.img b, h.img b', h.nan b, h.nan b']

theorem SameFiles.each (h : SameFiles E) {n : Node} (hm : Each (E true).Matches n) (b : Bool) : Each (E b).Matches n := by
  have : (E b).Matches = (E true).Matches := by
    funext l
    simp only [Env.Matches, h.img b]
  rwa [this]

/-- The type of a leaf. -/
def LeafIn (N : Np) (S : Elem → Prop) (l : Leaf) : Prop := S (if l.nan then .f64 else N.file l.id)

mutual
/-- All arrays on the way have types in `S`. -/
theorem uses_in {N : Np} (hN : Np.Floats N S) : ∀ n : Node, WF n → Each (LeafIn N S) n →
    ((∀ q, S (N.orig q)) ∨ deqs n = 0) → S (elem N n)
  | .leaf l, _, h, _ => h
  | .concat ps d, hw, h, hq => by
    rw [elem]
    refine (hN _ (by have := hw.1; cases ps <;> simp [elemL] at this ⊢) (usesL_in hN ps d hw.2 h (hq.imp_right fun e => ?_))).1
    exact (deqsL_le _ _).1 (by rw [deqs] at e; omega)
  | .warp s _ _ _, hw, h, hq => uses_in hN s hw.1 h hq
  | .crop s _ _ _ _ _, hw, h, hq => uses_in hN s hw.1 h hq
  | .overview s _ _, hw, h, hq => uses_in hN s hw h hq
  | .dequant s q _, _, _, hq => by
    rcases hq with hq | hq
    · exact hq q
    · simp [deqs] at hq
theorem usesL_in {N : Np} (hN : Np.Floats N S) : ∀ (ps : List Node) (d : Int × Int), WFL d ps → EachL (LeafIn N S) ps →
    ((∀ q, S (N.orig q)) ∨ ∀ p ∈ ps, deqs p ≤ 0) → ∀ a ∈ elemL N ps, S a
  | [], _, _, _, _ => by simp [elemL]
  | p :: ps, d, hw, h, hq => by
    rw [elemL]
    intro a ha
    rcases List.mem_cons.1 ha with rfl | ha
    · exact uses_in hN p hw.1 h.1 (hq.imp_right fun e => Nat.le_zero.1 (e p (by simp)))
    · exact usesL_in hN ps d hw.2.2 h.2 (hq.imp_right fun e q hq => e q (by simp [hq])) a ha
end

mutual
/-- With one kind of arrays everything is done with that kind. -/
theorem finT_uniform {N : Np} (hN : Np.Floats N S) (hE : SameFiles E) {b : Bool} (hb : ∀ t, S t → t.float = b) : ∀ n : Node, WF n →
    Each (LeafIn N S) n → ((∀ q, S (N.orig q)) ∨ deqs n = 0) → finT N E n = fin (E b) n
  | .leaf l, _, _, _ => by rw [finT]; exact hE.leaf _ _ l
  | .concat ps d, hw, h, hq => by
    rw [finT, fin, finT_uniformL hN hE hb ps d hw.2 h (hq.imp_right fun e => (deqsL_le _ _).1 (by rw [deqs] at e; omega))]
    cases finL (E b) ps <;> rfl
  | .warp s _ _ _, hw, h, hq => by
    rw [finT, fin, finT_uniform hN hE hb s hw.1 h hq, hb _ (uses_in hN s hw.1 h hq)]
    cases fin (E b) s <;> rfl
  | .crop s _ _ _ _ _, hw, h, hq => by
    rw [finT, fin, finT_uniform hN hE hb s hw.1 h hq]
    cases fin (E b) s <;> rfl
  | .overview s _ _, hw, h, hq => by
    rw [finT, fin, finT_uniform hN hE hb s hw h hq, hb _ (uses_in hN s hw h hq)]
    cases fin (E b) s <;> rfl
  | .dequant s q _, hw, h, hq => by
    have hq' : (∀ q, S (N.orig q)) ∨ deqs s = 0 := hq.imp_right fun e => by simp [deqs] at e
    rw [finT, fin, finT_uniform hN hE hb s hw h hq', hE.deq b]
    cases fin (E b) s <;> rfl
theorem finT_uniformL {N : Np} (hN : Np.Floats N S) (hE : SameFiles E) {b : Bool} (hb : ∀ t, S t → t.float = b) :
    ∀ (ps : List Node) (d : Int × Int), WFL d ps → EachL (LeafIn N S) ps →
    ((∀ q, S (N.orig q)) ∨ ∀ p ∈ ps, deqs p ≤ 0) → finTL N E ps = finL (E b) ps
  | [], _, _, _, _ => rfl
  | p :: ps, d, hw, h, hq => by
    rw [finTL, finL, finT_uniform hN hE hb p hw.1 h.1 (hq.imp_right fun e => Nat.le_zero.1 (e p (by simp))),
      finT_uniformL hN hE hb ps d hw.2.2 h.2 (hq.imp_right fun e q hq => e q (by simp [hq]))]
    cases fin (E b) p
    · rfl
    · cases finL (E b) ps <;> rfl
end

/-- C87, floats: if all files hold floats (and dequantization makes floats), then everything is done with floats, with
and without `optimize`; all statements about arrays that do not mention types hold as they are. -/
theorem C87_floats (H : Heur) {N : Np} (hN : Np.Floats N (fun t => t.float = true)) (hE : SameFiles E)
    (hq : ∀ q, (N.orig q).float = true) {n : Node} (hb : Tree.Built n)
    (hl : Each (fun l => l.nan = true ∨ (N.file l.id).float = true) n) (fuel : Nat) :
    finT N E n = fin (E true) n ∧ finalizeT H N E fuel n = finalize H (E true) fuel n := by
  have key : ∀ {m : Node}, Each (fun l => l.nan = true ∨ (N.file l.id).float = true) m →
      Each (LeafIn N (fun t => t.float = true)) m := by
    intro m hm
    refine each_imp (fun l hl => ?_) m hm
    rcases hl with hl | hl
    · simp [LeafIn, hl, Elem.float, Elem.kind]
    · by_cases hn : l.nan = true
      · simp [LeafIn, hn, Elem.float, Elem.kind]
      · simpa [LeafIn, hn] using hl
  refine ⟨finT_uniform hN hE (fun _ h => h) n hb.ok.1 (key hl) (.inl hq), ?_⟩
  unfold finalizeT finalize
  cases ho : opt H fuel n with
  | error e => rfl
  | ok m =>
    have g := opt_good (deep := false) (keepRules H (nameRules H)
      (stable_each (fun l => l.nan = true ∨ (N.file l.id).float = true) (fun _ _ _ => .inl rfl)))
      (by simp) fuel n m ⟨hb.ok.1, hl⟩ ho
    exact finT_uniform hN hE (fun _ h => h) m g.inv.1 (key g.inv.2) (.inl hq)

/-- C87, integers: if no file holds floats and nothing is dequantized, then everything is done with integers, with and
without `optimize`.  Missing: overviews, NaN images. -/
theorem C87_integers_partial (H : Heur) {N : Np} (hN : Np.Floats N S) (hS : ∀ t, S t → t.float = false) (hE : SameFiles E)
    {n : Node} (hb : Tree.Built n) (ho : NoOv n) (hf : Fair n) (hd : deqs n = 0)
    (hl : Each (fun l => l.nan = false ∧ S (N.file l.id)) n) (fuel : Nat) :
    finT N E n = fin (E false) n ∧ finalizeT H N E fuel n = finalize H (E false) fuel n := by
  have key : ∀ {m : Node}, Each (fun l => l.nan = false ∧ S (N.file l.id)) m → Each (LeafIn N S) m := by
    intro m hm
    refine each_imp (fun l hl => ?_) m hm
    simpa [LeafIn, hl.1] using hl.2
  refine ⟨finT_uniform hN hE hS n hb.ok.1 (key hl) (.inr hd), ?_⟩
  unfold finalizeT finalize
  cases he : opt H fuel n with
  | error e => rfl
  | ok m =>
    have g := opt_good (deep := false) (keepRulesIn H (saneRules H) (firm_each (fun l => l.nan = false ∧ S (N.file l.id)))
      (fun _ hc ht => takeIdx_each _ hc _ _ ht) (fun _ hn hl => absurd (hn.symm.trans hl.1) (by simp))
      (fun _ hn hl => absurd (hn.symm.trans hl.1) (by simp))) (by simp) fuel n m
      ⟨⟨⟨hb.ok.1, hb.ok.2, ho⟩, hf⟩, hl⟩ he
    refine finT_uniform hN hE hS m g.inv.1.plain.wf (key g.inv.2) (.inr ?_)
    have := g.rel.deq
    omega

/-! #### one channel -/

mutual
theorem finT_ok (N : Np) (hS : ∀ b, Env.Shaped (E b)) (hE : SameFiles E) : ∀ n : Node, WF n → Fit n → Each (E true).Matches n →
    Smooth n → ∃ i, finT N E n = .ok i ∧ HasShape n i
  | .leaf l, hw, hf, hm, hs => by
    rw [finT]
    obtain ⟨i, h⟩ := fin_total (hS true) (.leaf l) hw hf hm hs
    rw [hE.leaf _ true l]
    exact ⟨i, h, fin_shape (hS true) _ hw hf hm i h⟩
  | .concat ps d, hw, hf, hm, hs => by
    obtain ⟨as, e, h⟩ := finTL_ok N hS hE ps d hw.2 hf.2 hm hs
    obtain ⟨i, hi, h'⟩ := h hw.1
    exact ⟨i, by simp only [finT, e, hi], h'⟩
  | .warp s tf d a, hw, hf, hm, hs => by
    obtain ⟨i, e, hi⟩ := finT_ok N hS hE s hw.1 hf.2 hm hs.2
    have hj := (hS (elem N s).float).warp tf d a i
    simp only [Prod.mk.injEq] at hj
    obtain ⟨e1, e2, e3⟩ := hj
    have h1 := hf.1.1
    have h2 := hf.1.2
    refine ⟨_, by simp only [finT, e, finWarp, hs.1, if_false]; rfl, ?_, ?_, by rw [e3, hi.n]; rfl⟩
    · simp only [dsize]; omega
    · simp only [dsize]; omega
  | .crop s y0 y1 x0 x1 c, hw, hf, hm, hs => by
    obtain ⟨i, e, hi⟩ := finT_ok N hS hE s hw.1 hf.1 hm hs
    have ej := select_ok (i.slice (some y0, some y1) (some x0, some x1)) (c := c)
      (show IdxOk i.n c by rw [hi.n]; exact hw.2.2.2)
    obtain ⟨f0, f1, f2, f3, f4⟩ := hf
    obtain ⟨e1, e2, e3⟩ := slice_shape i hw.2.1 f1 (by rw [hi.h]; exact f2) hw.2.2.1 f3 (by rw [hi.w]; exact f4)
    obtain ⟨g1, g2, g3⟩ := select_shape ej
    refine ⟨_, by simp only [finT, e]; exact ej, by rw [g1]; exact e1, by rw [g2]; exact e2, ?_⟩
    rw [g3, e3, hi.n]
    cases c <;> rfl
  | .overview s k d, hw, hf, hm, hs => by
    obtain ⟨i, e, hi⟩ := finT_ok N hS hE s hw hf.1 hm hs
    have hd : d = (ovSize k s.dsize.1, ovSize k s.dsize.2) := hf.2
    have := (hS (elem N s).float).overview s k i
    simp only [Prod.mk.injEq] at this
    obtain ⟨e1, e2, e3⟩ := this
    have hnn := hf.1.nonneg hw
    have p1 := ovSize_nonneg k _ hnn.1
    have p2 := ovSize_nonneg k _ hnn.2
    refine ⟨_, by simp only [finT, e]; rfl, ?_, ?_, by rw [e3, hi.n]; rfl⟩
    · rw [e1, hi.h, hd]
      show _ = ovSize k s.dsize.2
      omega
    · rw [e2, hi.w, hd]
      show _ = ovSize k s.dsize.1
      omega
  | .dequant s q d, hw, hf, hm, hs => by
    obtain ⟨i, e, hi⟩ := finT_ok N hS hE s hw hf.1 hm hs
    have hd : d = s.dsize := hf.2
    refine ⟨{ i with px := fun y x k => (E true).deq q (i.px y x k) }, by simp only [finT, e], ?_, ?_, hi.n⟩
    · simp only [dsize, hd]; exact hi.h
    · simp only [dsize, hd]; exact hi.w
theorem finTL_ok (N : Np) (hS : ∀ b, Env.Shaped (E b)) (hE : SameFiles E) : ∀ (ps : List Node) (d : Int × Int), WFL d ps →
    FitL ps → EachL (E true).Matches ps → SmoothL ps → ∃ as, finTL N E ps = .ok as ∧
    (ps ≠ [] → ∃ i, catAll as = .ok i ∧ HasShape (.concat ps d) i)
  | [], _, _, _, _, _ => ⟨[], rfl, fun h => (h rfl).elim⟩
  | p :: ps, d, hw, hf, hm, hs => by
    obtain ⟨a, ea, ha⟩ := finT_ok N hS hE p hw.1 hf.1 hm.1 hs.1
    obtain ⟨bs, eb, h⟩ := finTL_ok N hS hE ps d hw.2.2 hf.2 hm.2 hs.2
    refine ⟨a :: bs, by simp only [finTL, ea, eb], fun _ => ?_⟩
    have hd : p.dsize = d := hw.2.1
    cases ps with
    | nil =>
      simp only [finTL, Except.ok.injEq] at eb
      subst eb
      refine ⟨a, rfl, ?_, ?_, ?_⟩
      · rw [ha.h, hd]; rfl
      · rw [ha.w, hd]; rfl
      · rw [ha.n]; simp [nchan, nchans]
    | cons q qs =>
      obtain ⟨c, ec, hc⟩ := h (by simp)
      cases bs with
      | nil => simp [catAll] at ec
      | cons b bs =>
        have h1 := ha.h
        have h2 := ha.w
        have h3 := hc.h
        have h4 := hc.w
        rw [hd] at h1 h2
        have h5 : a.h = c.h := by
          have : (a.h : Int) = c.h := h1.trans h3.symm
          exact_mod_cast this
        have h6 : a.w = c.w := by
          have : (a.w : Int) = c.w := h2.trans h4.symm
          exact_mod_cast this
        refine ⟨a.cat c, ?_, h1, h2, ?_⟩
        · rw [catAll]
          · rw [ec]
            simp only [h5, h6, and_self, if_true]
          · simp
        · simp only [Img.cat, ha.n, hc.n, nchan, nchans]
end

mutual
/-- Without warps the kind of the arrays does not matter. -/
theorem finT_flat (N : Np) (hE : SameFiles E) (b : Bool) : ∀ n : Node, Flat n → finT N E n = fin (E b) n
  | .leaf l, _ => by rw [finT]; exact hE.leaf _ _ l
  | .concat ps d, h => by
    rw [finT, fin, finTL_flat N hE b ps h]
    cases finL (E b) ps <;> rfl
  | .warp .., h => h.elim
  | .crop s _ _ _ _ _, h => by
    rw [finT, fin, finT_flat N hE b s h]
    cases fin (E b) s <;> rfl
  | .overview .., h => h.elim
  | .dequant s q _, h => by
    rw [finT, fin, finT_flat N hE b s h, hE.deq b]
    cases fin (E b) s <;> rfl
theorem finTL_flat (N : Np) (hE : SameFiles E) (b : Bool) : ∀ ps : List Node, FlatL ps → finTL N E ps = finL (E b) ps
  | [], _ => rfl
  | p :: ps, h => by
    rw [finTL, finL, finT_flat N hE b p h.1, finTL_flat N hE b ps h.2]
    cases fin (E b) p
    · rfl
    · cases finL (E b) ps <;> rfl
end

theorem sameAt_refl (k : Nat) (i : Img V) : SameAt k i i := ⟨rfl, rfl, rfl, fun _ _ _ _ _ => rfl⟩

theorem hasShape_same {n : Node} {i j : Img V} (hi : HasShape n i) (hj : HasShape n j) :
    i.h = j.h ∧ i.w = j.w ∧ i.n = j.n :=
  ⟨by have := hi.h.trans hj.h.symm; exact_mod_cast this, by have := hi.w.trans hj.w.symm; exact_mod_cast this,
    hi.n.trans hj.n.symm⟩

/-- One optimized image that is not put together: everything is done with the kind of its array. -/
theorem chain_channel {H : Heur} {deep : Bool} (N : Np) (hS : ∀ b, Env.Shaped (E b)) (hC : ∀ b, Env.Channelwise (E b))
    (hE : SameFiles E) : ∀ n : Node, NF H deep n → Solo n → NoOv n → Smooth n → WF n → Fit n → Each (E true).Matches n →
    ∃ i j, finT N E n = .ok i ∧ fin (E (elem N n).float) n = .ok j ∧ ∀ k, SameAt k i j
  | .leaf l, _, _, _, hs, hw, hf, hm => by
    obtain ⟨i, h⟩ := fin_total (hS (elem N (.leaf l)).float) (.leaf l) hw hf (hE.each hm _) hs
    exact ⟨i, i, by rw [finT]; exact h, h, fun k => sameAt_refl k i⟩
  | .concat .., _, h, _, _, _, _, _ => h.elim
  | .warp s tf d a, hn, hl, ho, hs, hw, hf, hm => by
    obtain ⟨i, j, h1, h2, h3⟩ := chain_channel N hS hC hE s hn.1 hl ho hs.2 hw.1 hf.2 hm
    refine ⟨_, _, by simp only [finT, h1, finWarp, hs.1, if_false]; rfl,
      by simp only [fin, elem, h2, finWarp, hs.1, if_false], fun k => (hC _).warp _ _ _ _ _ _ (h3 k)⟩
  | .crop s y0 y1 x0 x1 c, hn, hl, ho, hs, hw, hf, hm => by
    obtain ⟨i, j, h1, h2, h3⟩ := chain_channel N hS hC hE s hn.1 hl ho hs hw.1 hf.1 hm
    have hi := fin_shape (hS _) s hw.1 hf.1 (hE.each hm _) j h2
    have hij := h3 0
    have ei := select_ok (i.slice (some y0, some y1) (some x0, some x1)) (c := c)
      (show IdxOk i.n c by rw [hij.n, hi.n]; exact hw.2.2.2)
    have ej := select_ok (j.slice (some y0, some y1) (some x0, some x1)) (c := c)
      (show IdxOk j.n c by rw [hi.n]; exact hw.2.2.2)
    refine ⟨_, _, by simp only [finT, h1]; exact ei, by simp only [fin, elem, h2]; exact ej, fun k => ?_⟩
    cases c with
    | none => exact sameAt_slice (h3 k) _ _
    | some c =>
      have h4 := sameAt_slice (h3 (c.getD k 0)) (some y0, some y1) (some x0, some x1)
      refine ⟨h4.h, h4.w, rfl, fun hk y x hy hx => ?_⟩
      simp only at hk hy hx ⊢
      refine h4.px ?_ y x hy hx
      rw [List.getD_eq_getElem _ _ hk]
      show _ < i.n
      rw [hij.n, hi.n]
      exact hw.2.2.2 _ (List.getElem_mem hk)
  | .overview .., _, _, h, _, _, _, _ => h.elim
  | .dequant s q d, hn, hl, ho, hs, hw, hf, hm => by
    obtain ⟨i, h1, hi⟩ := finT_ok N hS hE s hw hf.1 hm hs
    obtain ⟨j, h2⟩ := fin_total (hS (N.orig q).float) s hw hf.1 (hE.each hm _) hs
    have hj := fin_shape (hS _) s hw hf.1 (hE.each hm _) j h2
    obtain ⟨e1, e2, e3⟩ := hasShape_same hi hj
    have key : ∀ k, SameAt k i j := by
      have hflat : Flat s ∨ s.dsize.1 = 0 ∨ s.dsize.2 = 0 := by
        obtain ⟨hn1, hn2⟩ := hn
        cases s with
        | leaf l => exact .inl trivial
        | concat => exact hl.elim
        | warp => exact hn2.elim
        | overview => exact ho.elim
        | dequant => exact hn2.elim
        | crop x y0 y1 x0 x1 c =>
          have hx := hn1.2
          cases x with
          | leaf l => exact .inl trivial
          | overview => exact ho.elim
          | warp => 
            right
            rcases hx with hx | hx
            · exact absurd hx hs.1
            · exact hx
          | _ => exact hx.elim
      intro k
      rcases hflat with hflat | hz
      · rw [finT_flat N hE (N.orig q).float s hflat, h2] at h1
        cases h1
        exact sameAt_refl k _
      · refine ⟨e1, e2, e3, fun _ y x hy hx => ?_⟩
        have := hi.h
        have := hi.w
        omega
    refine ⟨{ i with px := fun y x k => (E true).deq q (i.px y x k) }, { j with px := fun y x k => (E true).deq q (j.px y x k) },
      by simp only [finT, h1], by simp only [fin, elem, h2, hE.deq], fun k => ⟨e1, e2, e3, fun hk y x hy hx => ?_⟩⟩
    simp only
    rw [(key k).px hk y x hy hx]

theorem nf_one {H : Heur} {deep : Bool} (N : Np) (hS : ∀ b, Env.Shaped (E b)) (hC : ∀ b, Env.Channelwise (E b))
    (hE : SameFiles E) {n : Node} (hn : NF H deep n) (hx : ∀ ps d, n ≠ .concat ps d) (ho : NoOv n) (hs : Smooth n) (hw : WF n)
    (hf : Fit n) (hm : Each (E true).Matches n) {k : Nat} {c : Src} (hc : (src n)[k]? = some c) :
    ∃ i j, finT N E n = .ok i ∧ fin (E (ownFloat N c)) n = .ok j ∧ SameAt k i j := by
  have hl := nf_solo n hn hx
  obtain ⟨i, j, h1, h2, h3⟩ := chain_channel N hS hC hE n hn hl ho hs hw hf hm
  refine ⟨i, j, h1, ?_, h3 k⟩
  rw [ownFloat, solo_type N n hl hw c (List.mem_of_getElem? hc)]
  exact h2

theorem catAll_ok {a c : Img V} {l : List (Img V)} (h : catAll l = .ok c) (h1 : a.h = c.h) (h2 : a.w = c.w) :
    catAll (a :: l) = .ok (a.cat c) := by
  cases l with
  | nil => cases h
  | cons b l =>
    rw [catAll]
    · rw [h]; simp only [h1, h2, and_self, if_true]
    · simp

mutual
theorem nf_channel {H : Heur} (N : Np) (hS : ∀ b, Env.Shaped (E b)) (hC : ∀ b, Env.Channelwise (E b)) (hE : SameFiles E) :
    ∀ n : Node, NF H true n → NoOv n → Smooth n → WF n → Fit n → Each (E true).Matches n → ∀ k c, (src n)[k]? = some c →
    ∃ i j, finT N E n = .ok i ∧ fin (E (ownFloat N c)) n = .ok j ∧ SameAt k i j
  | .concat ps d, hn, ho, hs, hw, hf, hm, k, c, hc => by
    rw [src_concat] at hc
    obtain ⟨as, bs, i, j, h1, h2, h3, h4, h5⟩ := nfL_channel N hS hC hE ps d (by rw [NF] at hn; exact hn rfl) ho hs hw.2
      hf.2 hm k c hc
    exact ⟨i, j, by simp only [finT, h1, h3], by simp only [fin, h2, h4], h5⟩
  | .leaf l, hn, ho, hs, hw, hf, hm, k, c, hc => nf_one N hS hC hE hn (by simp) ho hs hw hf hm hc
  | .warp .., hn, ho, hs, hw, hf, hm, k, c, hc => nf_one N hS hC hE hn (by simp) ho hs hw hf hm hc
  | .crop .., hn, ho, hs, hw, hf, hm, k, c, hc => nf_one N hS hC hE hn (by simp) ho hs hw hf hm hc
  | .overview .., hn, ho, hs, hw, hf, hm, k, c, hc => nf_one N hS hC hE hn (by simp) ho hs hw hf hm hc
  | .dequant .., hn, ho, hs, hw, hf, hm, k, c, hc => nf_one N hS hC hE hn (by simp) ho hs hw hf hm hc
theorem nfL_channel {H : Heur} (N : Np) (hS : ∀ b, Env.Shaped (E b)) (hC : ∀ b, Env.Channelwise (E b)) (hE : SameFiles E) :
    ∀ (ps : List Node) (d : Int × Int), NFL H true ps → NoOvL ps → SmoothL ps → WFL d ps → FitL ps →
    EachL (E true).Matches ps → ∀ k c, (srcL ps)[k]? = some c → ∃ as bs i j, finTL N E ps = .ok as ∧
      finL (E (ownFloat N c)) ps = .ok bs ∧ catAll as = .ok i ∧ catAll bs = .ok j ∧ SameAt k i j
  | [], _, _, _, _, _, _, _, k, c, hc => by simp [srcL] at hc
  | p :: ps, d, hn, ho, hs, hw, hf, hm, k, c, hc => by
    have hM : EachL (E (ownFloat N c)).Matches (p :: ps) := hE.each (n := .concat (p :: ps) d) hm _
    obtain ⟨a, ea, ha⟩ := finT_ok N hS hE p hw.1 hf.1 hm.1 hs.1
    obtain ⟨a', ea'⟩ := fin_total (hS (ownFloat N c)) p hw.1 hf.1 hM.1 hs.1
    have ha' := fin_shape (hS _) p hw.1 hf.1 hM.1 a' ea'
    obtain ⟨e1, e2, e3⟩ := hasShape_same ha ha'
    have hd : p.dsize = d := hw.2.1
    rw [srcL] at hc
    have left : k < p.nchan → SameAt k a a' := by
      intro hk
      rw [List.getElem?_append_left (by rw [src_length]; exact hk)] at hc
      obtain ⟨i, j, h1, h2, h3⟩ := nf_channel N hS hC hE p hn.1 ho.1 hs.1 hw.1 hf.1 hm.1 k c hc
      rw [ea] at h1
      rw [ea'] at h2
      cases h1
      cases h2
      exact h3
    cases ps with
    | nil =>
      refine ⟨[a], [a'], a, a', by simp only [finTL, ea], by simp only [finL, ea'], rfl, rfl, left ?_⟩
      have := (List.getElem?_eq_some_iff.1 hc).1
      simpa [srcL, src_length] using this
    | cons q qs =>
      obtain ⟨as, eas, has⟩ := finTL_ok N hS hE (q :: qs) d hw.2.2 hf.2 hm.2 hs.2
      obtain ⟨i, hi, si⟩ := has (by simp)
      obtain ⟨bs, ebs, hbs⟩ := finL_total (hS (ownFloat N c)) (q :: qs) d hw.2.2 hf.2 hM.2 hs.2
      obtain ⟨j, hj⟩ := hbs (by simp)
      have sj := finL_shape (hS _) (q :: qs) d hw.2.2 hf.2 hM.2 (by simp) bs ebs j hj
      obtain ⟨f1, f2, f3⟩ := hasShape_same si sj
      have x1 : a.h = i.h := by
        have h1 := ha.h
        have h2 := si.h
        rw [hd] at h1
        have : (a.h : Int) = i.h := h1.trans h2.symm
        exact_mod_cast this
      have x2 : a.w = i.w := by
        have h1 := ha.w
        have h2 := si.w
        rw [hd] at h1
        have : (a.w : Int) = i.w := h1.trans h2.symm
        exact_mod_cast this
      refine ⟨a :: as, a' :: bs, a.cat i, a'.cat j, by simp only [finTL, ea] at eas ⊢; rw [eas],
        by simp only [finL, ea'] at ebs ⊢; rw [ebs], catAll_ok hi x1 x2,
        catAll_ok hj (by omega) (by omega), e1, e2, by simp only [Img.cat, e3, f3], ?_⟩
      intro hk y x hy hx
      simp only [Img.cat] at hk hy hx ⊢
      rw [← e3]
      split
      · rename_i hlt
        exact (left (by rw [← ha.n]; exact hlt)).px hlt y x hy hx
      · rename_i hge
        have hge' : p.nchan ≤ k := by rw [← ha.n]; omega
        rw [List.getElem?_append_right (by rw [src_length]; exact hge'), src_length] at hc
        obtain ⟨as', bs', i', j', g1, g2, g3, g4, g5⟩ := nfL_channel N hS hC hE (q :: qs) d hn.2 ho.2 hs.2 hw.2.2 hf.2 hm.2
          _ c hc
        rw [eas] at g1
        rw [ebs] at g2
        cases g1
        cases g2
        rw [hi] at g3
        rw [hj] at g4
        cases g3
        cases g4
        rw [← ha.n] at g5
        exact g5.px (by omega) y x (by omega) (by omega)
end

/-- C87, border: whatever the other channels of an optimized image are, every one of its channels is computed as if the
image consisted of floats only or of integers only, as the channel does by itself.  In particular the pixels outside
of the source are NaN for floats and 0 for integers.  Missing: overviews, nearest neighbour warps. -/
theorem C87_border_partial (H : Heur) (N : Np) (hS : ∀ b, Env.Shaped (E b)) (hC : ∀ b, Env.Channelwise (E b))
    (hE : SameFiles E) {n : Node} (hb : Tree.Built n) (ho : NoOv n) (hs : Smooth n) (hm : Each (E true).Matches n) (fuel : Nat)
    {m : Node} (h : opt H fuel n = .ok m) {k : Nat} {c : Src} (hc : (src n)[k]? = some c) :
    ∃ i j, finalizeT H N E fuel n = .ok i ∧ finalize H (E (chanType N c).float) fuel n = .ok j ∧ SameAt k i j := by
  have g := opt_good (deep := true) (sizeRules H) (fun _ _ _ h => h.1) fuel n m ⟨hb.ok.1, hb.ok.2, ho⟩ h
  have gm := opt_good (deep := false) (keepRules H (nameRules H) (stable_each (E true).Matches (fun _ _ _ h => by cases h)))
    (by simp) fuel n m ⟨hb.ok.1, hm⟩ h
  have gs := opt_good (deep := false) (keepRules H (nameRules H)
    (stable_params (P := fun a => a.interp ≠ .nearest) (fun _ h => h) (by decide))) (by simp) fuel n m
    ⟨hb.ok.1, (smooth_iff n).1 hs⟩ h
  rw [← (C69_origin H hb fuel h).1] at hc
  obtain ⟨i, j, h1, h2, h3⟩ := nf_channel N hS hC hE m g.nf g.inv.noOv ((smooth_iff m).2 gs.inv.2) g.inv.wf g.inv.fit
    gm.inv.2 k c hc
  exact ⟨i, j, by simp only [finalizeT, h]; exact h1, by simp only [finalize, h]; exact h2, h3⟩

/-- The value of NaN and the values of dequantizations do not matter where there are none. -/
def Env.plainly (F : Env V) (z : V) : Env V := { F with nan := z, deq := fun _ v => v }

mutual
theorem fin_plainly (F : Env V) (z : V) : ∀ n : Node, Each (fun l => l.nan = false) n → deqs n = 0 →
    fin (Env.plainly F z) n = fin F n
  | .leaf l, h, _ => by
    have h' : l.nan = false := h
    simp only [fin, h', Bool.false_eq_true, if_false]
    rfl
  | .concat ps _, h, hd => by
    simp only [fin, finL_plainly F z ps h (by rw [deqs] at hd; exact hd)]
  | .warp s _ _ _, h, hd => by
    simp only [fin, fin_plainly F z s h (by rw [deqs] at hd; exact hd)]
    cases fin F s <;> rfl
  | .crop s _ _ _ _ _, h, hd => by
    simp only [fin, fin_plainly F z s h (by rw [deqs] at hd; exact hd)]
  | .overview s _ _, h, hd => by
    simp only [fin, fin_plainly F z s h (by rw [deqs] at hd; exact hd)]
    cases fin F s <;> rfl
  | .dequant s _ _, h, hd => by
    rw [deqs] at hd
    omega
theorem finL_plainly (F : Env V) (z : V) : ∀ ps : List Node, EachL (fun l => l.nan = false) ps → deqsL ps = 0 →
    finL (Env.plainly F z) ps = finL F ps
  | [], _, _ => rfl
  | p :: ps, h, hd => by
    rw [deqsL] at hd
    simp only [finL, fin_plainly F z p h.1 (by omega), finL_plainly F z ps h.2 (by omega)]
end

/-- C87 and C36: images of files of floats, mirrored, turned and moved, of which nothing is cut off before the last
step, have the same array with and without optimizing. -/
theorem C87_whole_floats_partial (H : Heur) {N : Np} (hN : Np.Floats N (fun t => t.float = true)) (hE : SameFiles E)
    (hO : (E true).Ok) (hq : ∀ q, (N.orig q).float = true) {n : Node} (hH : Sharp H n) (hb : Tree.Built n) (ho : NoOv n)
    (hp : Pix n) (hm : Each (E true).Matches n) (hw : Shown (E true) n)
    (hl : Each (fun l => l.nan = true ∨ (N.file l.id).float = true) n) (fuel : Nat) {m : Node} (h : opt H fuel n = .ok m) :
    ∃ i j, finT N E n = .ok i ∧ finalizeT H N E fuel n = .ok j ∧ i.Same j := by
  obtain ⟨h1, h2⟩ := C87_floats H hN hE hq hb hl fuel
  rw [h1, h2]
  exact C36_arrays_whole_partial H (E true) hO hH hb ho hp hm hw fuel h

/-- C87 and C36 for images of files of integers: the warped arrays are filled with any fixed value, 0 in the code. -/
theorem C87_whole_integers_partial (H : Heur) {N : Np} (hN : Np.Floats N S) (hS : ∀ t, S t → t.float = false)
    (hE : SameFiles E) (z : V)
    (hz : ∀ m d a i, Turn m → a.interp ≠ .nearest → ((E false).warp m d a i).Same (i.carry m d z))
    {n : Node} (hH : Sharp H n) (hb : Tree.Built n) (ho : NoOv n) (hf : Fair n) (hd : deqs n = 0)
    (hp : Pix n) (hm : Each (E false).Matches n) (hw : Shown (E false) n)
    (hl : Each (fun l => l.nan = false ∧ S (N.file l.id)) n) (fuel : Nat) {m : Node} (h : opt H fuel n = .ok m) :
    ∃ i j, finT N E n = .ok i ∧ finalizeT H N E fuel n = .ok j ∧ i.Same j := by
  obtain ⟨h1, h2⟩ := C87_integers_partial H hN hS hE hb ho hf hd hl fuel
  rw [h1, h2]
  have g := opt_good (deep := false) (keepRulesIn H (saneRules H) (firm_each (fun l => l.nan = false ∧ S (N.file l.id)))
      (fun _ hc ht => takeIdx_each _ hc _ _ ht) (fun _ hn hl => absurd (hn.symm.trans hl.1) (by simp))
      (fun _ hn hl => absurd (hn.symm.trans hl.1) (by simp))) (by simp) fuel n m
      ⟨⟨⟨hb.ok.1, hb.ok.2, ho⟩, hf⟩, hl⟩ h
  have hdm : deqs m = 0 := by
    have := g.rel.deq
    omega
  have hO : (Env.plainly (E false) z).Ok := ⟨hz, fun _ => rfl⟩
  obtain ⟨i, j, e1, e2, e3⟩ := C36_arrays_whole_partial H (Env.plainly (E false) z) hO hH hb ho hp hm hw fuel h
  rw [fin_plainly _ _ n (each_imp (fun _ h => h.1) n hl) hd] at e1
  simp only [finalize, h] at e2 ⊢
  rw [fin_plainly _ _ m (each_imp (fun _ h => h.1) m g.inv.2) hdm] at e2
  exact ⟨i, j, e1, e2, e3⟩

/-! #### cases -/

theorem joinOf_any (S : Elem → Prop) (hS : ∀ a b, S a → S b → S (promote a b))
    (h2 : ∀ a b, S a → S b → (promote a b).float = (a.float || b.float)) {N : Np} (hN : N.result = joinOf) : Np.Floats N S := by
  intro l hl ha
  rw [hN]
  induction l with
  | nil => exact absurd rfl hl
  | cons a l ih =>
    have h0 : S a := ha a (by simp)
    rw [joinOf, List.foldr_cons, List.any_cons]
    cases l with
    | nil =>
      rw [List.foldr_nil, promote_bool]
      exact ⟨h0, by simp⟩
    | cons b l =>
      obtain ⟨i1, i2⟩ := ih (by simp) fun x hx => ha x (List.mem_cons_of_mem _ hx)
      rw [joinOf] at i1 i2
      exact ⟨hS _ _ h0 i1, by rw [h2 _ _ h0 i1, i2]⟩

/-- With numpy the kind of the result is known, except for `uint64`. -/
theorem floats_small {N : Np} (hN : N.result = joinOf) : Np.Floats N (· ≠ .u64) :=
  joinOf_any _ (by intro a b; cases a <;> cases b <;> decide) (by intro a b; cases a <;> cases b <;> decide) hN

theorem floats_float {N : Np} (hN : N.result = joinOf) : Np.Floats N (fun t => t.float = true) :=
  joinOf_any _ (by intro a b; cases a <;> cases b <;> decide) (by intro a b; cases a <;> cases b <;> decide) hN

theorem floats_unsigned {N : Np} (hN : N.result = joinOf) : Np.Floats N (fun t => t.kind = .u) :=
  joinOf_any _ (by intro a b; cases a <;> cases b <;> decide) (by intro a b; cases a <;> cases b <;> decide) hN

/-- `uint64` and `int64`: two arrays of integers give one of floats. -/
example : ¬ Np.Floats ⟨fun _ => .u8, fun _ => .f32, joinOf⟩ (fun _ => True) := fun h =>
  absurd (h [.u64, .i64] (by simp) (fun _ _ => trivial)).2 (by decide)

/-- File 0 has bytes, all others have floats. -/
def byteFile : Np := ⟨fun f => if f = 0 then .u8 else .f32, fun _ => .f32, joinOf⟩

/-- All files have bytes. -/
def byteFiles : Np := ⟨fun _ => .u8, fun _ => .f32, joinOf⟩

/-- Files of two by two pixels with two channels and the values 5 and 7, warped with NaN outside or with 0. -/
def sevens (b : Bool) : Env (Option Nat) :=
  { looking (fun _ => ⟨2, 2, 2, fun _ _ k => some (5 + 2 * k)⟩) with
    border := fun _ => if b then none else some 0
    warp := fun tf d _ i => i.carry tf d (if b then none else some 0) }

theorem carry_channel {k : Nat} {i j : Img V} (h : SameAt k i j) (m : Affine) (d : Int × Int) (v : V) :
    SameAt k (i.carry m d v) (j.carry m d v) := by
  refine ⟨rfl, rfl, h.n, fun hk y x _ _ => ?_⟩
  simp only [Img.carry, ← h.h, ← h.w] at hk ⊢
  split
  · rename_i hc
    have e : ∀ (q : ℚ) (k : Nat), 0 ≤ q → q < (k : ℚ) → ⌊q⌋.toNat < k := fun q k h0 h1 => by
      have : ⌊q⌋ < (k : Int) := Int.floor_lt.2 (by exact_mod_cast h1)
      have : 0 ≤ ⌊q⌋ := Int.floor_nonneg.2 h0
      omega
    exact h.px hk _ _ (e _ _ hc.1 hc.2.1) (e _ _ hc.2.2.1 hc.2.2.2)
  · rfl

theorem sevens_channelwise (b : Bool) : Env.Channelwise (sevens b) where
  warp := fun _ _ _ _ _ _ h => carry_channel h ..
  resize := (looking_channelwise (fun _ => ⟨2, 2, 2, fun _ _ k => some (5 + 2 * k)⟩)).resize
  overview := (looking_channelwise (fun _ => ⟨2, 2, 2, fun _ _ k => some (5 + 2 * k)⟩)).overview

theorem sevens_shaped (b : Bool) : Env.Shaped (sevens b) :=
  ⟨fun _ _ _ _ => rfl, fun _ _ => rfl, fun _ _ _ => rfl⟩

theorem sevens_files : SameFiles sevens := ⟨fun _ => rfl, fun _ => rfl, fun _ => rfl⟩

/-- Another file. -/
def depthLeaf : Leaf := ⟨1, (2, 2), 2, some [p! "x", p! "y"], none, false⟩

/-- Two files put together and moved. -/
def movedPair : Node := mkWarp (.concat [.leaf bandLeaf, .leaf depthLeaf] (2, 2)) (.trans 1 0) (some (3, 2)) .default

/-- One channel of two files put together. -/
def pickedPair : Node := .crop (.concat [.leaf bandLeaf, .leaf depthLeaf] (2, 2)) 0 2 0 2 (some [1])

theorem twoFiles_built : Tree.Built (.concat [.leaf bandLeaf, .leaf depthLeaf] (2, 2)) := by
  refine (built_iff _).2 ⟨⟨by simp, ⟨by rintro l ⟨⟩; rfl, by rintro ⟨⟩⟩, rfl, ⟨by rintro l ⟨⟩; rfl, by rintro ⟨⟩⟩, rfl, trivial⟩,
    ?_⟩
  exact ⟨⟨by decide, by decide⟩, ⟨by decide, by decide⟩, ⟨by decide, by decide⟩, trivial⟩

theorem movedPair_built : Tree.Built movedPair :=
  .warp _ _ _ _ twoFiles_built (by norm_num [Affine.det, Affine.trans]) ⟨by show (0 : Int) ≤ 3; decide, by show (0 : Int) ≤ 2; decide⟩

theorem pickedPair_built : Tree.Built pickedPair :=
  .crop _ _ (some ((some 0, some 2), (some 0, some 2))) (some [1]) twoFiles_built
    (by intro i hi; simp only [List.mem_singleton] at hi; subst hi; decide) rfl

theorem movedPair_ok : NoOv movedPair ∧ Fair movedPair ∧ Smooth movedPair ∧ Unpicked movedPair ∧ Each Banded movedPair ∧
    Each (sevens true).Matches movedPair := by
  refine ⟨?_, ?_, ?_, ?_, ?_, ?_⟩
  · exact ⟨.inl rfl, .inl rfl, trivial⟩
  · exact ⟨.inr rfl, .inr rfl, trivial⟩
  · exact ⟨by decide, trivial, trivial, trivial⟩
  · exact ⟨trivial, trivial, trivial⟩
  · exact ⟨by unfold Each Banded; decide, by unfold Each Banded; decide, trivial⟩
  · exact ⟨fun _ => ⟨rfl, rfl, rfl⟩, fun _ => ⟨rfl, rfl, rfl⟩, trivial⟩

theorem movedPair_src : src movedPair = [⟨some (0, 0), []⟩, ⟨some (0, 1), []⟩, ⟨some (1, 0), []⟩, ⟨some (1, 1), []⟩] := by
  decide +kernel

/-- C87 for two files put together: the array has floats although one of the files has not. -/
example : ∃ m, opt Heur.code 20 movedPair = .ok m ∧ elem byteFile m = .f32 ∧ elem byteFile m = elem byteFile movedPair ∧
    (elem byteFile m).float = true := by
  obtain ⟨m, hm, -⟩ := holds_ok (x := opt Heur.code 20 movedPair) (f := fun _ => true) (by decide +kernel)
  obtain ⟨h1, h2, h3, h4, h5, h6⟩ := movedPair_ok
  have ht : ∀ c ∈ src movedPair, (chanType byteFile c).kind ≠ .i := by rw [movedPair_src]; decide
  have e := C87_type_partial Heur.code joins_unsigned (fun _ _ _ => rfl) movedPair_built h1 h2 h5 ht 20 hm
  refine ⟨m, hm, ?_, C87_same Heur.code (fun _ _ hl h => joinOf_const h hl) movedPair_built h4 20 hm, ?_⟩
  · rw [e, movedPair_src]
    decide
  · refine (C87_kind_partial Heur.code (floats_small rfl) movedPair_built h1 h2 h5 ?_ 20 hm).1.2
      ⟨⟨some (1, 0), []⟩, by rw [movedPair_src]; simp, by decide⟩
    rw [movedPair_src]
    decide

/-- C87 for two files of floats and for two files of integers. -/
example : finalizeT Heur.code ⟨fun _ => .f32, fun _ => .f32, joinOf⟩ sevens 20 movedPair =
      finalize Heur.code (sevens true) 20 movedPair ∧
    finalizeT Heur.code byteFiles sevens 20 movedPair = finalize Heur.code (sevens false) 20 movedPair := by
  obtain ⟨h1, h2, h3, h4, h5, h6⟩ := movedPair_ok
  refine ⟨(C87_floats Heur.code (floats_float rfl) sevens_files (fun _ => rfl) movedPair_built
    ⟨.inr rfl, .inr rfl, trivial⟩ 20).2, (C87_integers_partial Heur.code (floats_unsigned rfl) ?_ sevens_files movedPair_built h1
    h2 rfl ⟨⟨rfl, rfl⟩, ⟨rfl, rfl⟩, trivial⟩ 20).2⟩
  intro t
  cases t <;> decide

/-- C87 for channels next to each other: the border of the file with integers is 0, the one of the other file NaN. -/
example : ∃ i j, finalizeT Heur.code byteFile sevens 20 movedPair = .ok i ∧
    finalize Heur.code (sevens false) 20 movedPair = .ok j ∧ SameAt 1 i j := by
  obtain ⟨m, hm, -⟩ := holds_ok (x := opt Heur.code 20 movedPair) (f := fun _ => true) (by decide +kernel)
  obtain ⟨h1, h2, h3, h4, h5, h6⟩ := movedPair_ok
  exact C87_border_partial Heur.code byteFile sevens_shaped sevens_channelwise sevens_files movedPair_built h1 h3 h6 20 hm
    (k := 1) (c := ⟨some (0, 1), []⟩) (by rw [movedPair_src]; rfl)

/-- C87 fails for selections: the array of one channel of several files put together has the type of all of them,
the optimized one the type of the channel. -/
theorem C87_selection_violated : Tree.Built pickedPair ∧ elem byteFile pickedPair = .f32 ∧
    ∃ m, opt Heur.code 20 pickedPair = .ok m ∧ elem byteFile m = .u8 := by
  obtain ⟨m, h1, h2⟩ := holds_ok (x := opt Heur.code 20 pickedPair) (f := fun m => decide (elem byteFile m = .u8))
    (by decide +kernel)
  exact ⟨pickedPair_built, rfl, m, h1, by simpa using h2⟩

/-- C87 fails for the border before optimizing: what is outside of a file of integers is NaN next to a file of
floats, and 0 in the optimized image. -/
theorem C87_border_violated : Tree.Built movedPair ∧ NoOv movedPair ∧ Smooth movedPair ∧
    (∃ i, finT byteFile sevens movedPair = .ok i ∧ i.px 0 0 0 = none ∧ i.px 0 0 2 = none) ∧
    ∃ i, finalizeT Heur.code byteFile sevens 20 movedPair = .ok i ∧ i.px 0 0 0 = some 0 ∧ i.px 0 0 2 = none := by
  obtain ⟨i, h1, h2⟩ := holds_ok (x := finT byteFile sevens movedPair)
    (f := fun i => decide (i.px 0 0 0 = none ∧ i.px 0 0 2 = none)) (by decide +kernel)
  obtain ⟨j, h3, h4⟩ := holds_ok (x := finalizeT Heur.code byteFile sevens 20 movedPair)
    (f := fun i => decide (i.px 0 0 0 = some 0 ∧ i.px 0 0 2 = none)) (by decide +kernel)
  exact ⟨movedPair_built, movedPair_ok.1, movedPair_ok.2.2.1, ⟨i, h1, by simpa using h2⟩, j, h3, by simpa using h4⟩

/-- C87 for `turnTree`, a file that is mirrored, turned and cropped, with bytes and with floats. -/
example (E : Bool → Env (Nat × Nat × Nat)) (h : E = fun b => if b then turnEnv else
      { turnEnv with warp := fun tf d _ i => i.carry tf d (0, 0, 0), border := fun _ => (0, 0, 0) }) :
    (∃ i j, finT byteFiles E turnTree = .ok i ∧ finalizeT Heur.code byteFiles E 40 turnTree = .ok j ∧ i.Same j) ∧
    ∃ i j, finT ⟨fun _ => .f32, fun _ => .f32, joinOf⟩ E turnTree = .ok i ∧
      finalizeT Heur.code ⟨fun _ => .f32, fun _ => .f32, joinOf⟩ E 40 turnTree = .ok j ∧ i.Same j := by
  obtain ⟨h1, h2, h3, h4, m, h5, _⟩ := turnTree_ok
  subst h
  have hE : SameFiles (fun b : Bool => if b then turnEnv else
      { turnEnv with warp := fun tf d _ i => i.carry tf d (0, 0, 0), border := fun _ => (0, 0, 0) }) :=
    ⟨fun b => by cases b <;> rfl, fun b => by cases b <;> rfl, fun b => by cases b <;> rfl⟩
  constructor
  · exact C87_whole_integers_partial Heur.code (floats_unsigned rfl) (by intro t; cases t <;> decide) hE (0, 0, 0)
      (fun _ _ _ _ _ _ => Img.Same.refl _) h4 h1 h2 ⟨.inr rfl, by simp⟩ rfl h3 turnEnv_matches turn_shown ⟨rfl, rfl⟩ 40 h5
  · exact C87_whole_floats_partial Heur.code (floats_float rfl) hE turnEnv_ok (fun _ => rfl) h4 h1 h2 h3 turnEnv_matches turn_shown
      (.inr rfl) 40 h5

end Verif.Props
