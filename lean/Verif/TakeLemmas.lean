/-
`take_channels` selects the requested channels.
-/
import Verif.Rules

namespace Verif
namespace Tree

open Helpers Node

theorem mapAll_ok {α β} {f : α → Py β} {xs : List α} {ys : List β} (h : mapAll f xs = .ok ys) :
    List.Forall₂ (fun x y => f x = .ok y) xs ys := by
  induction xs generalizing ys with
  | nil => cases h; exact .nil
  | cons x xs ih =>
    simp only [mapAll] at h
    split at h
    · cases h
    · split at h
      · cases h
      · cases h
        rename_i hy _ _ hz
        exact .cons hy (ih hz)

theorem mkConcat_ok {ps : List Node} {n : Node} (h : mkConcat ps = .ok n) :
    ∃ d, n = .concat ps d ∧ ps ≠ [] ∧ ∀ p ∈ ps, p.dsize = d := by
  cases ps with
  | nil => cases h
  | cons p ps =>
    simp only [mkConcat] at h
    split at h
    · rename_i ha
      cases h
      refine ⟨_, rfl, by simp, ?_⟩
      intro q hq
      rcases List.mem_cons.1 hq with rfl | hq
      · rfl
      · simpa using List.all_eq_true.1 ha q hq
    · cases h

theorem mkConcat_same {ps : List Node} {d : Int × Int} (h0 : ps ≠ []) (h : ∀ p ∈ ps, p.dsize = d) :
    mkConcat ps = .ok (.concat ps d) := by
  cases ps with
  | nil => exact absurd rfl h0
  | cons p ps =>
    have e : p.dsize = d := h p (by simp)
    have ha : ps.all (fun q => decide (q.dsize = p.dsize)) = true := by
      rw [List.all_eq_true]
      intro q hq
      rw [e, h q (by simp [hq])]
      simp
    rw [mkConcat, if_pos ha, e]

/-! #### the accumulation loop -/

/-- What a segment stands for: its requests as positions in the parts (nothing for missing channels). -/
def Seg.rep (s : Seg) : List (Option (Nat × Nat)) := s.indexes.map (fun j => s.comp.map (fun o => (o, j)))

/-- Invariant of a segment: a contiguous range is described by its bounds. -/
def Seg.Inv (s : Seg) : Prop :=
  (s.start = none ∧ s.indexes = [] ∧ s.stop = none) ∨
  ∃ a, s.start = some a ∧ s.indexes ≠ [] ∧
    ∀ b, s.stop = some b → a < b ∧ s.indexes = (List.range (b - a)).map (fun k => a + k)

/-- Invariant of a segment of requests that all have names. -/
def Seg.InvC (s : Seg) : Prop :=
  (s.start = none ∧ s.indexes = [] ∧ s.codes = none) ∨
  (s.start ≠ none ∧ ∃ l, s.codes = some l ∧ l.length = s.indexes.length)

theorem Seg.inv_new (c : Option Nat) : (Seg.new c).Inv := .inl ⟨rfl, rfl, rfl⟩

theorem Seg.add_comp (s : Seg) (j : Nat) (c : Option Str) : (s.add j c).comp = s.comp := by
  unfold Seg.add; cases s.start <;> rfl

theorem Seg.add_indexes (s : Seg) (j : Nat) (c : Option Str) : (s.add j c).indexes = s.indexes ++ [j] := by
  unfold Seg.add; cases s.start <;> rfl

theorem Seg.add_rep (s : Seg) (j : Nat) (c : Option Str) :
    (s.add j c).rep = s.rep ++ [s.comp.map (fun o => (o, j))] := by
  simp [Seg.rep, Seg.add_comp, Seg.add_indexes]

theorem Seg.inv_add (s : Seg) (j : Nat) (c : Option Str) (h : s.Inv) : (s.add j c).Inv := by
  right
  rcases h with ⟨h1, h2, h3⟩ | ⟨a, h1, h2, h3⟩
  · refine ⟨j, ?_, ?_, ?_⟩
    · simp [Seg.add, h1]
    · simp [Seg.add_indexes]
    · intro b hb
      simp only [Seg.add, h1, Option.some.injEq] at hb
      subst hb
      rw [Seg.add_indexes, h2]
      have : j + 1 - j = 1 := by omega
      simp [this]
  · refine ⟨a, ?_, ?_, ?_⟩
    · simp [Seg.add, h1]
    · simp [Seg.add_indexes]
    · intro b hb
      simp only [Seg.add, h1] at hb
      split at hb
      · rename_i hs
        simp only [Option.some.injEq] at hb
        subst hb
        obtain ⟨g1, g2⟩ := h3 j hs
        refine ⟨by omega, ?_⟩
        rw [Seg.add_indexes, g2]
        have : j + 1 - a = (j - a) + 1 := by omega
        rw [this, List.range_succ, List.map_append]
        simp only [List.map_cons, List.map_nil]
        congr 2
        omega
      · cases hb

theorem Seg.add_codes (s : Seg) (j : Nat) (c : Str) (h : s.InvC) :
    (s.add j (some c)).InvC ∧ (s.add j (some c)).codes.getD [] = s.codes.getD [] ++ [c] := by
  rcases h with ⟨h1, h2, h3⟩ | ⟨h1, l, h2, h3⟩
  · exact ⟨.inr ⟨by simp [Seg.add, h1], [c], by simp [Seg.add, h1], by simp [Seg.add_indexes, h2]⟩,
      by simp [Seg.add, h1, h3]⟩
  · obtain ⟨a, ha⟩ := Option.ne_none_iff_exists'.1 h1
    exact ⟨.inr ⟨by simp [Seg.add, ha], l ++ [c], by simp [Seg.add, ha, h2], by
      simp [Seg.add_indexes, h3]⟩, by simp [Seg.add, ha, h2]⟩

/-- The segments of an accumulator state. -/
def accSegs (st : Acc) : List Seg := st.1 ++ st.2.toList

theorem extend_rep (st : Acc) (comp : Option Nat) (j : Nat) (c : Option Str) :
    (accSegs (extend st comp j c)).flatMap Seg.rep =
      (accSegs st).flatMap Seg.rep ++ [comp.map (fun o => (o, j))] := by
  obtain ⟨l, cur⟩ := st
  have hn : (Seg.new comp).rep = [] := rfl
  have hc : (Seg.new comp).comp = comp := rfl
  cases cur with
  | none => simp [extend, accSegs, Seg.add_rep, hn, hc]
  | some s =>
    simp only [extend]
    split
    · rename_i h
      simp [accSegs, Seg.add_rep, h]
    · simp [accSegs, Seg.add_rep, hn, hc]

theorem extend_inv (st : Acc) (comp : Option Nat) (j : Nat) (c : Option Str)
    (h : ∀ s ∈ accSegs st, s.Inv) : ∀ s ∈ accSegs (extend st comp j c), s.Inv := by
  obtain ⟨l, cur⟩ := st
  cases cur with
  | none =>
    intro s hs
    simp only [extend, accSegs, Option.toList_some, List.mem_append, List.mem_singleton] at hs
    rcases hs with hs | rfl
    · exact h s (by simp [accSegs, hs])
    · exact Seg.inv_add _ _ _ (Seg.inv_new _)
  | some t =>
    intro s hs
    simp only [extend] at hs
    split at hs
    · simp only [accSegs, Option.toList_some, List.mem_append, List.mem_singleton] at hs
      rcases hs with hs | rfl
      · exact h s (by simp [accSegs, hs])
      · exact Seg.inv_add _ _ _ (h t (by simp [accSegs]))
    · simp only [accSegs, Option.toList_some, List.mem_append, List.mem_singleton] at hs
      rcases hs with (hs | rfl) | rfl
      · exact h s (by simp [accSegs, hs])
      · exact h s (by simp [accSegs])
      · exact Seg.inv_add _ _ _ (Seg.inv_new _)

theorem extend_nonempty (st : Acc) (comp : Option Nat) (j : Nat) (c : Option Str)
    (h : ∀ s ∈ accSegs st, s.indexes ≠ []) : ∀ s ∈ accSegs (extend st comp j c), s.indexes ≠ [] := by
  obtain ⟨l, cur⟩ := st
  cases cur with
  | none =>
    intro s hs
    simp only [extend, accSegs, Option.toList_some, List.mem_append, List.mem_singleton] at hs
    rcases hs with hs | rfl
    · exact h s (by simp [accSegs, hs])
    · simp [Seg.add_indexes]
  | some t =>
    intro s hs
    simp only [extend] at hs
    split at hs
    · simp only [accSegs, Option.toList_some, List.mem_append, List.mem_singleton] at hs
      rcases hs with hs | rfl
      · exact h s (by simp [accSegs, hs])
      · simp [Seg.add_indexes]
    · simp only [accSegs, Option.toList_some, List.mem_append, List.mem_singleton] at hs
      rcases hs with (hs | rfl) | rfl
      · exact h s (by simp [accSegs, hs])
      · exact h s (by simp [accSegs])
      · simp [Seg.add_indexes]

theorem extend_codes (st : Acc) (comp : Option Nat) (j : Nat) (c : Str)
    (h : ∀ s ∈ accSegs st, s.InvC) :
    (∀ s ∈ accSegs (extend st comp j (some c)), s.InvC) ∧
    (accSegs (extend st comp j (some c))).flatMap (fun s => s.codes.getD []) =
      (accSegs st).flatMap (fun s => s.codes.getD []) ++ [c] := by
  obtain ⟨l, cur⟩ := st
  have hnew : (Seg.new comp).InvC := .inl ⟨rfl, rfl, rfl⟩
  have hadd := Seg.add_codes _ j c hnew
  cases cur with
  | none =>
    refine ⟨?_, ?_⟩
    · intro s hs
      simp only [extend, accSegs, Option.toList_some, List.mem_append, List.mem_singleton] at hs
      rcases hs with hs | rfl
      · exact h s (by simp [accSegs, hs])
      · exact hadd.1
    · simp only [extend, accSegs, Option.toList_some, List.flatMap_append, List.flatMap_cons, hadd.2]
      simp [Seg.new]
  | some t =>
    have ht := Seg.add_codes t j c (h t (by simp [accSegs]))
    simp only [extend]
    split
    · refine ⟨?_, ?_⟩
      · intro s hs
        simp only [accSegs, Option.toList_some, List.mem_append, List.mem_singleton] at hs
        rcases hs with hs | rfl
        · exact h s (by simp [accSegs, hs])
        · exact ht.1
      · simp only [accSegs, Option.toList_some, List.flatMap_append, List.flatMap_cons, ht.2]
        simp
    · refine ⟨?_, ?_⟩
      · intro s hs
        simp only [accSegs, Option.toList_some, List.mem_append, List.mem_singleton] at hs
        rcases hs with (hs | rfl) | rfl
        · exact h s (by simp [accSegs, hs])
        · exact h s (by simp [accSegs])
        · exact hadd.1
      · simp only [accSegs, Option.toList_some, List.flatMap_append, List.flatMap_cons, hadd.2]
        simp [Seg.new]

/-- Position of a request. -/
def reqPos (sizes : List Nat) (r : Option Nat × Option Str) : Option (Nat × Nat) :=
  r.1.bind (unravel sizes)

theorem locate_ok {sizes : List Nat} {cur : Option Seg} {r : Option Nat × Option Str} {comp : Option Nat}
    {j : Nat} (h : locate sizes cur r.1 = .ok (comp, j)) :
    comp.map (fun o => (o, j)) = reqPos sizes r ∧ (r.1.isSome → (reqPos sizes r).isSome) := by
  obtain ⟨i, c⟩ := r
  cases i with
  | none =>
    simp only [locate, Except.ok.injEq, Prod.mk.injEq] at h
    simp [reqPos, ← h.1]
  | some i =>
    simp only [locate] at h
    split at h
    · cases h
    · rename_i o j' hu
      simp only [Except.ok.injEq, Prod.mk.injEq] at h
      obtain ⟨rfl, rfl⟩ := h
      simp [reqPos, hu]

/-- The loop distributes the requests over segments, in order. -/
theorem accLoop_ok {sizes : List Nat} {reqs : List (Option Nat × Option Str)} {st : Acc} {segs : List Seg}
    (h : accLoop sizes st reqs = .ok segs) (hst : ∀ s ∈ accSegs st, s.Inv) :
    segs.flatMap Seg.rep = (accSegs st).flatMap Seg.rep ++ reqs.map (reqPos sizes) ∧
    (∀ s ∈ segs, s.Inv) ∧ ∀ r ∈ reqs, r.1.isSome → (reqPos sizes r).isSome := by
  induction reqs generalizing st with
  | nil => cases h; exact ⟨by simp [accSegs], hst, by simp⟩
  | cons r rs ih =>
    simp only [accLoop] at h
    split at h
    · cases h
    · rename_i comp inner hl
      obtain ⟨e1, e2⟩ := locate_ok hl
      obtain ⟨h1, h2, h3⟩ := ih h (extend_inv st comp inner r.2 hst)
      refine ⟨?_, h2, ?_⟩
      · rw [h1, extend_rep, e1]; simp
      · intro r' hr'
        rcases List.mem_cons.1 hr' with rfl | hr'
        · exact e2
        · exact h3 r' hr'

theorem accLoop_nonempty {sizes : List Nat} {reqs : List (Option Nat × Option Str)} {st : Acc}
    {segs : List Seg} (h : accLoop sizes st reqs = .ok segs) (hst : ∀ s ∈ accSegs st, s.indexes ≠ []) :
    ∀ s ∈ segs, s.indexes ≠ [] := by
  induction reqs generalizing st with
  | nil => cases h; exact hst
  | cons r rs ih =>
    simp only [accLoop] at h
    split at h
    · cases h
    · exact ih h (extend_nonempty st _ _ r.2 hst)

/-- The loop keeps the names of the requests, in order. -/
theorem accLoop_codes {sizes : List Nat} {reqs : List (Option Nat × Option Str)} {codes : List Str}
    (hr : reqs.map Prod.snd = codes.map some) {st : Acc} {segs : List Seg}
    (h : accLoop sizes st reqs = .ok segs) (hst : ∀ s ∈ accSegs st, s.InvC) :
    segs.flatMap (fun s => s.codes.getD []) = (accSegs st).flatMap (fun s => s.codes.getD []) ++ codes ∧
    ∀ s ∈ segs, s.InvC := by
  induction reqs generalizing st codes with
  | nil =>
    cases h
    have : codes = [] := by simpa using hr.symm
    exact ⟨by simp [accSegs, this], hst⟩
  | cons r rs ih =>
    cases codes with
    | nil => simp at hr
    | cons c codes =>
      simp only [List.map_cons, List.cons.injEq] at hr
      simp only [accLoop] at h
      split at h
      · cases h
      · rename_i comp inner hl
        rw [hr.1] at h
        obtain ⟨g1, g2⟩ := extend_codes st comp inner c hst
        obtain ⟨h1, h2⟩ := ih hr.2 h g1
        refine ⟨?_, h2⟩
        rw [h1, g2]; simp

/-- `get_indexer` returns the requested positions, or nothing if they are all channels in order. -/
theorem Seg.indexer_ok {s : Seg} {n : Nat} {r : Option (List Nat)} (hs : s.Inv)
    (h : s.indexer n = .ok r) : s.indexes = r.getD (List.range n) := by
  unfold Seg.indexer at h
  split at h
  · rename_i a b ha hb
    split at h
    · rename_i hab
      split at h
      · cases h
        rcases hs with ⟨h1, _, _⟩ | ⟨a', h1, _, h3⟩
        · rw [h1] at ha; cases ha
        · rw [h1] at ha
          cases ha
          obtain ⟨rfl, rfl⟩ := hab
          have := (h3 _ hb).2
          simpa using this
      · cases h
    · split at h
      · cases h; rfl
      · cases h
  · cases h; rfl

theorem unravel_getD {α} (dflt : α) (ls : List (List α)) (i : Nat) (o j : Nat)
    (h : unravel (ls.map List.length) i = some (o, j)) :
    ∃ l, ls[o]? = some l ∧ j < l.length ∧ ls.flatten.getD i dflt = l.getD j dflt := by
  induction ls generalizing i o j with
  | nil => simp [unravel] at h
  | cons l ls ih =>
    simp only [List.map_cons, unravel] at h
    split at h
    · rename_i hi
      simp only [Option.some.injEq, Prod.mk.injEq] at h
      obtain ⟨rfl, rfl⟩ := h
      refine ⟨l, by simp, hi, ?_⟩
      simp [List.getD, List.getElem?_append_left hi, hi]
    · rename_i hi
      simp only [Option.map_eq_some_iff, Prod.mk.injEq] at h
      obtain ⟨⟨o', j'⟩, h1, rfl, rfl⟩ := h
      obtain ⟨l', e1, e2, e3⟩ := ih _ _ _ h1
      refine ⟨l', by simpa using e1, e2, ?_⟩
      rw [← e3]
      simp [List.getD, List.getElem?_append_right (Nat.le_of_not_lt hi)]

theorem pick_range {α} (dflt : α) (l : List α) : pick dflt l (List.range l.length) = l := by
  apply List.ext_getElem
  · simp [pick]
  · intro i h1 h2
    simp [pick, List.getD, h2]

/-! #### selection -/

/-- `t` is `n` with the given channels. -/
structure TakeOK (n : Node) (idxs : List Nat) (t : Node) : Prop where
  wf : WF t
  dsize : t.dsize = n.dsize
  channels : t.channels = n.channels.map (fun l => pick [] l idxs)
  den : den t = pick Chan.none (den n) idxs

/-- A crop of the whole canvas changes nothing. -/
theorem map_full {s : Node} (hs : WF s) (idxs : List Nat) :
    (pick Chan.none (den s) idxs).map (Chan.map (.trans (-(0 : Int)) (-(0 : Int)))
      (s.dsize.1 - 0, s.dsize.2 - 0)) = pick Chan.none (den s) idxs := by
  have e : Affine.trans (-((0 : Int) : ℚ)) (-((0 : Int) : ℚ)) = Affine.id := by
    simp [Affine.trans, Affine.id]
  rw [e]
  conv => rhs; rw [← List.map_id (pick Chan.none (Tree.den s) idxs)]
  apply List.map_congr_left
  intro c hc
  have hin := selDen_in hs (some idxs) c hc
  simp only [Chan.map, Affine.id_mul, Affine.inv_id, Affine.app_id, Int.sub_zero, id_eq]
  have : (fun p => In (s.dsize.1, s.dsize.2) p ∧ c.dom p) = c.dom := by
    funext p
    exact propext ⟨fun h => h.2, fun h => ⟨hin p h, h⟩⟩
  rw [this]

theorem mkCrop_none_ok {s t : Node} {idxs : List Nat} (hs : WF s)
    (hi : ∀ i ∈ idxs, i < nchan s) (h : mkCrop s none (some idxs) = .ok t) : TakeOK s idxs t := by
  unfold mkCrop at h
  split at h
  · cases h
  · simp only [Except.ok.injEq] at h
    subst h
    refine ⟨⟨hs, le_refl _, le_refl _, hi⟩, by simp [Node.dsize], ?_, ?_⟩
    · rw [channels_crop]; rfl
    · rw [den_crop]
      exact map_full hs idxs

theorem takers_eq (ps : List Node) : takers ps = ps.map (fun p => (p, takeIdx p)) := by
  induction ps with
  | nil => rfl
  | cons p ps ih => simp [takers, ih]

/-- A channel at a position of a list of parts, or an empty one. -/
def AtPos (ps : List Node) : Option (Nat × Nat) → Chan → Prop
  | Option.none, c => ∀ p, ¬ c.dom p
  | some (o, j), c => ∃ n, ps[o]? = some n ∧ c = (den n).getD j Chan.none

/-- The name of a channel at a position, or the given name for a missing channel. -/
def NameAt (ps : List Node) : Option (Nat × Nat) → Option Str → Str → Prop
  | Option.none, code, s => code = some s
  | some (o, j), _, s => ∃ n l, ps[o]? = some n ∧ n.channels = some l ∧ s = l.getD j []

theorem forall₂_map_right {α β} {R : α → β → Prop} {l : List α} {f : α → β} (h : ∀ x ∈ l, R x (f x)) :
    List.Forall₂ R l (l.map f) := by
  induction l with
  | nil => exact .nil
  | cons a l ih => exact .cons (h a (by simp)) (ih fun x hx => h x (by simp [hx]))

theorem forall₂_zip_map {α β γ} {R : α → β → γ → Prop} (f : α → γ) (l : List α) (m : List β)
    (hl : l.length = m.length) (h : ∀ x ∈ l, ∀ y, R x y (f x)) :
    List.Forall₂ (fun x s => R x.1 x.2 s) (l.zip m) (l.map f) := by
  induction l generalizing m with
  | nil => exact .nil
  | cons a l ih =>
    cases m with
    | nil => simp at hl
    | cons b m =>
      exact .cons (h a (by simp) b) (ih m (by simpa using hl) fun x hx => h x (by simp [hx]))

/-- One segment. -/
theorem Seg.sub_ok {ps : List Node} {d : Int × Int} (hps : WFL d ps)
    (hT : ∀ p ∈ ps, ∀ idxs t, (∀ i ∈ idxs, i < nchan p) → takeIdx p idxs = .ok t → TakeOK p idxs t)
    {s : Seg} (hs : s.Inv) (hpos : ∀ o j, some (o, j) ∈ s.rep → ∃ p, ps[o]? = some p ∧ j < nchan p)
    (hc : s.comp = none → ∃ l, s.codes = some l ∧ l.length = s.indexes.length)
    {t : Node} (h : s.sub d (takers ps) = .ok t) :
    WF t ∧ t.dsize = d ∧ List.Forall₂ (AtPos ps) s.rep (den t) ∧
    ((∀ p ∈ ps, p.channels.isSome) → ∃ l, t.channels = some l ∧
      ∀ cs : List (Option Str), cs.length = s.indexes.length →
        (s.comp = none → cs = (s.codes.getD []).map some) →
        List.Forall₂ (fun x s => NameAt ps x.1 x.2 s) (s.rep.zip cs) l) := by
  unfold Seg.sub at h
  split at h
  · rename_i hcomp
    obtain ⟨l, hl, hlen⟩ := hc hcomp
    simp only [Except.ok.injEq] at h
    subst h
    have hrep : s.rep = s.indexes.map (fun _ => Option.none) := by
      simp [Seg.rep, hcomp]
    refine ⟨?_, rfl, ?_, ?_⟩
    · rw [hl]
      refine ⟨?_, ?_⟩
      · intro ns hns; simp at hns; subst hns; simp
      · intro _; simp
    · have hn : (den (nanLeaf 0 d s.codes)).length = s.rep.length := by
        rw [hl, nanLeaf_den_length, hlen]; simp [Seg.rep]
      have he : ∀ c ∈ den (nanLeaf 0 d s.codes), ∀ p, ¬ c.dom p := by
        intro c hc p hp
        simp only [nanLeaf, den, List.mem_map] at hc
        obtain ⟨i, _, rfl⟩ := hc
        have := hp.1
        simp at this
      generalize den (nanLeaf 0 d s.codes) = dl at hn he
      rw [hrep] at hn ⊢
      clear hrep hlen hcomp hs hpos hc
      revert hn
      generalize s.indexes = is
      intro hn
      induction dl generalizing is with
      | nil =>
        have : is = [] := by simpa using hn.symm
        subst this; exact .nil
      | cons a dl ih =>
        cases is with
        | nil => simp at hn
        | cons i is =>
          exact .cons (he a (by simp)) (ih (fun c hc => he c (by simp [hc])) is (by simpa using hn))
    · intro _
      refine ⟨l, by simp [nanLeaf, Node.channels, hl], ?_⟩
      intro cs hcs hcs2
      have := hcs2 hcomp
      rw [hl] at this
      simp only [Option.getD_some] at this
      subst this
      rw [hrep]
      clear hrep hs hpos hc hl hcs hcs2
      revert hlen
      generalize s.indexes = is
      intro hlen
      induction l generalizing is with
      | nil => simp
      | cons a l ih =>
        cases is with
        | nil => simp at hlen
        | cons i is => exact .cons rfl (ih is (by simpa using hlen))
  · rename_i o hcomp
    have hrep : s.rep = s.indexes.map (fun j => some (o, j)) := by
      simp [Seg.rep, hcomp]
    rw [takers_eq] at h
    simp only [List.getElem?_map] at h
    cases hp : ps[o]? with
    | none => rw [hp] at h; simp at h
    | some p =>
      rw [hp] at h
      simp only [Option.map_some] at h
      have hmem : p ∈ ps := List.mem_of_getElem? hp
      obtain ⟨hwf, hd⟩ := (WFL_iff d ps).1 hps p hmem
      have hlt : ∀ j ∈ s.indexes, j < nchan p := by
        intro j hj
        obtain ⟨p', hp', hj'⟩ := hpos o j (by rw [hrep]; exact List.mem_map.2 ⟨j, hj, rfl⟩)
        rw [hp] at hp'
        cases hp'
        exact hj'
      suffices H : TakeOK p s.indexes t by
        refine ⟨H.wf, H.dsize.trans hd, ?_, ?_⟩
        · rw [H.den, hrep]
          simp only [pick]
          rw [List.forall₂_map_left_iff]
          exact forall₂_map_right fun j _ => ⟨p, hp, rfl⟩
        · intro hch
          obtain ⟨l, hl⟩ := Option.isSome_iff_exists.1 (hch p hmem)
          refine ⟨pick [] l s.indexes, by rw [H.channels, hl]; rfl, ?_⟩
          intro cs hcs _
          rw [hrep, List.zip_map_left, List.forall₂_map_left_iff]
          simp only [pick, Prod.map_fst, Prod.map_snd, id_eq]
          exact forall₂_zip_map (R := fun j c s => NameAt ps (some (o, j)) c s) (fun j => l.getD j [])
            s.indexes cs hcs.symm fun j _ c => ⟨p, l, hp, hl, rfl⟩
      split at h
      · cases h
      · rename_i hix
        have := Seg.indexer_ok hs hix
        simp only [Except.ok.injEq] at h
        subst h
        simp only [Option.getD_none] at this
        rw [this]
        refine ⟨hwf, rfl, ?_, ?_⟩
        · cases hch : p.channels with
          | none => rfl
          | some l =>
            have := channels_length p l hwf hch
            rw [← this]
            simp [pick_range]
        · rw [← den_length, pick_range]
      · rename_i idxs hix
        have := Seg.indexer_ok hs hix
        simp only [Option.getD_some] at this
        rw [this]
        rw [this] at hlt
        exact hT p hmem idxs t hlt h

theorem forall₂_mem_right {α β} {R : α → β → Prop} {l : List α} {m : List β}
    (h : List.Forall₂ R l m) {y : β} (hy : y ∈ m) : ∃ x ∈ l, R x y := by
  induction h with
  | nil => simp at hy
  | cons h _ ih =>
    rcases List.mem_cons.1 hy with rfl | hy
    · exact ⟨_, by simp, h⟩
    · obtain ⟨x, hx, hr⟩ := ih hy
      exact ⟨x, by simp [hx], hr⟩

theorem forall₂_imp_left {α β} {R S : α → β → Prop} {l : List α} {m : List β}
    (h : List.Forall₂ R l m) (hi : ∀ x ∈ l, ∀ y, R x y → S x y) : List.Forall₂ S l m := by
  induction h with
  | nil => exact .nil
  | cons h _ ih => exact .cons (hi _ (by simp) _ h) (ih fun x hx => hi x (by simp [hx]))

theorem forall₂_flatMap {α β γ} {R : β → γ → Prop} {f : α → List β} {l : List α} {ts : List (List γ)}
    (h : List.Forall₂ (fun a t => List.Forall₂ R (f a) t) l ts) :
    List.Forall₂ R (l.flatMap f) ts.flatten := by
  induction h with
  | nil => exact .nil
  | cons h _ ih => simpa using List.rel_append h ih

theorem zip_flatMap {α β γ} (f : α → List β) (g : α → List γ) (l : List α)
    (h : ∀ a ∈ l, (f a).length = (g a).length) :
    (l.flatMap f).zip (l.flatMap g) = l.flatMap (fun a => (f a).zip (g a)) := by
  induction l with
  | nil => rfl
  | cons a l ih =>
    simp only [List.flatMap_cons]
    rw [List.zip_append (h a (by simp)), ih fun a ha => h a (by simp [ha])]

/-- A channel of a list of parts, or an empty one. -/
def FromReq (ps : List Node) (r : Option Nat × Option Str) (c : Chan) : Prop :=
  match r.1 with
  | Option.none => ∀ p, ¬ c.dom p
  | some i => i < nchans ps ∧ c = (denL ps).getD i Chan.none

/-- The name of a channel of a list of parts, or the requested name. -/
def NameReq (ps : List Node) (r : Option Nat × Option Str) (s : Str) : Prop :=
  match r.1 with
  | Option.none => r.2 = some s
  | some i => ∃ l, channelsL ps = some l ∧ s = l.getD i []

theorem unravel_den {ps : List Node} {i o j : Nat} (h : unravel (ps.map nchan) i = some (o, j)) :
    ∃ p, ps[o]? = some p ∧ j < nchan p ∧ (denL ps).getD i Chan.none = (den p).getD j Chan.none ∧
      i < nchans ps := by
  have e : ps.map nchan = (ps.map den).map List.length := by
    simp [den_length, Function.comp_def]
  rw [e] at h
  obtain ⟨l, h1, h2, h3⟩ := unravel_getD Chan.none _ _ _ _ h
  simp only [List.getElem?_map, Option.map_eq_some_iff] at h1
  obtain ⟨p, hp, rfl⟩ := h1
  refine ⟨p, hp, by rwa [den_length] at h2, ?_, ?_⟩
  · rw [← h3, denL_eq, List.flatMap_def]
  · rw [← denL_length, denL_eq, List.flatMap_def]
    clear h3 hp p h2 e
    generalize ps.map den = ls at h
    induction ls generalizing i o j with
    | nil => simp [unravel] at h
    | cons l ls ih =>
      simp only [List.map_cons, unravel] at h
      split at h
      · simp; omega
      · simp only [Option.map_eq_some_iff, Prod.mk.injEq] at h
        obtain ⟨⟨o', j'⟩, h1, rfl, rfl⟩ := h
        have := ih h1
        simp only [List.flatten_cons, List.length_append]; omega

theorem channelsL_flatten {ps : List Node} (h : ∀ p ∈ ps, p.channels.isSome) :
    channelsL ps = some ((ps.map (fun p => p.channels.getD [])).flatten) := by
  induction ps with
  | nil => rfl
  | cons p ps ih =>
    obtain ⟨l, hl⟩ := Option.isSome_iff_exists.1 (h p (by simp))
    simp only [channelsL, hl, ih fun p hp => h p (by simp [hp])]
    simp [hl]

theorem channelsL_some {ps : List Node} (h : (channelsL ps).isSome) : ∀ p ∈ ps, p.channels.isSome := by
  induction ps with
  | nil => simp
  | cons p ps ih =>
    simp only [channelsL] at h
    split at h
    · rename_i e1 e2
      intro q hq
      rcases List.mem_cons.1 hq with rfl | hq
      · rw [e1]; rfl
      · exact ih (by rw [e2]; rfl) q hq
    · simp at h

theorem unravel_names {ps : List Node} {d : Int × Int} (hps : WFL d ps)
    (hch : ∀ p ∈ ps, p.channels.isSome) {i o j : Nat} (h : unravel (ps.map nchan) i = some (o, j))
    {s : Str} (hs : NameAt ps (some (o, j)) none s) : NameReq ps (some i, none) s := by
  have e : ps.map nchan = (ps.map (fun p => p.channels.getD [])).map List.length := by
    rw [List.map_map]
    apply List.map_congr_left
    intro p hp
    obtain ⟨l, hl⟩ := Option.isSome_iff_exists.1 (hch p hp)
    simp [hl, channels_length p l ((WFL_iff d ps).1 hps p hp).1 hl]
  rw [e] at h
  obtain ⟨l, h1, _, h3⟩ := unravel_getD ([] : Str) _ _ _ _ h
  refine ⟨_, channelsL_flatten hch, ?_⟩
  rw [h3]
  obtain ⟨n, l', hn, hl', rfl⟩ := hs
  simp only [List.getElem?_map, hn, Option.map_some, hl', Option.getD_some, Option.some.injEq] at h1
  rw [h1]

/-- The requests have names, or no channel is missing. -/
def ReqsOk (reqs : List (Option Nat × Option Str)) : Prop :=
  (∃ codes : List Str, reqs.map Prod.snd = codes.map some) ∨
  (∀ r ∈ reqs, r.1.isSome ∧ r.2 = Option.none)

/-- `DelayedChannelConcat.take_channels` from the index mapping on. -/
theorem concatTake_ok {ps : List Node} {d : Int × Int} (hps : WFL d ps)
    (hT : ∀ p ∈ ps, ∀ idxs t, (∀ i ∈ idxs, i < nchan p) → takeIdx p idxs = .ok t → TakeOK p idxs t)
    (hch : ∀ p ∈ ps, p.channels.isSome)
    {reqs : List (Option Nat × Option Str)} (hreq : ReqsOk reqs)
    {t : Node} (h : concatTake d (takers ps) reqs = .ok t) :
    (∃ qs, t = .concat qs d) ∧ WF t ∧ List.Forall₂ (FromReq ps) reqs (den t) ∧
    ∃ l, t.channels = some l ∧ List.Forall₂ (NameReq ps) reqs l := by
  unfold concatTake at h
  have hsz : (takers ps).map (fun p => p.1.nchan) = ps.map nchan := by
    rw [takers_eq, List.map_map]; rfl
  rw [hsz] at h
  split at h
  · cases h
  · rename_i segs hloop
    split at h
    · cases h
    · rename_i comps hcomps
      have hc := mapAll_ok hcomps
      obtain ⟨r1, r2, r3⟩ := accLoop_ok hloop (by simp [accSegs])
      have r4 := accLoop_nonempty hloop (by simp [accSegs])
      simp only [accSegs, Option.toList_none, List.append_nil, List.flatMap_nil, List.nil_append] at r1
      -- the names used for each segment
      obtain ⟨cs, hcsl, hcs0, hcsf⟩ : ∃ cs : Seg → List (Option Str),
          (∀ s ∈ segs, (cs s).length = s.indexes.length) ∧
          (∀ s ∈ segs, s.comp = Option.none → (∃ l, s.codes = some l ∧ l.length = s.indexes.length) ∧
            cs s = (s.codes.getD []).map some) ∧
          segs.flatMap cs = reqs.map Prod.snd := by
        rcases hreq with ⟨codes, hcodes⟩ | hsome
        · obtain ⟨c1, c2⟩ := accLoop_codes hcodes hloop (by simp [accSegs])
          have c3 : ∀ s ∈ segs, ∃ l, s.codes = some l ∧ l.length = s.indexes.length := by
            intro s hs
            rcases c2 s hs with ⟨_, h2, _⟩ | ⟨_, l, h1, h2⟩
            · exact absurd h2 (r4 s hs)
            · exact ⟨l, h1, h2⟩
          refine ⟨fun s => (s.codes.getD []).map some, ?_, ?_, ?_⟩
          · intro s hs
            obtain ⟨l, h1, h2⟩ := c3 s hs
            simp [h1, h2]
          · exact fun s hs _ => ⟨c3 s hs, rfl⟩
          · rw [hcodes, ← List.map_flatMap, c1]
            simp [accSegs]
        · refine ⟨fun s => s.indexes.map (fun _ => Option.none), by simp, ?_, ?_⟩
          · intro s hs hcomp
            exfalso
            obtain ⟨j, hj⟩ := List.exists_mem_of_ne_nil _ (r4 s hs)
            have : Option.none ∈ segs.flatMap Seg.rep := by
              rw [List.mem_flatMap]
              exact ⟨s, hs, by simp only [Seg.rep, List.mem_map]; exact ⟨j, hj, by simp [hcomp]⟩⟩
            rw [r1, List.mem_map] at this
            obtain ⟨r, hr, e⟩ := this
            have := r3 r hr (hsome r hr).1
            rw [e] at this
            cases this
          · have hlen : (segs.flatMap (fun s => s.indexes.map (fun _ => (Option.none : Option Str)))).length =
                reqs.length := by
              have := congrArg List.length r1
              simpa [List.length_flatMap, Seg.rep] using this
            apply List.ext_getElem
            · simpa using hlen
            · intro i h1 h2
              have e1 : ∀ x ∈ segs.flatMap (fun s => s.indexes.map (fun _ => (Option.none : Option Str))),
                  x = Option.none := by simp
              have e2 : ∀ x ∈ reqs.map Prod.snd, x = Option.none := by
                intro x hx
                obtain ⟨r, hr, rfl⟩ := List.mem_map.1 hx
                exact (hsome r hr).2
              rw [e1 _ (List.getElem_mem h1), e2 _ (List.getElem_mem h2)]
      -- every segment
      have hseg : List.Forall₂ (fun s t => WF t ∧ t.dsize = d ∧ List.Forall₂ (AtPos ps) s.rep (den t) ∧
          List.Forall₂ (fun x s => NameAt ps x.1 x.2 s) (s.rep.zip (cs s)) (t.channels.getD []) ∧
          t.channels.isSome) segs comps := by
        clear h hcomps hcsf
        have hposAll : ∀ s ∈ segs, ∀ o j, some (o, j) ∈ s.rep → ∃ p, ps[o]? = some p ∧ j < nchan p := by
          intro s hs o j hm
          have : some (o, j) ∈ segs.flatMap Seg.rep := List.mem_flatMap.2 ⟨s, hs, hm⟩
          rw [r1, List.mem_map] at this
          obtain ⟨r, hr, e⟩ := this
          simp only [reqPos, Option.bind_eq_some_iff] at e
          obtain ⟨i, _, hu⟩ := e
          obtain ⟨p, h1, h2, _⟩ := unravel_den hu
          exact ⟨p, h1, h2⟩
        clear r1 r3 r4 hloop
        induction hc with
        | nil => exact .nil
        | @cons s t segs' comps' hsub _ ih =>
          refine .cons ?_ (ih (fun s hs => r2 s (by simp [hs])) (fun s hs => hcsl s (by simp [hs]))
            (fun s hs => hcs0 s (by simp [hs])) fun s hs => hposAll s (by simp [hs]))
          obtain ⟨k1, k2, k3, k4⟩ := Seg.sub_ok hps hT (r2 s (by simp)) (hposAll s (by simp))
            (fun hn => (hcs0 s (by simp) hn).1) hsub
          obtain ⟨l, hl, hl2⟩ := k4 hch
          exact ⟨k1, k2, k3, by
            rw [hl]; exact hl2 (cs s) (hcsl s (by simp)) fun hn => (hcs0 s (by simp) hn).2, by rw [hl]; rfl⟩
      have hwf : ∀ q ∈ comps, WF q ∧ q.dsize = d ∧ q.channels.isSome := by
        intro q hq
        obtain ⟨s, _, hh⟩ := forall₂_mem_right hseg hq
        exact ⟨hh.1, hh.2.1, hh.2.2.2.2⟩
      have hne : comps ≠ [] := by rintro rfl; simp [mkConcat] at h
      rw [mkConcat_same hne fun q hq => (hwf q hq).2.1] at h
      cases h
      refine ⟨⟨comps, rfl⟩, ⟨hne, (WFL_iff d comps).2 fun q hq => ⟨(hwf q hq).1, (hwf q hq).2.1⟩⟩, ?_, ?_⟩
      · have h1 : List.Forall₂ (AtPos ps) (segs.flatMap Seg.rep) (comps.map den).flatten := by
          apply forall₂_flatMap
          rw [List.forall₂_map_right_iff]
          exact hseg.imp fun _ _ hh => hh.2.2.1
        rw [r1, List.forall₂_map_left_iff] at h1
        rw [show den (.concat comps d) = denL comps from by rw [den], denL_eq, List.flatMap_def]
        refine forall₂_imp_left h1 fun r hr c hc => ?_
        unfold FromReq
        cases hi : r.1 with
        | none =>
          simp only [reqPos, hi, Option.bind_none] at hc
          exact hc
        | some i =>
          have := r3 r hr (by rw [hi]; rfl)
          obtain ⟨⟨o, j⟩, hoj⟩ := Option.isSome_iff_exists.1 this
          rw [hoj] at hc
          simp only [reqPos, hi, Option.bind_some] at hoj
          obtain ⟨p, e1, e2, e3, e4⟩ := unravel_den hoj
          obtain ⟨p', e5, rfl⟩ := hc
          rw [e1] at e5
          cases e5
          exact ⟨e4, e3.symm⟩
      · refine ⟨(comps.map (fun p => p.channels.getD [])).flatten,
          by rw [Node.channels]; exact channelsL_flatten fun q hq => (hwf q hq).2.2, ?_⟩
        have h1 : List.Forall₂ (fun x s => NameAt ps x.1 x.2 s)
            (segs.flatMap (fun s => s.rep.zip (cs s))) (comps.map (fun p => p.channels.getD [])).flatten := by
          apply forall₂_flatMap
          rw [List.forall₂_map_right_iff]
          exact hseg.imp fun _ _ hh => hh.2.2.2.1
        rw [← zip_flatMap _ _ _ (fun s hs => by rw [hcsl s hs]; simp [Seg.rep]), r1, hcsf,
          List.zip_map', List.forall₂_map_left_iff] at h1
        refine forall₂_imp_left h1 fun r hr c hc => ?_
        cases hi : r.1 with
        | none =>
          simp only [reqPos, hi, Option.bind_none] at hc
          simp only [NameReq, hi]
          exact hc
        | some i =>
          have := r3 r hr (by rw [hi]; rfl)
          obtain ⟨⟨o, j⟩, hoj⟩ := Option.isSome_iff_exists.1 this
          rw [hoj] at hc
          simp only [reqPos, hi, Option.bind_some] at hoj
          have := unravel_names hps hch hoj hc
          simpa only [NameReq, hi] using this

theorem fromReq_idxs {ps : List Node} {idxs : List Nat} {l : List Chan}
    (h : List.Forall₂ (FromReq ps) (idxs.map (fun i => (some i, Option.none))) l) :
    l = pick Chan.none (denL ps) idxs := by
  rw [List.forall₂_map_left_iff] at h
  induction h with
  | nil => rfl
  | cons h _ ih => rw [ih]; simp only [pick, List.map_cons]; rw [← h.2]

theorem nameReq_idxs {ps : List Node} {idxs : List Nat} {names l : List Str}
    (hn : channelsL ps = some names)
    (h : List.Forall₂ (NameReq ps) (idxs.map (fun i => (some i, Option.none))) l) :
    l = pick [] names idxs := by
  rw [List.forall₂_map_left_iff] at h
  induction h with
  | nil => rfl
  | cons h _ ih =>
    obtain ⟨l', h1, rfl⟩ := h
    rw [hn] at h1
    cases h1
    rw [ih]; rfl

mutual
/-- `take_channels` with in-range indices shows the requested channels, by definition of the tree. -/
theorem takeIdx_ok : ∀ (n : Node), WF n → ∀ idxs t, (∀ i ∈ idxs, i < nchan n) →
    takeIdx n idxs = .ok t → TakeOK n idxs t
  | .leaf l, hn, idxs, t, hi, h => by rw [takeIdx] at h; exact mkCrop_none_ok hn hi h
  | .warp s tf d a, hn, idxs, t, hi, h => by rw [takeIdx] at h; exact mkCrop_none_ok hn hi h
  | .crop s y0 y1 x0 x1 c, hn, idxs, t, hi, h => by rw [takeIdx] at h; exact mkCrop_none_ok hn hi h
  | .overview s k d, hn, idxs, t, hi, h => by rw [takeIdx] at h; exact mkCrop_none_ok hn hi h
  | .dequant s q d, hn, idxs, t, hi, h => by rw [takeIdx] at h; exact mkCrop_none_ok hn hi h
  | .concat ps d, hn, idxs, t, hi, h => by
    rw [takeIdx] at h
    split at h
    · cases h
    · rename_i names hnames
      have hps : WFL d ps := by rw [WF] at hn; exact hn.2
      obtain ⟨⟨qs, rfl⟩, h1, h2, l, h3, h4⟩ := concatTake_ok hps (takeIdx_all ps d hps)
        (channelsL_some (by rw [hnames]; rfl))
        (Or.inr (by simp)) h
      refine ⟨h1, rfl, ?_, ?_⟩
      · rw [h3, nameReq_idxs hnames h4]
        rw [show (Node.concat ps d).channels = channelsL ps from by rw [Node.channels], hnames]
        rfl
      · rw [fromReq_idxs h2]
        rw [show den (.concat ps d) = denL ps from by rw [den]]
theorem takeIdx_all : ∀ (ps : List Node) (d : Int × Int), WFL d ps → ∀ p ∈ ps, ∀ idxs t,
    (∀ i ∈ idxs, i < nchan p) → takeIdx p idxs = .ok t → TakeOK p idxs t
  | [], _, _, p, hp, _, _, _, _ => by simp at hp
  | q :: qs, d, h, p, hp, idxs, t, hi, ht => by
    rw [WFL] at h
    rcases List.mem_cons.1 hp with e | hp
    · rw [e] at hi ht ⊢; exact takeIdx_ok q h.1 idxs t hi ht
    · exact takeIdx_all qs d h.2.2 p hp idxs t hi ht
end

end Tree
end Verif
