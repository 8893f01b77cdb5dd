/-
Selecting channels of nested concats: the parts that `take_channels` gives are those it gives for the parts of
the parts.
-/
import Verif.TakeTotal

namespace Verif
namespace Tree

open Helpers Node

/-! #### stretches of a list -/

section
variable {α β : Type}

/-- A list cut where a key changes. -/
def stretches (key : α → Nat) : List α → List (List α)
  | [] => []
  | a :: l =>
    match stretches key l with
    | [] => [[a]]
    | [] :: gs => [a] :: gs
    | (b :: g) :: gs => if key a = key b then (a :: b :: g) :: gs else [a] :: (b :: g) :: gs

theorem stretches_cons (key : α → Nat) (b : α) (l : List α) :
    ∃ g gs, stretches key (b :: l) = (b :: g) :: gs := by
  rw [stretches]
  split
  · exact ⟨_, _, rfl⟩
  · exact ⟨_, _, rfl⟩
  · split
    · exact ⟨_, _, rfl⟩
    · exact ⟨_, _, rfl⟩

theorem stretches_step (key : α → Nat) (a b : α) (l : List α) :
    ∃ g gs, stretches key (b :: l) = (b :: g) :: gs ∧
      stretches key (a :: b :: l) = if key a = key b then (a :: b :: g) :: gs else [a] :: (b :: g) :: gs := by
  obtain ⟨g, gs, e⟩ := stretches_cons key b l
  refine ⟨g, gs, e, ?_⟩
  rw [stretches, e]

theorem stretches_nil {key : α → Nat} {l : List α} (h : stretches key l = []) : l = [] := by
  cases l with
  | nil => rfl
  | cons a l =>
    obtain ⟨g, gs, e⟩ := stretches_cons key a l
    rw [e] at h
    cases h

/-- Nothing is lost, the stretches are not empty and have one key each. -/
theorem stretches_spec (key : α → Nat) : ∀ l : List α, (stretches key l).flatten = l ∧
    ∀ g ∈ stretches key l, ∃ a t, g = a :: t ∧ ∀ b ∈ g, key b = key a
  | [] => ⟨rfl, by simp [stretches]⟩
  | [a] => ⟨rfl, by simp [stretches]⟩
  | a :: b :: l => by
    obtain ⟨h1, h2⟩ := stretches_spec key (b :: l)
    obtain ⟨g, gs, e1, e2⟩ := stretches_step key a b l
    rw [e1] at h1 h2
    rw [e2]
    by_cases hk : key a = key b
    · rw [if_pos hk]
      refine ⟨by simpa using h1, ?_⟩
      intro g' hg'
      rcases List.mem_cons.1 hg' with rfl | hg'
      · refine ⟨a, b :: g, rfl, ?_⟩
        obtain ⟨c, t, e, hc⟩ := h2 (b :: g) (by simp)
        cases e
        intro x hx
        rcases List.mem_cons.1 hx with rfl | hx
        · rfl
        · rw [hc x hx, hk]
      · exact h2 g' (by simp [hg'])
    · rw [if_neg hk]
      refine ⟨by simpa using h1, ?_⟩
      intro g' hg'
      rcases List.mem_cons.1 hg' with rfl | hg'
      · exact ⟨a, [], rfl, by simp⟩
      · exact h2 g' hg'

theorem stretches_const {key : α → Nat} {k : Nat} : ∀ {l : List α}, l ≠ [] → (∀ a ∈ l, key a = k) →
    stretches key l = [l]
  | [], h, _ => (h rfl).elim
  | [a], _, _ => rfl
  | a :: b :: l, _, h => by
    obtain ⟨g, gs, e1, e2⟩ := stretches_step key a b l
    rw [stretches_const (l := b :: l) (by simp) fun x hx => h x (by simp [List.mem_cons.1 hx])] at e1
    cases e1
    rw [e2, if_pos ((h a (by simp)).trans (h b (by simp)).symm)]

theorem stretches_congr {k1 k2 : α → Nat} : ∀ {l : List α},
    (∀ a ∈ l, ∀ b ∈ l, k1 a = k1 b ↔ k2 a = k2 b) → stretches k1 l = stretches k2 l
  | [], _ => rfl
  | [a], _ => rfl
  | a :: b :: l, h => by
    have ih := stretches_congr (l := b :: l) fun x hx y hy => h x (List.mem_cons_of_mem _ hx) y (List.mem_cons_of_mem _ hy)
    obtain ⟨g, gs, e1, e2⟩ := stretches_step k1 a b l
    obtain ⟨g', gs', e3, e4⟩ := stretches_step k2 a b l
    rw [← ih, e1] at e3
    cases e3
    rw [e2, e4]
    have := h a (by simp) b (by simp)
    by_cases hk : k1 a = k1 b
    · rw [if_pos hk, if_pos (this.1 hk)]
    · rw [if_neg hk, if_neg fun e => hk (this.2 e)]

theorem stretches_map (key : β → Nat) (f : α → β) : ∀ l : List α,
    stretches key (l.map f) = (stretches (key ∘ f) l).map (List.map f)
  | [] => rfl
  | [a] => rfl
  | a :: b :: l => by
    have ih := stretches_map key f (b :: l)
    obtain ⟨g, gs, e1, e2⟩ := stretches_step (key ∘ f) a b l
    obtain ⟨g', gs', e3, e4⟩ := stretches_step key (f a) (f b) (l.map f)
    rw [List.map_cons, e3, e1] at ih
    cases ih
    rw [List.map_cons, List.map_cons, e4, e2]
    simp only [Function.comp]
    split <;> rfl

/-- Cutting at the changes of a key, then at those of a finer key. -/
theorem stretches_finer {k1 k2 : α → Nat} : ∀ {l : List α}, (∀ a ∈ l, ∀ b ∈ l, k2 a = k2 b → k1 a = k1 b) →
    stretches k2 l = (stretches k1 l).flatMap (stretches k2)
  | [], _ => rfl
  | [a], _ => rfl
  | a :: b :: l, h => by
    have ih := stretches_finer (l := b :: l) fun x hx y hy => h x (List.mem_cons_of_mem _ hx) y (List.mem_cons_of_mem _ hy)
    obtain ⟨g, gs, e1, e2⟩ := stretches_step k1 a b l
    obtain ⟨g', gs', e3, e4⟩ := stretches_step k2 a b l
    obtain ⟨g2, gs2, e5, e6⟩ := stretches_step k2 a b g
    rw [e3, e1, List.flatMap_cons, e5] at ih
    cases ih
    rw [e4, e2]
    by_cases hk : k1 a = k1 b
    · rw [if_pos hk, List.flatMap_cons, e6]
      split <;> simp
    · rw [if_neg hk, if_neg fun e => hk (h a (by simp) b (by simp) e), List.flatMap_cons, List.flatMap_cons, e5]
      simp [stretches]

theorem stretches_append {key : α → Nat} : ∀ {l m : List α}, (∀ a ∈ l, ∀ b ∈ m, key a ≠ key b) →
    stretches key (l ++ m) = stretches key l ++ stretches key m
  | [], m, _ => rfl
  | [a], [], _ => rfl
  | [a], b :: m, h => by
    obtain ⟨g, gs, e1, e2⟩ := stretches_step key a b m
    rw [List.singleton_append, e2, if_neg (h a (by simp) b (by simp)), e1]
    rfl
  | a :: b :: l, m, h => by
    have ih := stretches_append (l := b :: l) (m := m) fun x hx y hy => h x (List.mem_cons_of_mem _ hx) y hy
    obtain ⟨g, gs, e1, e2⟩ := stretches_step key a b l
    obtain ⟨g', gs', e3, e4⟩ := stretches_step key a b (l ++ m)
    rw [e1, List.cons_append, e3] at ih
    rw [List.cons_append] at ih
    cases ih
    rw [List.cons_append, List.cons_append, e4, e2]
    split <;> rfl

end

/-! #### positions -/

theorem unravel_left {s t : List Nat} {i : Nat} (h : i < s.sum) : unravel (s ++ t) i = unravel s i := by
  induction s generalizing i with
  | nil => simp at h
  | cons n s ih =>
    simp only [List.cons_append, unravel]
    split
    · rfl
    · rw [ih (by simp at h; omega)]

theorem unravel_right {s t : List Nat} {i : Nat} (h : s.sum ≤ i) :
    unravel (s ++ t) i = (unravel t (i - s.sum)).map (fun p => (p.1 + s.length, p.2)) := by
  induction s generalizing i with
  | nil => simp
  | cons n s ih =>
    simp only [List.sum_cons] at h
    simp only [List.cons_append, unravel]
    rw [if_neg (by omega), ih (by omega), Option.map_map, List.sum_cons, Nat.sub_sub]
    congr 1

/-- Positions in a list of lists, in two steps. -/
theorem unravel_flatten : ∀ {ss : List (List Nat)} {i o j : Nat}, unravel (ss.map List.sum) i = some (o, j) →
    ∃ s, ss[o]? = some s ∧ j < s.sum ∧
      unravel ss.flatten i = (unravel s j).map (fun p => (p.1 + (ss.take o).flatten.length, p.2))
  | [], _, _, _, h => by simp [unravel] at h
  | s :: ss, i, o, j, h => by
    simp only [List.map_cons, unravel] at h
    split at h
    · rename_i hi
      cases h
      refine ⟨s, rfl, hi, ?_⟩
      rw [List.flatten_cons, unravel_left hi]
      simp
    · rename_i hi
      simp only [Option.map_eq_some_iff] at h
      obtain ⟨⟨o', j'⟩, h, e⟩ := h
      cases e
      obtain ⟨t, h1, h2, h3⟩ := unravel_flatten h
      refine ⟨t, h1, h2, ?_⟩
      rw [List.flatten_cons, unravel_right (by omega), h3, Option.map_map]
      congr 1
      funext p
      simp only [Function.comp, List.take_succ_cons, List.flatten_cons, List.length_append, Prod.mk.injEq, and_true]
      omega

/-- Part and position in the part. -/
def spot (sizes : List Nat) (i : Nat) : Nat × Nat := (unravel sizes i).getD (0, 0)

theorem unravel_spot {sizes : List Nat} {i : Nat} (h : i < sizes.sum) : unravel sizes i = some (spot sizes i) := by
  obtain ⟨x, hx⟩ := Option.isSome_iff_exists.1 (unravel_total sizes i h)
  rw [spot, hx]
  rfl

/-! #### selecting -/

/-- Channels of an image that is not a concat: all of them, or a crop. -/
def choose (p : Node) (js : List Nat) : Node :=
  if js = List.range p.nchan then p else .crop p 0 p.dsize.2 0 p.dsize.1 (some js)

/-- One stretch of a selection. -/
def chooseAt (ys : List Node) (g : List Nat) : List Node :=
  (ys[(spot (ys.map nchan) (g.headD 0)).1]?).toList.map
    fun p => choose p (g.map fun i => (spot (ys.map nchan) i).2)

/-- The parts a selection of channels of a list of parts has. -/
def chooseAll (ys : List Node) (idxs : List Nat) : List Node :=
  (stretches (fun i => (spot (ys.map nchan) i).1) idxs).flatMap (chooseAt ys)

theorem chooseAll_one {p : Node} {js : List Nat} (h0 : js ≠ []) (h : ∀ j ∈ js, j < p.nchan) :
    chooseAll [p] js = [choose p js] := by
  have e : ∀ j ∈ js, spot [p.nchan] j = (0, j) := by
    intro j hj
    simp [spot, unravel, h j hj]
  unfold chooseAll
  rw [stretches_const (k := 0) h0 fun j hj => by simp [e j hj]]
  obtain ⟨a, l, rfl⟩ := List.exists_cons_of_ne_nil h0
  have e2 : (a :: l).map (fun i => (spot [p.nchan] i).2) = a :: l := by
    conv => rhs; rw [← List.map_id (a :: l)]
    exact List.map_congr_left fun j hj => by simp [e j hj]
  simp only [List.flatMap_cons, List.flatMap_nil, List.append_nil, chooseAt, List.map_cons, List.map_nil,
    List.headD_cons, e a (by simp)] at e2 ⊢
  simp [e2]

theorem getElem?_flatten {α : Type} : ∀ {ls : List (List α)} {o k : Nat} {l : List α}, ls[o]? = some l →
    k < l.length → ls.flatten[k + (ls.take o).flatten.length]? = l[k]?
  | [], _, _, _, h, _ => by simp at h
  | l :: ls, 0, k, _, h, hk => by
    cases h
    simp [List.getElem?_append_left hk]
  | l :: ls, o + 1, k, l', h, hk => by
    have := getElem?_flatten (ls := ls) (o := o) (k := k) h hk
    rw [List.take_succ_cons, List.flatten_cons, List.flatten_cons, ← this, List.length_append,
      List.getElem?_append_right (by omega)]
    congr 1
    omega

theorem unravel_lt {sizes : List Nat} {i o j : Nat} (h : unravel sizes i = some (o, j)) : o < sizes.length := by
  induction sizes generalizing i o with
  | nil => simp [unravel] at h
  | cons n s ih =>
    simp only [unravel] at h
    split at h
    · cases h; simp
    · simp only [Option.map_eq_some_iff] at h
      obtain ⟨⟨o', j'⟩, h, e⟩ := h
      cases e
      have := ih h
      simp only [List.length_cons]
      omega

/-- A selection of channels of a list of lists of parts, in two steps. -/
theorem chooseAll_flatten {ls : List (List Node)} {idxs : List Nat}
    (hi : ∀ i ∈ idxs, i < (ls.flatten.map nchan).sum) :
    chooseAll ls.flatten idxs =
      (stretches (fun i => (spot (ls.map fun l => (l.map nchan).sum) i).1) idxs).flatMap fun g =>
        (ls[(spot (ls.map fun l => (l.map nchan).sum) (g.headD 0)).1]?).toList.flatMap fun l =>
          chooseAll l (g.map fun i => (spot (ls.map fun l => (l.map nchan).sum) i).2) := by
  generalize hS : ls.map (fun l => (l.map nchan).sum) = S
  have hflat : ls.flatten.map nchan = (ls.map (List.map nchan)).flatten := by rw [List.map_flatten]
  have hS' : (ls.map (List.map nchan)).map List.sum = S := by rw [List.map_map]; exact hS
  have hsum : (ls.flatten.map nchan).sum = S.sum := by rw [hflat, List.sum_flatten, hS']
  -- where a request goes
  have two : ∀ i ∈ idxs, ∃ l, ls[(spot S i).1]? = some l ∧ (spot S i).2 < (l.map nchan).sum ∧
      spot (ls.flatten.map nchan) i =
        ((spot (l.map nchan) (spot S i).2).1 + (ls.take (spot S i).1).flatten.length,
          (spot (l.map nchan) (spot S i).2).2) := by
    intro i h
    have hu := unravel_spot (by rw [← hsum]; exact hi i h)
    rw [← hS'] at hu
    obtain ⟨s, h1, h2, h3⟩ := unravel_flatten hu
    rw [hS'] at h1 h2 h3
    rw [List.getElem?_map, Option.map_eq_some_iff] at h1
    obtain ⟨l, h1, rfl⟩ := h1
    refine ⟨l, h1, h2, ?_⟩
    have h4 := h3
    rw [unravel_spot h2] at h4
    rw [← hflat] at h4
    show (unravel (ls.flatten.map nchan) i).getD (0, 0) = _
    rw [h4]
    simp only [Option.map_some, Option.getD_some, ← List.map_take]
    congr 2
    rw [← List.map_flatten, List.length_map]
    rfl
  unfold chooseAll
  rw [stretches_finer (k1 := fun i => (spot S i).1) (k2 := fun i => (spot (ls.flatten.map nchan) i).1)]
  · rw [List.flatMap_assoc]
    apply List.flatMap_congr
    intro g hg
    obtain ⟨hfl, hone⟩ := stretches_spec (fun i => (spot S i).1) idxs
    have hsub : ∀ i ∈ g, i ∈ idxs := fun i h => by
      rw [← hfl, List.mem_flatten]
      exact ⟨g, hg, h⟩
    obtain ⟨a, t, rfl, hkey⟩ := hone g hg
    obtain ⟨l, hl, _⟩ := two a (hsub a (by simp))
    simp only [List.headD_cons, hl, Option.toList_some, List.flatMap_cons, List.flatMap_nil, List.append_nil]
    have here : ∀ i ∈ a :: t, (spot S i).2 < (l.map nchan).sum ∧ spot (ls.flatten.map nchan) i =
        ((spot (l.map nchan) (spot S i).2).1 + (ls.take (spot S a).1).flatten.length,
          (spot (l.map nchan) (spot S i).2).2) := by
      intro i h
      obtain ⟨l', h1, h2, h3⟩ := two i (hsub i h)
      have ek : (spot S i).1 = (spot S a).1 := hkey i h
      rw [ek, hl] at h1
      cases h1
      rw [ek] at h3
      exact ⟨h2, h3⟩
    rw [stretches_map, stretches_congr (k2 := (fun i => (spot (l.map nchan) i).1) ∘ fun i => (spot S i).2)]
    · rw [List.flatMap_map]
      apply List.flatMap_congr
      intro h hh
      obtain ⟨hfl', hone'⟩ := stretches_spec ((fun i => (spot (l.map nchan) i).1) ∘ fun i => (spot S i).2) (a :: t)
      have hsub' : ∀ i ∈ h, i ∈ a :: t := fun i hi' => by
        rw [← hfl', List.mem_flatten]
        exact ⟨h, hh, hi'⟩
      obtain ⟨b, u, rfl, _⟩ := hone' h hh
      unfold chooseAt
      rw [List.map_map]
      have eb := here b (hsub' b (by simp))
      simp only [List.headD_cons, List.map_cons]
      rw [eb.2]
      have hlt : (spot (l.map nchan) (spot S b).2).1 < l.length := by
        have := unravel_lt (unravel_spot eb.1)
        rwa [List.length_map] at this
      rw [getElem?_flatten hl hlt]
      congr 2
      funext p
      congr 1
      have : ∀ i ∈ u, (spot (ls.flatten.map nchan) i).2 = (spot (l.map nchan) (spot S i).2).2 := fun i hi' => by
        rw [(here i (hsub' i (by simp [hi']))).2]
      rw [List.map_congr_left this]
      rfl
    · intro x hx y hy
      simp only [(here x hx).2, (here y hy).2, Function.comp]
      omega
  · intro a ha b hb e
    obtain ⟨l, h1, h2, h3⟩ := two a ha
    obtain ⟨l', h1', h2', h3'⟩ := two b hb
    simp only [h3, h3'] at e
    have q1 := unravel_lt (unravel_spot h2)
    have q2 := unravel_lt (unravel_spot h2')
    rw [List.length_map] at q1 q2
    by_contra hne
    have key : ∀ {o o' : Nat} {l l' : List Node} {k k' : Nat}, ls[o]? = some l → o < o' → k < l.length →
        k + (ls.take o).flatten.length ≠ k' + (ls.take o').flatten.length := by
      intro o o' l l' k k' hl hlt hk
      obtain ⟨m, rfl⟩ : ∃ m, o' = o + 1 + m := ⟨o' - o - 1, by omega⟩
      have ho : ls.take (o + 1) = ls.take o ++ [l] := by rw [List.take_add_one, hl]; rfl
      rw [List.take_add, ho]
      simp only [List.flatten_append, List.flatten_cons, List.flatten_nil, List.append_nil, List.length_append]
      omega
    rcases Nat.lt_or_gt_of_ne hne with hlt | hlt
    · exact key (l' := l) h1 hlt q1 e
    · exact key (l' := l) h1' hlt q2 e.symm

/-! #### everything -/

theorem spot_left {ys zs : List Nat} {i : Nat} (h : i < ys.sum) : spot (ys ++ zs) i = spot ys i := by
  rw [spot, unravel_left h, spot]

theorem spot_right {y : Nat} {zs : List Nat} {i : Nat} (h : i < zs.sum) :
    spot (y :: zs) (y + i) = ((spot zs i).1 + 1, (spot zs i).2) := by
  have : unravel (y :: zs) (y + i) = (unravel zs i).map (fun p => (p.1 + 1, p.2)) := by
    rw [unravel, if_neg (by omega), Nat.add_sub_cancel_left]
  rw [spot, this, unravel_spot h]
  rfl

/-- All channels of parts that have channels: the parts. -/
theorem chooseAll_range : ∀ {ys : List Node}, (∀ y ∈ ys, 0 < y.nchan) →
    chooseAll ys (List.range (ys.map nchan).sum) = ys
  | [], _ => rfl
  | y :: ys, h => by
    have ih := chooseAll_range (ys := ys) fun z hz => h z (by simp [hz])
    have hy := h y (by simp)
    generalize hN : (ys.map nchan).sum = N at ih
    have hkey1 : ∀ i ∈ List.range y.nchan, spot ((y :: ys).map nchan) i = (0, i) := by
      intro i hi
      simp [spot, unravel, List.mem_range.1 hi]
    have hkey2 : ∀ i ∈ List.range N, spot ((y :: ys).map nchan) (y.nchan + i) =
        ((spot (ys.map nchan) i).1 + 1, (spot (ys.map nchan) i).2) := fun i hi =>
      spot_right (by rw [hN]; exact List.mem_range.1 hi)
    unfold chooseAll at ih ⊢
    rw [List.map_cons, List.sum_cons, hN, List.range_add, stretches_append, List.flatMap_append,
      stretches_const (k := 0) (by simp; omega), stretches_map]
    · rw [stretches_congr (k2 := fun i => (spot (ys.map nchan) i).1)]
      · rw [List.flatMap_map]
        have e1 : [List.range y.nchan].flatMap (chooseAt (y :: ys)) = [y] := by
          obtain ⟨k, hk⟩ : ∃ k, y.nchan = k + 1 := ⟨y.nchan - 1, by omega⟩
          simp only [List.flatMap_cons, List.flatMap_nil, List.append_nil, chooseAt]
          have hm : (List.range y.nchan).map (fun i => (spot ((y :: ys).map nchan) i).2) = List.range y.nchan := by
            conv => rhs; rw [← List.map_id (List.range y.nchan)]
            exact List.map_congr_left fun i hi => by rw [hkey1 i hi]; rfl
          rw [hm]
          have h0 : (List.range y.nchan).headD 0 = 0 := by rw [hk, List.range_succ_eq_map]; rfl
          rw [h0, hkey1 0 (by simp; omega)]
          simp [choose]
        rw [e1, List.singleton_append]
        congr 1
        refine Eq.trans (List.flatMap_congr ?_) ih
        intro g hg
        obtain ⟨hfl, hone⟩ := stretches_spec (fun i => (spot (ys.map nchan) i).1) (List.range N)
        have hsub : ∀ i ∈ g, i ∈ List.range N := fun i hi' => by
          rw [← hfl, List.mem_flatten]
          exact ⟨g, hg, hi'⟩
        obtain ⟨b, u, rfl, _⟩ := hone g hg
        unfold chooseAt
        simp only [List.map_cons, List.headD_cons, List.map_map]
        have hb := hkey2 b (hsub b (by simp))
        rw [List.map_cons] at hb
        rw [hb]
        have : ∀ i ∈ u, ((fun i => (spot (y.nchan :: ys.map nchan) i).2) ∘ fun x => y.nchan + x) i =
            (spot (ys.map nchan) i).2 := fun i hi' => by
          have := hkey2 i (hsub i (by simp [hi']))
          rw [List.map_cons] at this
          simp only [Function.comp, this]
        rw [List.map_congr_left this, List.getElem?_cons_succ]
      · intro a ha b hb
        have h1 := hkey2 a ha
        have h2 := hkey2 b hb
        rw [List.map_cons] at h1 h2
        simp only [Function.comp, h1, h2]
        omega
    · intro i hi
      have := hkey1 i hi
      rw [List.map_cons] at this
      simp [this]
    · intro a ha b hb
      obtain ⟨c, hc, rfl⟩ := List.mem_map.1 hb
      have h1 := hkey1 a ha
      have h2 := hkey2 c hc
      rw [List.map_cons] at h1 h2
      simp [h1, h2]

/-! #### the loop -/

/-- The segment of a stretch. -/
def segOf (comp : Nat) (js : List Nat) : Seg := js.foldl (fun s j => s.add j none) (Seg.new (some comp))

theorem foldl_add_comp (js : List Nat) (s : Seg) : (js.foldl (fun s j => s.add j none) s).comp = s.comp := by
  induction js generalizing s with
  | nil => rfl
  | cons j js ih => rw [List.foldl_cons, ih, Seg.add_comp]

theorem foldl_add_indexes (js : List Nat) (s : Seg) :
    (js.foldl (fun s j => s.add j none) s).indexes = s.indexes ++ js := by
  induction js generalizing s with
  | nil => simp
  | cons j js ih => rw [List.foldl_cons, ih, Seg.add_indexes]; simp

theorem foldl_add_inv (js : List Nat) {s : Seg} (h : s.Inv) : (js.foldl (fun s j => s.add j none) s).Inv := by
  induction js generalizing s with
  | nil => exact h
  | cons j js ih => exact ih (Seg.inv_add s j none h)

theorem segOf_range (comp : Nat) : ∀ n : Nat, (segOf comp (List.range (n + 1))).start = some 0 ∧
    (segOf comp (List.range (n + 1))).stop = some (n + 1)
  | 0 => ⟨rfl, rfl⟩
  | n + 1 => by
    obtain ⟨h1, h2⟩ := segOf_range comp n
    have e : segOf comp (List.range (n + 1 + 1)) = (segOf comp (List.range (n + 1))).add (n + 1) none := by
      rw [List.range_succ, segOf, List.foldl_append]
      rfl
    rw [e]
    unfold Seg.add
    simp [h1, h2]

/-- All channels of the part, or not. -/
theorem segOf_indexer (comp : Nat) {js : List Nat} (h0 : js ≠ []) (n : Nat) :
    (segOf comp js).indexer n = .ok (if js = List.range n then none else some js) := by
  have hinv : (segOf comp js).Inv := foldl_add_inv js (Seg.inv_new _)
  have hix : (segOf comp js).indexes = js := by rw [segOf, foldl_add_indexes]; rfl
  obtain ⟨r, hr⟩ := Seg.indexer_total hinv n
  have := Seg.indexer_ok hinv hr
  rw [hix] at this
  rw [hr]
  split
  · rename_i e
    subst e
    cases n with
    | zero => exact (h0 rfl).elim
    | succ n =>
      obtain ⟨h1, h2⟩ := segOf_range comp n
      unfold Seg.indexer at hr
      simp only [h1, h2, and_self, if_true] at hr
      split at hr
      · exact hr.symm
      · cases hr
  · rename_i e
    cases r with
    | none => exact absurd this e
    | some l => simp only [Option.getD_some] at this; rw [this]

/-- The segments of a state and of the requests that are left. -/
theorem accLoop_stretches {sizes : List Nat} : ∀ {l : List Nat} (_ : ∀ i ∈ l, i < sizes.sum) (done : List Seg)
    (c : Seg) (k : Nat), c.comp = some k →
    accLoop sizes (done, some c) (l.map fun i => (some i, none)) = .ok (done ++
      match stretches (fun i => (spot sizes i).1) l with
      | [] => [c]
      | g :: gs => if (spot sizes (g.headD 0)).1 = k then
          (g.foldl (fun s i => s.add (spot sizes i).2 none) c) ::
            gs.map fun g => segOf (spot sizes (g.headD 0)).1 (g.map fun i => (spot sizes i).2)
        else c :: (g :: gs).map fun g => segOf (spot sizes (g.headD 0)).1 (g.map fun i => (spot sizes i).2))
  | [], _, done, c, k, _ => by simp [accLoop, stretches]
  | a :: l, h, done, c, k, hc => by
    have hl : ∀ i ∈ l, i < sizes.sum := fun i hi => h i (by simp [hi])
    have ha : locate sizes (some c) (some a) = .ok (some (spot sizes a).1, (spot sizes a).2) := by
      simp only [locate, unravel_spot (h a (by simp))]
    rw [List.map_cons, accLoop]
    simp only [ha, extend, hc, Option.some.injEq]
    have hseg : ∀ (g : List Nat) (s : Seg), g.foldl (fun s i => s.add (spot sizes i).2 none) s =
        (g.map fun i => (spot sizes i).2).foldl (fun s j => s.add j none) s := fun g s => by rw [List.foldl_map]
    by_cases hk : k = (spot sizes a).1
    · rw [if_pos hk, accLoop_stretches hl done _ k (by rw [Seg.add_comp, hc])]
      cases l with
      | nil => simp [stretches, hk]
      | cons b l =>
        obtain ⟨g, gs, e1, e2⟩ := stretches_step (fun i => (spot sizes i).1) a b l
        rw [e1, e2]
        by_cases hab : (spot sizes a).1 = (spot sizes b).1
        · simp only [if_pos hab, List.headD_cons, hk, hab, if_true, List.foldl_cons]
        · simp only [if_neg hab, List.headD_cons, hk, if_neg (Ne.symm hab), if_true, List.foldl_cons, List.foldl_nil,
            List.map_cons]
    · rw [if_neg hk, accLoop_stretches hl (done ++ [c]) _ (spot sizes a).1 (by rw [Seg.add_comp]; rfl)]
      cases l with
      | nil => simp [stretches, Ne.symm hk, segOf]
      | cons b l =>
        obtain ⟨g, gs, e1, e2⟩ := stretches_step (fun i => (spot sizes i).1) a b l
        rw [e1, e2]
        by_cases hab : (spot sizes a).1 = (spot sizes b).1
        · simp only [if_pos hab, List.headD_cons, hab, if_true, if_neg (hab ▸ Ne.symm hk), List.append_assoc,
            List.singleton_append, List.map_cons]
          simp [segOf, hseg]
        · simp only [if_neg hab, List.headD_cons, if_neg (Ne.symm hab), if_neg (Ne.symm hk), List.append_assoc,
            List.singleton_append, List.map_cons]
          simp [segOf]

theorem accLoop_all {sizes : List Nat} {l : List Nat} (h : ∀ i ∈ l, i < sizes.sum) :
    accLoop sizes ([], none) (l.map fun i => (some i, none)) =
      .ok ((stretches (fun i => (spot sizes i).1) l).map fun g =>
        segOf (spot sizes (g.headD 0)).1 (g.map fun i => (spot sizes i).2)) := by
  cases l with
  | nil => rfl
  | cons a l =>
    have ha : locate sizes none (some a) = .ok (some (spot sizes a).1, (spot sizes a).2) := by
      simp only [locate, unravel_spot (h a (by simp))]
    rw [List.map_cons, accLoop]
    simp only [ha, extend]
    rw [accLoop_stretches (fun i hi => h i (by simp [hi])) [] _ (spot sizes a).1 (by rw [Seg.add_comp]; rfl)]
    cases l with
    | nil => simp [stretches, segOf]
    | cons b l =>
      obtain ⟨g, gs, e1, e2⟩ := stretches_step (fun i => (spot sizes i).1) a b l
      rw [e1, e2]
      by_cases hab : (spot sizes a).1 = (spot sizes b).1
      · simp only [if_pos hab, List.headD_cons, hab, if_true, List.map_cons, List.nil_append]
        simp [segOf, List.foldl_map]
      · simp only [if_neg hab, List.headD_cons, if_neg (Ne.symm hab), List.map_cons, List.nil_append]
        simp [segOf]

/-! #### parts of parts -/

mutual
/-- The parts of an image, and the parts of those that are concats. -/
def flats : Node → List Node
  | .concat ps _ => flatsL ps
  | .leaf l => [.leaf l]
  | .warp s tf d a => [.warp s tf d a]
  | .crop s y0 y1 x0 x1 c => [.crop s y0 y1 x0 x1 c]
  | .overview s k d => [.overview s k d]
  | .dequant s q d => [.dequant s q d]
def flatsL : List Node → List Node
  | [] => []
  | p :: ps => flats p ++ flatsL ps
end

theorem flatsL_eq (ps : List Node) : flatsL ps = (ps.map flats).flatten := by
  induction ps with
  | nil => rfl
  | cons p ps ih => rw [flatsL, ih]; rfl

mutual
theorem flats_nchan : ∀ n : Node, ((flats n).map nchan).sum = n.nchan
  | .concat ps d => by rw [flats, nchan, flatsL_nchan ps]
  | .leaf l => by simp [flats]
  | .warp s _ _ _ => by simp [flats]
  | .crop s _ _ _ _ _ => by simp [flats]
  | .overview s _ _ => by simp [flats]
  | .dequant s _ _ => by simp [flats]
theorem flatsL_nchan : ∀ ps : List Node, ((flatsL ps).map nchan).sum = nchans ps
  | [] => rfl
  | p :: ps => by rw [flatsL, List.map_append, List.sum_append, flats_nchan p, flatsL_nchan ps, nchans]
end

theorem spot_part {ps : List Node} {i : Nat} (h : i < (ps.map nchan).sum) :
    ∃ p, ps[(spot (ps.map nchan) i).1]? = some p ∧ (spot (ps.map nchan) i).2 < p.nchan :=
  let ⟨p, h1, h2, _⟩ := unravel_den (unravel_spot h)
  ⟨p, h1, h2⟩

/-- What a part gives for a stretch of requests. -/
theorem sub_flats {d : Int × Int} {ps : List Node} {o : Nat} {p : Node} (hp : ps[o]? = some p) {js : List Nat}
    (h0 : js ≠ []) {t : Node} (h : Seg.sub d (takers ps) (segOf o js) = .ok t) :
    if js = List.range p.nchan then t = p else takeIdx p js = .ok t := by
  unfold Seg.sub at h
  have hc : (segOf o js).comp = some o := by rw [segOf, foldl_add_comp]; rfl
  rw [hc, takers_eq] at h
  simp only [List.getElem?_map, hp, Option.map_some, segOf_indexer o h0] at h
  split
  · rename_i e
    rw [if_pos e] at h
    cases h
    rfl
  · rename_i e
    rw [if_neg e] at h
    exact h

theorem forall₂_map_left' {α β γ : Type} {R : β → γ → Prop} {f : α → β} : ∀ {l : List α} {m : List γ},
    List.Forall₂ R (l.map f) m → List.Forall₂ (fun a c => R (f a) c) l m
  | [], _, h => by cases h; exact .nil
  | a :: l, _, h => by
    cases h with
    | cons h1 h2 => exact .cons h1 (forall₂_map_left' h2)

theorem flatsL_forall₂ {α : Type} {f : α → List Node} : ∀ {l : List α} {ts : List Node},
    List.Forall₂ (fun a t => flats t = f a) l ts → flatsL ts = l.flatMap f
  | _, _, .nil => rfl
  | _, _, .cons h1 h2 => by rw [flatsL, List.flatMap_cons, h1, flatsL_forall₂ h2]

mutual
/-- Selecting channels of an image with concats in concats. -/
theorem takeIdx_flats : ∀ (n : Node), (∀ p ∈ flats n, 0 < p.nchan) → ∀ (idxs : List Nat) (t : Node), idxs ≠ [] →
    (∀ i ∈ idxs, i < n.nchan) → ((∀ ps d, n ≠ .concat ps d) → idxs ≠ List.range n.nchan) → takeIdx n idxs = .ok t →
    flats t = chooseAll (flats n) idxs
  | .concat ps d, hpos, idxs, t, h0, hi, _, h => by
    rw [takeIdx] at h
    split at h
    · cases h
    · unfold concatTake at h
      have hsz : (takers ps).map (fun p => p.1.nchan) = ps.map nchan := by rw [takers_eq, List.map_map]; rfl
      have hlt : ∀ i ∈ idxs, i < (ps.map nchan).sum := by rw [← nchans_eq]; exact hi
      rw [hsz, accLoop_all hlt] at h
      simp only at h
      split at h
      · cases h
      · rename_i comps hcomps
        obtain ⟨d', rfl, _, _⟩ := mkConcat_ok h
        have hm := forall₂_map_left' (mapAll_ok hcomps)
        have hS : ((ps.map flats).map fun l => (l.map nchan).sum) = ps.map nchan := by
          rw [List.map_map]
          exact List.map_congr_left fun p _ => flats_nchan p
        rw [flats, flats, flatsL_eq ps, chooseAll_flatten (by rw [← flatsL_eq, flatsL_nchan]; exact hi), hS]
        apply flatsL_forall₂
        refine forall₂_imp_left hm fun g hg t' ht' => ?_
        obtain ⟨hfl, hone⟩ := stretches_spec (fun i => (spot (ps.map nchan) i).1) idxs
        have hsub : ∀ i ∈ g, i ∈ idxs := fun i h => by
          rw [← hfl, List.mem_flatten]
          exact ⟨g, hg, h⟩
        obtain ⟨a, u, rfl, hkey⟩ := hone g hg
        rw [List.headD_cons] at ht' ⊢
        obtain ⟨p, hp, _⟩ := spot_part (hlt a (hsub a (by simp)))
        have hin : ∀ j ∈ (a :: u).map (fun i => (spot (ps.map nchan) i).2), j < p.nchan := by
          intro j hj
          obtain ⟨i, hi', rfl⟩ := List.mem_map.1 hj
          obtain ⟨p', hp', h2⟩ := spot_part (hlt i (hsub i hi'))
          have ek : (spot (ps.map nchan) i).1 = (spot (ps.map nchan) a).1 := hkey i hi'
          rw [ek, hp] at hp'
          cases hp'
          exact h2
        have := sub_flats hp (by simp) ht'
        rw [List.getElem?_map, hp]
        simp only [Option.map_some, Option.toList_some, List.flatMap_cons, List.flatMap_nil, List.append_nil]
        exact takeIdx_flatsL ps hpos p (List.mem_of_getElem? hp) _ t' (by simp) hin this
  | .leaf l, _, idxs, t, h0, hi, hr, h => by
    rw [takeIdx] at h
    rw [mkCrop_none_form h, flats, flats, chooseAll_one h0 hi, choose, if_neg (hr (by simp))]
  | .warp s tf d a, _, idxs, t, h0, hi, hr, h => by
    rw [takeIdx] at h
    rw [mkCrop_none_form h, flats, flats, chooseAll_one h0 hi, choose, if_neg (hr (by simp))]
  | .crop s y0 y1 x0 x1 c, _, idxs, t, h0, hi, hr, h => by
    rw [takeIdx] at h
    rw [mkCrop_none_form h, flats, flats, chooseAll_one h0 hi, choose, if_neg (hr (by simp))]
  | .overview s k d, _, idxs, t, h0, hi, hr, h => by
    rw [takeIdx] at h
    rw [mkCrop_none_form h, flats, flats, chooseAll_one h0 hi, choose, if_neg (hr (by simp))]
  | .dequant s q d, _, idxs, t, h0, hi, hr, h => by
    rw [takeIdx] at h
    rw [mkCrop_none_form h, flats, flats, chooseAll_one h0 hi, choose, if_neg (hr (by simp))]
theorem takeIdx_flatsL : ∀ (ps : List Node), (∀ p ∈ flatsL ps, 0 < p.nchan) → ∀ p ∈ ps, ∀ (js : List Nat) (t : Node),
    js ≠ [] → (∀ j ∈ js, j < p.nchan) → (if js = List.range p.nchan then t = p else takeIdx p js = .ok t) →
    flats t = chooseAll (flats p) js
  | [], _, p, hp, _, _, _, _, _ => by simp at hp
  | q :: qs, hpos, p, hp, js, t, h0, hi, h => by
    rcases List.mem_cons.1 hp with e | hp
    · have hq : ∀ p ∈ flats q, 0 < p.nchan := fun p hp => hpos p (by rw [flatsL]; simp [hp])
      split at h
      · rename_i e'
        rw [h, e', e]
        have := chooseAll_range hq
        rw [flats_nchan q] at this
        rw [this]
      · rename_i e'
        rw [e] at hi h e' ⊢
        exact takeIdx_flats q hq js t h0 hi (fun _ => e') h
    · exact takeIdx_flatsL qs (fun p hp => hpos p (by rw [flatsL]; simp [hp])) p hp js t h0 hi h
end

end Tree
end Verif
