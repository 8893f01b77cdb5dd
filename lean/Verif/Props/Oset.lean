/-
Property theorems about `subsequence_index`, `oset_insert`, `oset_delitem` and `path_sanitize`
(C14-C16).
-/
import Verif.Oset
import Verif.ChanLemmas
import Verif.Props.Fused

set_option linter.unusedSimpArgs false
set_option linter.unusedVariables false

namespace Verif.Props
open Verif

/-! ### C14 -/

/-- C14: the result is a slice of `a` equal to `b`; it is `None` exactly when `b` does not occur
contiguously in `a`. -/
theorem C14_subsequence_index {α : Type} [DecidableEq α] (a b : List α) (ha : a.Nodup) :
    (∀ s e, subsequenceIndex a b = some (s, e) →
      (a.take e).drop s = b ∧ e = s + b.length ∧ e ≤ a.length) ∧
    (subsequenceIndex a b = none ↔ ¬ b <:+: a) := by
  have sound : ∀ s e, subsequenceIndex a b = some (s, e) →
      (a.take e).drop s = b ∧ e = s + b.length ∧ e ≤ a.length := by
    intro s e h
    unfold subsequenceIndex at h
    simp only at h
    split at h
    · cases h
    · next base hb =>
      split at h
      · next heq =>
        simp only [Option.some.injEq, Prod.mk.injEq] at h
        obtain ⟨rfl, rfl⟩ := h
        refine ⟨heq, rfl, ?_⟩
        have := congrArg List.length heq
        simp at this
        cases b with
        | nil => simp at hb; subst hb; simp
        | cons x xs => simp at this ⊢; omega
      · cases h
  refine ⟨sound, ?_⟩
  constructor
  · intro h hinf
    obtain ⟨pre, post, e⟩ := hinf
    have hslice : ((a.take (pre.length + b.length)).drop pre.length) = b := by
      rw [← e, List.append_assoc, List.take_length_add_append, List.drop_left]
      simp
    cases b with
    | nil =>
      simp [subsequenceIndex] at h
    | cons x xs =>
      have hx : x ∈ a := by rw [← e]; simp
      have hidx : a.idxOf x = pre.length := by
        have hxp : x ∉ pre := by
          intro hp
          rw [← e, List.append_assoc, List.nodup_append] at ha
          exact ha.2.2 x hp x (by simp) rfl
        rw [← e, List.append_assoc, List.idxOf_append]
        simp [hxp]
      unfold subsequenceIndex at h
      simp only [indexOf?, hx, if_true, hidx, hslice] at h
      cases h
  · intro hn
    cases h : subsequenceIndex a b with
    | none => rfl
    | some p =>
      exfalso
      obtain ⟨s, e⟩ := p
      have := (sound s e h).1
      apply hn
      rw [← this]
      exact (List.drop_suffix s _).isInfix.trans (List.take_prefix e a).isInfix

example : subsequenceIndex [1, 2, 3, 4, 5] [3, 4] = some (2, 4) ∧
    subsequenceIndex [1, 2, 3, 4, 5] [3, 5] = none := ⟨by decide, by decide⟩

/-! ### C15 -/

section
variable {α : Type} [DecidableEq α]

/-- The item list has no repeats and the index table maps exactly the items to their positions. -/
def Consistent (s : OSet α) : Prop :=
  s.items.Nodup ∧ ∀ x, dictGet s.map x = if x ∈ s.items then some (s.items.idxOf x : Int) else none

theorem dictGet_map_val (m : List (α × Int)) (f : α → Int → Int) (x : α) :
    dictGet (m.map (fun p => (p.1, f p.1 p.2))) x = (dictGet m x).map (f x) := by
  induction m with
  | nil => rfl
  | cons p ps ih =>
    obtain ⟨a, b⟩ := p
    simp only [List.map_cons, dictGet, ih]
    split
    · next h => subst h; rfl
    · rfl

theorem dictGet_dictDel (m : List (α × Int)) (k x : α) :
    dictGet (OSet.dictDel m k) x = if x = k then none else dictGet m x := by
  induction m with
  | nil => simp [OSet.dictDel, dictGet]
  | cons p ps ih =>
    obtain ⟨a, b⟩ := p
    unfold OSet.dictDel at ih ⊢
    by_cases h : a = k
    · subst h
      simp only [List.filter_cons, ne_eq, not_true_eq_false, decide_false, Bool.false_eq_true, if_false, ih,
        dictGet]
      by_cases hx : x = a
      · simp [hx]
      · simp [hx, Ne.symm hx]
    · simp only [List.filter_cons, ne_eq, h, not_false_eq_true, decide_true, if_true, dictGet, ih]
      by_cases hx : x = k
      · subst hx; simp [h]
      · simp [hx]

theorem ofList_consistent (l : List α) (h : l.Nodup) : Consistent (OSet.ofList l) := by
  refine ⟨h, ?_⟩
  intro x
  simp only [OSet.ofList]
  have key : ∀ (l : List α) (n : Nat), dictGet ((l.zipIdx n).map (fun p => (p.1, (p.2 : Int)))) x =
      if x ∈ l then some ((n + l.idxOf x : Nat) : Int) else none := by
    intro l
    induction l with
    | nil => intro n; rfl
    | cons y ys ih =>
      intro n
      simp only [List.zipIdx_cons, List.map_cons, dictGet, ih, List.mem_cons]
      by_cases hy : y = x
      · subst hy; simp
      · simp only [hy, if_false, Ne.symm hy, false_or]
        split
        · rw [List.idxOf_cons_ne _ hy]; congr 2; omega
        · rfl
  have := key l 0
  rw [Nat.zero_add] at this
  exact this

/-- C15: inserting at a position `0 ≤ i ≤ len`. -/
theorem C15_insert (s : OSet α) (h : Consistent s) (i : Nat) (hi : i ≤ s.items.length) (x : α) :
    Consistent (s.insert i x) ∧
    (s.insert i x).items = if x ∈ s.items then s.items else s.items.take i ++ x :: s.items.drop i := by
  obtain ⟨hn, hm⟩ := h
  unfold OSet.insert
  have hsome : (dictGet s.map x).isSome = decide (x ∈ s.items) := by
    rw [hm]; split <;> simp [*]
  rw [hsome]
  by_cases hx : x ∈ s.items
  · simp only [hx, decide_true, if_true]
    exact ⟨⟨hn, hm⟩, trivial⟩
  · simp only [hx, decide_false, Bool.false_eq_true, if_false]
    have hc : Fused.clampIdx s.items.length (i : Int) = i := by
      unfold Fused.clampIdx; split <;> omega
    have hitems : OSet.listInsert s.items i x = s.items.take i ++ x :: s.items.drop i := by
      simp [OSet.listInsert, hc]
    have hslice : Fused.pySlice s.items (some (i : Int)) none = s.items.drop i := by
      simp [Fused.pySlice, hc]
    rw [hitems, hslice]
    refine ⟨⟨?_, ?_⟩, rfl⟩
    · have hp : (s.items.take i ++ x :: s.items.drop i).Perm (x :: s.items) := by
        have := List.perm_middle (a := x) (l₁ := s.items.take i) (l₂ := s.items.drop i)
        rwa [List.take_append_drop] at this
      rw [hp.nodup_iff, List.nodup_cons]
      exact ⟨hx, hn⟩
    · intro y
      simp only [OSet.bump]
      have hb : (s.map.map (fun p => if p.1 ∈ s.items.drop i then (p.1, p.2 + 1) else p)) =
          s.map.map (fun p => (p.1, if p.1 ∈ s.items.drop i then p.2 + 1 else p.2)) := by
        apply List.map_congr_left
        intro p _
        split <;> rfl
      rw [hb, dictGet_dictSet,
        dictGet_map_val s.map (fun a v => if a ∈ s.items.drop i then v + 1 else v), hm]
      have hnd : (s.items.take i ++ s.items.drop i).Nodup := by rw [List.take_append_drop]; exact hn
      rw [List.nodup_append] at hnd
      have hlen : (s.items.take i).length = i := by simp; omega
      by_cases hxy : x = y
      · subst hxy
        have hxt : x ∉ s.items.take i := fun h => hx (List.mem_of_mem_take h)
        rw [List.idxOf_append]
        simp [hxt, hlen, hi]
      · simp only [hxy, if_false]
        have hmem : y ∈ s.items ↔ y ∈ s.items.take i ∨ y ∈ s.items.drop i := by
          rw [← List.mem_append, List.take_append_drop]
        by_cases hy1 : y ∈ s.items.take i
        · have hy2 : y ∉ s.items.drop i := fun h => hnd.2.2 y hy1 y h rfl
          have hy : y ∈ s.items := hmem.2 (.inl hy1)
          have e1 : s.items.idxOf y = (s.items.take i).idxOf y := by
            conv => lhs; rw [← List.take_append_drop i s.items]
            rw [List.idxOf_append]; simp [hy1]
          have e2 : (s.items.take i ++ x :: s.items.drop i).idxOf y = (s.items.take i).idxOf y := by
            rw [List.idxOf_append]; simp [hy1]
          simp [hy, hy1, hy2, e1, e2]
        · by_cases hy2 : y ∈ s.items.drop i
          · have hy : y ∈ s.items := hmem.2 (.inr hy2)
            have e1 : s.items.idxOf y = (s.items.drop i).idxOf y + i := by
              conv => lhs; rw [← List.take_append_drop i s.items]
              rw [List.idxOf_append]; simp [hy1, hi]
            have e2 : (s.items.take i ++ x :: s.items.drop i).idxOf y = (s.items.drop i).idxOf y + 1 + i := by
              rw [List.idxOf_append, List.idxOf_cons_ne _ hxy]; simp [hy1, hi]
            simp only [hy, if_true, Option.map_some, hy2, List.mem_append, List.mem_cons, or_true, e1, e2]
            congr 1
            push_cast
            omega
          · have hy : y ∉ s.items := fun h => (hmem.1 h).elim hy1 hy2
            simp [hy, hy1, hy2, Ne.symm hxy]

theorem idxOf_erase_lt (l : List α) (hn : l.Nodup) (r s : α) (hs : l.idxOf s < l.idxOf r) :
    (l.erase r).idxOf s = l.idxOf s := by
  induction l with
  | nil => simp at hs
  | cons y ys ih =>
    rw [List.nodup_cons] at hn
    by_cases hyr : y = r
    · subst hyr; simp at hs
    · rw [List.erase_cons_tail (by simpa using hyr)]
      by_cases hys : y = s
      · subst hys; simp
      · rw [List.idxOf_cons_ne _ hys, List.idxOf_cons_ne _ hyr] at hs
        rw [List.idxOf_cons_ne _ hys, List.idxOf_cons_ne _ hys, ih hn.2 (by omega)]

theorem idxOf_erase_gt (l : List α) (hn : l.Nodup) (r s : α) (hs : l.idxOf r < l.idxOf s) :
    (l.erase r).idxOf s = l.idxOf s - 1 := by
  induction l with
  | nil => simp at hs
  | cons y ys ih =>
    rw [List.nodup_cons] at hn
    have hys : y ≠ s := by rintro rfl; simp at hs
    by_cases hyr : y = r
    · subst hyr
      simp [List.idxOf_cons_ne _ hys]
    · rw [List.erase_cons_tail (by simpa using hyr)]
      rw [List.idxOf_cons_ne _ hys, List.idxOf_cons_ne _ hyr] at hs
      rw [List.idxOf_cons_ne _ hys, List.idxOf_cons_ne _ hys, ih hn.2 (by omega)]
      omega

/-- Erasing positions in descending order. -/
theorem erase_desc (rs : List α) : ∀ (l : List α), l.Nodup → (∀ r ∈ rs, r ∈ l) →
    rs.Pairwise (fun a b => l.idxOf b < l.idxOf a) →
    (rs.map l.idxOf).foldl (fun l i => l.eraseIdx i) l = l.filter (fun x => decide (x ∉ rs)) ∧
    ∀ k ∈ l, k ∉ rs → (l.filter (fun x => decide (x ∉ rs))).idxOf k +
      (rs.map l.idxOf).countP (fun i => decide (i ≤ l.idxOf k)) = l.idxOf k := by
  induction rs with
  | nil =>
    intro l hn _ _
    have : l.filter (fun x => decide (x ∉ ([] : List α))) = l := by
      rw [List.filter_eq_self]; simp
    rw [this]
    exact ⟨rfl, by simp⟩
  | cons r rs ih =>
    intro l hn hmem hp
    rw [List.pairwise_cons] at hp
    have hr : r ∈ l := hmem r (by simp)
    have he : l.eraseIdx (l.idxOf r) = l.erase r := (List.erase_eq_eraseIdx_of_idxOf rfl).symm
    have hle : ∀ s ∈ rs, (l.erase r).idxOf s = l.idxOf s := fun s hs => idxOf_erase_lt l hn r s (hp.1 s hs)
    have hmap : rs.map l.idxOf = rs.map (l.erase r).idxOf :=
      List.map_congr_left (fun s hs => (hle s hs).symm)
    have hmem' : ∀ s ∈ rs, s ∈ l.erase r := by
      intro s hs
      rw [hn.mem_erase_iff]
      refine ⟨?_, hmem s (by simp [hs])⟩
      rintro rfl
      exact absurd (hp.1 s hs) (by omega)
    have hp' : rs.Pairwise (fun a b => (l.erase r).idxOf b < (l.erase r).idxOf a) := by
      refine hp.2.imp_of_mem ?_
      intro a b ha hb h
      rw [hle a ha, hle b hb]; exact h
    obtain ⟨ih1, ih2⟩ := ih (l.erase r) (hn.erase r) hmem' hp'
    have hfil : (l.erase r).filter (fun x => decide (x ∉ rs)) =
        l.filter (fun x => decide (x ∉ r :: rs)) := by
      rw [hn.erase_eq_filter, List.filter_filter]
      apply List.filter_congr
      intro x _
      by_cases hx : x = r <;> simp [hx]
    constructor
    · simp only [List.map_cons, List.foldl_cons, he, hmap, ih1, hfil]
    · intro k hk hkr
      simp only [List.mem_cons, not_or] at hkr
      have hk' : k ∈ l.erase r := hn.mem_erase_iff.2 ⟨hkr.1, hk⟩
      have := ih2 k hk' hkr.2
      rw [hfil, ← hmap] at this
      simp only [List.map_cons, List.countP_cons]
      by_cases hlt : l.idxOf r < l.idxOf k
      · rw [idxOf_erase_gt l hn r k hlt] at this
        have hc : (rs.map l.idxOf).countP (fun i => decide (i ≤ l.idxOf k - 1)) =
            (rs.map l.idxOf).countP (fun i => decide (i ≤ l.idxOf k)) := by
          apply List.countP_congr
          intro i hi
          obtain ⟨s, hs, rfl⟩ := List.mem_map.1 hi
          have := hp.1 s hs
          simp; omega
        rw [hc] at this
        simp only [show l.idxOf r ≤ l.idxOf k by omega, decide_true, if_true]
        omega
      · have hne : l.idxOf r ≠ l.idxOf k := by
          intro e
          exact hkr.1 ((List.idxOf_inj hr).1 e).symm
        rw [idxOf_erase_lt l hn r k (by omega)] at this
        simp only [show ¬ l.idxOf r ≤ l.idxOf k by omega, decide_false, Bool.false_eq_true, if_false]
        omega

theorem lookupIdx_ok {s : OSet α} (h : Consistent s) {xs : List α} (hx : ∀ x ∈ xs, x ∈ s.items) :
    OSet.lookupIdx s.map xs = .ok (xs.map (fun x => (s.items.idxOf x : Int))) := by
  induction xs with
  | nil => rfl
  | cons x xs ih =>
    have : dictGet s.map x = some (s.items.idxOf x : Int) := by rw [h.2, if_pos (hx x (by simp))]
    simp [OSet.lookupIdx, this, ih (fun y hy => hx y (by simp [hy]))]

theorem delKeys_ok {m : List (α × Int)} {xs : List α} (hx : ∀ x ∈ xs, (dictGet m x).isSome)
    (hn : xs.Nodup) : ∃ m', OSet.delKeys m xs = (m', none) ∧
      ∀ y, dictGet m' y = if y ∈ xs then none else dictGet m y := by
  induction xs generalizing m with
  | nil => exact ⟨m, rfl, by simp⟩
  | cons x xs ih =>
    rw [List.nodup_cons] at hn
    obtain ⟨v, hv⟩ := Option.isSome_iff_exists.1 (hx x (by simp))
    obtain ⟨m', h1, h2⟩ := ih (m := OSet.dictDel m x) (by
      intro y hy
      rw [dictGet_dictDel, if_neg]
      · exact hx y (by simp [hy])
      · rintro rfl; exact hn.1 hy) hn.2
    refine ⟨m', by simp [OSet.delKeys, hv, h1], ?_⟩
    intro y
    rw [h2, dictGet_dictDel]
    by_cases hyx : y = x <;> by_cases hyxs : y ∈ xs <;> simp [hyx, hyxs]

/-- Removing several distinct items at once. -/
theorem removeMany_ok {s : OSet α} (h : Consistent s) {xs : List α} (hx : ∀ x ∈ xs, x ∈ s.items)
    (hnx : xs.Nodup) :
    ∃ s', s.removeMany xs = (s', none) ∧ Consistent s' ∧
      s'.items = s.items.filter (fun x => decide (x ∉ xs)) := by
  obtain ⟨m', hd1, hd2⟩ := delKeys_ok (m := s.map) (xs := xs) (by
    intro x hx'; rw [h.2, if_pos (hx x hx')]; rfl) hnx
  unfold OSet.removeMany
  rw [lookupIdx_ok h hx, hd1]
  simp only
  generalize hP : (xs.map (fun x => (s.items.idxOf x : Int))).insertionSort (· ≥ ·) = P
  have hperm : P.Perm (xs.map (fun x => (s.items.idxOf x : Int))) := by
    rw [← hP]; exact List.perm_insertionSort _ _
  have hsorted : P.Pairwise (· ≥ ·) := by
    rw [← hP]; exact List.pairwise_insertionSort _ _
  have hPnd : P.Nodup := by
    rw [hperm.nodup_iff]
    refine List.Nodup.map_on ?_ hnx
    intro a ha b hb e
    have : s.items.idxOf a = s.items.idxOf b := by exact_mod_cast e
    exact (List.idxOf_inj (hx a ha)).1 this
  -- the items in the order of removal
  obtain ⟨rs, hrs, hrsP⟩ : ∃ rs : List α, rs.Perm xs ∧ P = rs.map (fun x => (s.items.idxOf x : Int)) := by
    clear hP hsorted hPnd hd1 hd2
    revert hperm
    induction P generalizing xs with
    | nil =>
      intro hperm
      have := hperm.symm.eq_nil
      simp only [List.map_eq_nil_iff] at this
      exact ⟨[], by simp [this], rfl⟩
    | cons p ps ih =>
      intro hperm
      have hp : p ∈ xs.map (fun x => (s.items.idxOf x : Int)) := hperm.subset (by simp)
      obtain ⟨x, hxm, rfl⟩ := List.mem_map.1 hp
      have hxp : xs.Perm (x :: xs.erase x) := List.perm_cons_erase hxm
      have h2 : ps.Perm ((xs.erase x).map (fun x => (s.items.idxOf x : Int))) := by
        have := hperm.trans (hxp.map _)
        simpa using this
      obtain ⟨rs, h3, h4⟩ := ih (xs := xs.erase x) (fun y hy => hx y (List.mem_of_mem_erase hy))
        (hnx.erase x) h2
      exact ⟨x :: rs, (h3.cons x).trans hxp.symm, by simp [h4]⟩
  have hmemrs : ∀ y, y ∈ rs ↔ y ∈ xs := fun y => hrs.mem_iff
  have hdesc : rs.Pairwise (fun a b => s.items.idxOf b < s.items.idxOf a) := by
    have h1 : P.Pairwise (· > ·) := by
      have := hsorted.and hPnd
      exact this.imp (fun {a b} h => by
        have := h.1; have := h.2; omega)
    rw [hrsP, List.pairwise_map] at h1
    exact h1.imp (fun {a b} h => by exact_mod_cast h)
  obtain ⟨he1, he2⟩ := erase_desc rs s.items h.1 (fun r hr => hx r ((hmemrs r).1 hr)) hdesc
  have hfil : s.items.filter (fun x => decide (x ∉ rs)) = s.items.filter (fun x => decide (x ∉ xs)) := by
    apply List.filter_congr; intro x _; simp [hmemrs]
  have hitems : P.foldl (fun l i => l.eraseIdx i.toNat) s.items =
      s.items.filter (fun x => decide (x ∉ xs)) := by
    rw [hrsP, List.foldl_map, ← hfil, ← he1, List.foldl_map]
    simp
  refine ⟨_, rfl, ⟨?_, ?_⟩, hitems⟩
  · simp only [hitems]; exact h.1.filter _
  · intro y
    simp only [hitems]
    rw [dictGet_map_val m' (fun _ v => v - (P.countP (fun i => decide (i ≤ v)) : Int)), hd2, h.2]
    by_cases hyx : y ∈ xs
    · simp [hyx]
    · by_cases hy : y ∈ s.items
      · have := he2 y hy (by rw [hmemrs]; exact hyx)
        rw [hfil] at this
        have hc : P.countP (fun i => decide (i ≤ (s.items.idxOf y : Int))) =
            (rs.map s.items.idxOf).countP (fun i => decide (i ≤ s.items.idxOf y)) := by
          rw [hrsP, List.countP_map, List.countP_map]
          apply List.countP_congr
          intro a _
          simp
        simp only [hyx, if_false, hy, if_true, Option.map_some, List.mem_filter, not_false_eq_true,
          decide_true, and_self, hc]
        congr 1
        omega
      · simp [hyx, hy]

theorem discard_ok {s : OSet α} (h : Consistent s) (x : α) (hx : x ∈ s.items) :
    Consistent (s.discard x) ∧ (s.discard x).items = s.items.filter (fun y => decide (y ≠ x)) := by
  have hg : dictGet s.map x = some (s.items.idxOf x : Int) := by rw [h.2, if_pos hx]
  have he : s.items.eraseIdx (s.items.idxOf x) = s.items.erase x :=
    (List.erase_eq_eraseIdx_of_idxOf rfl).symm
  have hf : s.items.erase x = s.items.filter (fun y => decide (y ≠ x)) := by
    rw [h.1.erase_eq_filter]
    apply List.filter_congr; intro y _
    by_cases e : y = x <;> simp [e]
  unfold OSet.discard
  rw [hg]
  simp only [Int.toNat_natCast, he]
  refine ⟨⟨h.1.erase x, ?_⟩, hf⟩
  intro y
  simp only
  have hb : ((OSet.dictDel s.map x).map (fun p => if p.2 ≥ (s.items.idxOf x : Int) then (p.1, p.2 - 1) else p)) =
      (OSet.dictDel s.map x).map (fun p => (p.1, if p.2 ≥ (s.items.idxOf x : Int) then p.2 - 1 else p.2)) := by
    apply List.map_congr_left
    intro p _
    split <;> rfl
  rw [hb, dictGet_map_val _ (fun _ v => if v ≥ (s.items.idxOf x : Int) then v - 1 else v),
    dictGet_dictDel, h.2]
  by_cases hyx : y = x
  · subst hyx
    simp [h.1.mem_erase_iff]
  · by_cases hy : y ∈ s.items
    · have hne : s.items.idxOf x ≠ s.items.idxOf y := by
        intro e; exact hyx ((List.idxOf_inj hx).1 e).symm
      have hm : y ∈ s.items.erase x := h.1.mem_erase_iff.2 ⟨hyx, hy⟩
      simp only [hyx, if_false, hy, if_true, Option.map_some, hm]
      congr 1
      by_cases hlt : s.items.idxOf x < s.items.idxOf y
      · rw [idxOf_erase_gt _ h.1 x y hlt, if_pos (by omega)]; omega
      · rw [idxOf_erase_lt _ h.1 x y (by omega), if_neg (by omega)]
    · have hm : y ∉ s.items.erase x := fun h' => hy (List.mem_of_mem_erase h')
      simp [hyx, hy, hm]

/-- C15: deleting an in-range position (negative positions count from the end). -/
theorem C15_delitem_int (s : OSet α) (h : Consistent s) (i : Int) (k : Nat) (hk : k < s.items.length)
    (hi : i = k ∨ i = (k : Int) - s.items.length) :
    ∃ s', s.delInt i = (s', none) ∧ Consistent s' ∧ s'.items = s.items.eraseIdx k := by
  have hp := (pyIndex_spec s.items i).1 k hk hi
  have hd := discard_ok h s.items[k] (List.getElem_mem hk)
  refine ⟨_, by unfold OSet.delInt; rw [hp], hd.1, ?_⟩
  rw [hd.2]
  have : s.items.eraseIdx k = s.items.erase s.items[k] := by
    rw [List.erase_eq_eraseIdx_of_idxOf (h.1.idxOf_getElem k hk)]
  rw [this, h.1.erase_eq_filter]
  apply List.filter_congr; intro y _
  by_cases e : y = s.items[k] <;> simp [e]

/-- C15: deleting a list of distinct in-range positions. -/
theorem C15_delitem_list (s : OSet α) (h : Consistent s) (is : List Int) (xs : List α)
    (hxs : Fused.pyTake s.items is = .ok xs) (hd : xs.Nodup) :
    ∃ s', s.delList is = (s', none) ∧ Consistent s' ∧
      s'.items = s.items.filter (fun x => decide (x ∉ xs)) := by
  have := removeMany_ok h (pyTake_spec hxs).2.1 hd
  simpa [OSet.delList, hxs] using this

/-- C15: a position out of range raises IndexError and changes nothing. -/
theorem C15_delitem_out_of_range (s : OSet α) (i : Int) (h : i < -(s.items.length : Int) ∨ (s.items.length : Int) ≤ i) :
    s.delInt i = (s, some .indexError) ∧ ∀ is, i ∈ is → s.delList is = (s, some .indexError) := by
  have key : ∀ j : Int, j < -(s.items.length : Int) ∨ (s.items.length : Int) ≤ j →
      Fused.pyIndex s.items j = .error .indexError := by
    intro j hj
    unfold Fused.pyIndex
    by_cases h0 : j < 0
    · simp only [if_pos h0]
      rw [if_pos (by omega)]
    · simp only [if_neg h0]
      rw [List.getElem?_eq_none (by omega)]
  refine ⟨by rw [OSet.delInt, key i h], fun is hi => ?_⟩
  have : Fused.pyTake s.items is = .error .indexError := by
    induction is with
    | nil => simp at hi
    | cons j is ih =>
      rw [Fused.pyTake]
      rcases List.mem_cons.1 hi with rfl | hi
      · rw [key i h]; rfl
      · by_cases hj : j < -(s.items.length : Int) ∨ (s.items.length : Int) ≤ j
        · rw [key j hj]; rfl
        · rw [ih hi]
          have hl : ∃ x, Fused.pyIndex s.items j = .ok x := by
            unfold Fused.pyIndex
            by_cases h0 : j < 0
            · simp only [if_pos h0]
              rw [if_neg (by omega), List.getElem?_eq_getElem (by omega)]
              exact ⟨_, rfl⟩
            · simp only [if_neg h0]
              rw [List.getElem?_eq_getElem (by omega)]
              exact ⟨_, rfl⟩
          obtain ⟨x, hx⟩ := hl
          rw [hx]
          rfl
  rw [OSet.delList, this]

example : ((OSet.ofList [10, 20, 30]).delList [0, 3] = (OSet.ofList [10, 20, 30], some .indexError)) :=
  (C15_delitem_out_of_range _ 3 (.inr (by decide))).2 _ (by decide)

/-- C15: deleting a slice keeps exactly the items outside it, in order. -/
theorem C15_delitem_slice (s : OSet α) (h : Consistent s) (a b : Option Int) :
    ∃ s', s.delSlice a b = (s', none) ∧ Consistent s' ∧
      s'.items = s.items.filter (fun x => decide (x ∉ Fused.pySlice s.items a b)) := by
  unfold OSet.delSlice
  split
  · next hc =>
    obtain ⟨rfl, rfl⟩ := hc
    refine ⟨_, rfl, ⟨by simp, by intro x; rfl⟩, ?_⟩
    simp only
    symm
    rw [List.filter_eq_nil_iff]
    intro x hx
    simpa [Fused.pySlice] using hx
  · apply removeMany_ok h
    · intro x hx; exact List.mem_of_mem_take (List.mem_of_mem_drop hx)
    · exact (h.1.sublist (List.take_sublist _ _)).sublist (List.drop_sublist _ _)

/-- One call with in-range arguments. -/
inductive OStep : OSet α → OSet α → Prop
  | insert (s : OSet α) (i : Nat) (hi : i ≤ s.items.length) (x : α) : OStep s (s.insert i x)
  | delInt (s s' : OSet α) (i : Int) (hi : -s.items.length ≤ i ∧ i < s.items.length)
      (h : s.delInt i = (s', none)) : OStep s s'
  | delList (s s' : OSet α) (is : List Int) (xs : List α) (hx : Fused.pyTake s.items is = .ok xs)
      (hd : xs.Nodup) (h : s.delList is = (s', none)) : OStep s s'
  | delSlice (s s' : OSet α) (a b : Option Int) (h : s.delSlice a b = (s', none)) : OStep s s'

/-- States reachable from the construction of an ordered set by in-range calls. -/
inductive OReach : OSet α → Prop
  | start (l : List α) (h : l.Nodup) : OReach (OSet.ofList l)
  | step {s s' : OSet α} : OReach s → OStep s s' → OReach s'

/-- C15: after any sequence of in-range calls the two tables agree. -/
theorem C15_tables_consistent {s : OSet α} (h : OReach s) : Consistent s := by
  induction h with
  | start l hl => exact ofList_consistent l hl
  | @step s0 _ _ hs ih =>
    cases hs with
    | insert i hi x => exact (C15_insert _ ih i hi x).1
    | delInt _ i hi h' =>
      rcases Int.lt_or_le i 0 with hneg | hpos
      · obtain ⟨s', e, hc, _⟩ := C15_delitem_int s0 ih i (i + s0.items.length).toNat (by omega) (.inr (by omega))
        rw [e] at h'; cases h'; exact hc
      · obtain ⟨s', e, hc, _⟩ := C15_delitem_int _ ih i i.toNat (by omega) (.inl (by omega))
        rw [e] at h'; cases h'; exact hc
    | delList _ is xs hx hd h' =>
      obtain ⟨s', e, hc, _⟩ := C15_delitem_list _ ih is xs hx hd
      rw [e] at h'; cases h'; exact hc
    | delSlice _ a b h' =>
      obtain ⟨s', e, hc, _⟩ := C15_delitem_slice _ ih a b
      rw [e] at h'; cases h'; exact hc

end

example : (OSet.ofList [10, 20, 30, 40, 50]).delList [0, -1, 2] =
    (⟨[20, 40], [(20, 0), (40, 1)]⟩, none) ∧
    ((OSet.ofList [10, 20, 30]).insert 1 15).items = [10, 15, 20, 30] := ⟨by decide, by decide⟩

/-- An insert position beyond the end corrupts the index table: `oset_insert(s, 5, x)` on a set with
one item stores position 5 for an item at position 1. -/
theorem C15_insert_out_of_range_violated :
    ((OSet.ofList [10]).insert 5 20).items = [10, 20] ∧
    dictGet ((OSet.ofList [10]).insert 5 20).map 20 = some 5 := ⟨by decide, by decide⟩

/-- Repeated positions raise `KeyError` after the index table lost an item that is still listed. -/
theorem C15_repeated_positions_violated :
    (OSet.ofList [10, 20]).delList [0, 0] = (⟨[10, 20], [(20, 1)]⟩, some .keyError) := by decide

/-! ### C16 -/

/-- Characters not allowed in file names. -/
def IllegalChars : List Char := ['|', '<', '>', ':', '?', '*']

theorem mem_replaceChar {k c : Char} {v s : Str} (h : c ∈ replaceChar k v s) :
    (c ∈ s ∧ c ≠ k) ∨ c ∈ v := by
  unfold replaceChar at h
  rw [List.mem_flatMap] at h
  obtain ⟨a, ha, hc⟩ := h
  split at hc
  · exact .inr hc
  · next hne => simp at hc; subst hc; exact .inl ⟨ha, hne⟩

theorem replaceAll_legal (s : Str) (c : Char) (hc : c ∈ IllegalChars) :
    c ∉ illegalMapping.foldl (fun acc kv => replaceChar kv.1 kv.2 acc) s := by
  intro h
  simp only [illegalMapping, List.foldl_cons, List.foldl_nil] at h
  simp only [IllegalChars, List.mem_cons, List.not_mem_nil, or_false] at hc
  rcases mem_replaceChar h with ⟨h, h6⟩ | h
  · rcases mem_replaceChar h with ⟨h, h5⟩ | h
    · rcases mem_replaceChar h with ⟨h, h4⟩ | h
      · rcases mem_replaceChar h with ⟨h, h3⟩ | h
        · rcases mem_replaceChar h with ⟨h, h2⟩ | h
          · rcases mem_replaceChar h with ⟨h, h1⟩ | h
            · rcases hc with e | e | e | e | e | e <;> contradiction
            · rcases hc with rfl | rfl | rfl | rfl | rfl | rfl <;> exact absurd h (by decide)
          · rcases hc with rfl | rfl | rfl | rfl | rfl | rfl <;> exact absurd h (by decide)
        · rcases hc with rfl | rfl | rfl | rfl | rfl | rfl <;> exact absurd h (by decide)
      · rcases hc with rfl | rfl | rfl | rfl | rfl | rfl <;> exact absurd h (by decide)
    · rcases hc with rfl | rfl | rfl | rfl | rfl | rfl <;> exact absurd h (by decide)
  · rcases hc with rfl | rfl | rfl | rfl | rfl | rfl <;> exact absurd h (by decide)

theorem sanitizeText_legal (s : Str) : ∀ c ∈ IllegalChars, c ∉ sanitizeText s := by
  intro c hc h
  have hr := replaceAll_legal s c hc
  unfold sanitizeText at h
  simp only at h
  split at h
  · split at h
    · rcases List.mem_append.1 h with h | h
      · exact hr h
      · simp only [List.mem_singleton] at h
        subst h
        exact absurd hc (by decide)
    · exact hr h
  · exact hr h

theorem sanitizeText_last (s : Str) :
    (sanitizeText s).getLast? ≠ some '.' ∧ (sanitizeText s).getLast? ≠ some ' ' := by
  unfold sanitizeText
  simp only
  split
  · next c hc =>
    split
    · simp
    · next hn =>
      rw [hc]
      simp only [not_or] at hn
      exact ⟨by simpa using hn.1, by simpa using hn.2⟩
  · next hn => rw [hn]; simp

theorem natStr_legal (n : Nat) : ∀ c ∈ natStr n, c ∉ IllegalChars ∧ c ≠ '.' ∧ c ≠ ' ' := by
  intro c hc
  obtain ⟨d, hd, rfl⟩ := natStr_digit hc
  have : ∀ d : Fin 10, digitChar d ∉ IllegalChars ∧ digitChar d ≠ '.' ∧ digitChar d ≠ ' ' := by decide
  exact this ⟨d, hd⟩

/-- C16: for every hash function that only produces legal characters, the sanitized name contains
none of `| < > : ? *` and does not end with a dot or a space. -/
theorem C16_path_sanitize_legal (hash : Str → Str) (hh : ∀ s, ∀ c ∈ hash s, c ∉ IllegalChars)
    (f : Fused) (maxlen : Option Int) (r : Str) (h : pathSanitize hash f maxlen = .ok r) :
    (∀ c ∈ IllegalChars, c ∉ r) ∧ r.getLast? ≠ some '.' ∧ r.getLast? ≠ some ' ' := by
  unfold pathSanitize at h
  rw [Except.bind_eq_ok'] at h
  obtain ⟨n, _, h⟩ := h
  cases h
  unfold pathSanitizeV2
  have plain : (∀ c ∈ IllegalChars, c ∉ sanitizeText f.spec) ∧
      (sanitizeText f.spec).getLast? ≠ some '.' ∧ (sanitizeText f.spec).getLast? ≠ some ' ' :=
    ⟨sanitizeText_legal _, sanitizeText_last _⟩
  simp only
  split
  · exact plain
  · split
    · refine ⟨?_, ?_⟩
      · intro c hc hm
        rcases List.mem_append.1 hm with hm | hm
        · exact hh _ c (List.mem_of_mem_take hm) hc
        · rcases List.mem_cons.1 hm with rfl | hm
          · exact absurd hc (by decide)
          · exact (natStr_legal n c hm).1 hc
      · have : ∀ t : Str, (t ++ '_' :: natStr n).getLast? = (natStr n).getLast? := by
          intro t
          rw [List.getLast?_append_of_ne_nil _ (by simp)]
          rw [List.getLast?_cons_of_ne_nil (natStr_ne_nil n)]
        rw [this]
        constructor
        · intro e; exact (natStr_legal n _ (List.mem_of_getLast? e)).2.1 rfl
        · intro e; exact (natStr_legal n _ (List.mem_of_getLast? e)).2.2 rfl
    · exact plain

/-- C16: text without special characters that is short enough is returned unchanged. -/
theorem C16_path_sanitize_unchanged (hash : Str → Str) (f : Fused) (maxlen : Option Int) (n : Nat)
    (hn : f.numel = .ok n)
    (h1 : ∀ c ∈ IllegalChars, c ∉ f.spec) (h2 : f.spec.getLast? ≠ some '.')
    (h3 : f.spec.getLast? ≠ some ' ') (h4 : ∀ m, maxlen = some m → (f.spec.length : Int) ≤ m) :
    pathSanitize hash f maxlen = .ok f.spec := by
  have hrep : ∀ k v, k ∉ f.spec → replaceChar k v f.spec = f.spec := by
    intro k v hk
    unfold replaceChar
    conv => rhs; rw [← List.flatMap_singleton' f.spec]
    apply List.flatMap_congr
    intro c hc
    rw [if_neg]
    rintro rfl; exact hk hc
  have hs : sanitizeText f.spec = f.spec := by
    unfold sanitizeText
    simp only [illegalMapping, List.foldl_cons, List.foldl_nil]
    rw [hrep _ _ (h1 '|' (by decide)), hrep _ _ (h1 '<' (by decide)), hrep _ _ (h1 '>' (by decide)),
      hrep _ _ (h1 ':' (by decide)), hrep _ _ (h1 '?' (by decide)), hrep _ _ (h1 '*' (by decide))]
    split
    · next c hc =>
      rw [if_neg]
      rintro (rfl | rfl)
      · exact h2 hc
      · exact h3 hc
    · rfl
  unfold pathSanitize pathSanitizeV2
  rw [hn]
  simp only [Except.ok_bind', hs]
  cases maxlen with
  | none => rfl
  | some m => simp only; rw [if_neg (by have := h4 m rfl; omega)]

/-- C16, partial: length bound.  A name that is not hashed has at most `maxlen` characters; a hashed
one at most `max 8 (maxlen - 2) + 1` plus the number of digits of `numel`.  The claimed bound
`maxlen` itself is false (next theorem). -/
theorem C16_path_sanitize_length_partial (hash : Str → Str) (f : Fused) (m : Int) (n : Nat) (r : Str)
    (hn : f.numel = .ok n) (h : pathSanitize hash f (some m) = .ok r) :
    (r.length : Int) ≤ max m (max 8 (m - 2) + 1 + (natStr n).length) ∧
    (10 ≤ m → n < 10 → (r.length : Int) ≤ m) := by
  unfold pathSanitize pathSanitizeV2 at h
  rw [hn] at h
  simp only [Except.ok_bind', Except.ok.injEq] at h
  subst h
  split
  · have hlen : ((hash (sanitizeText f.spec)).take (max 8 (m - 2)).toNat ++ '_' :: natStr n).length ≤
        (max 8 (m - 2)).toNat + 1 + (natStr n).length := by
      simp; omega
    refine ⟨by omega, ?_⟩
    intro hm hn'
    rw [natStr_lt hn'] at hlen ⊢
    simp at hlen ⊢
    omega
  · exact ⟨by omega, fun _ _ => by omega⟩

example : pathSanitize (fun _ => p! "abcdefghijklmnop") ⟨[p! "a", p! "b:3", p! "c"], false⟩ (some 128) =
    .ok (p! "a_b..3_c") ∧
    pathSanitize (fun _ => p! "abcdefghijklmnop") ⟨[p! "a", p! "b:3", p! "c", p! "ddd"], false⟩ (some 10) =
    .ok (p! "abcdefgh_6") := ⟨by decide, by decide⟩

/-- C16: `len(path_sanitize(maxlen)) <= maxlen` is false: with ten or more channels, or with a small
`maxlen`, the name is longer. -/
theorem C16_path_sanitize_length_violated :
    (∃ r, pathSanitize (fun _ => p! "abcdefghijklmnop") ⟨[p! "a.0:12", p! "band"], false⟩ (some 10) = .ok r ∧
      r.length = 11) ∧
    (∃ r, pathSanitize (fun _ => p! "abcdefghijklmnop") ⟨[p! "a", p! "band"], false⟩ (some 4) = .ok r ∧
      r.length = 10) :=
  ⟨⟨p! "abcdefgh_13", by decide, by decide⟩, ⟨p! "abcdefgh_2", by decide, by decide⟩⟩

end Verif.Props
