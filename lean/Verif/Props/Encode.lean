/-
C10: encoding of every item, in both modes.
-/
import Verif.Props.Chan
import Mathlib.Data.Char

namespace Verif.Props

open Fused Chan

/-! ### the order of strings -/

/-- Order of Python strings: by the first differing character, beginnings first. -/
def StrLe (a b : Str) : Prop := a = b ∨ List.Lex (· < ·) a b

theorem strLe_iff : ∀ a b : Str, strLe a b = true ↔ StrLe a b
  | [], [] => by simp [strLe, StrLe]
  | [], b :: bs => by simp [strLe, StrLe, List.Lex.nil]
  | a :: as, [] => by
    simp only [strLe, StrLe, Bool.false_eq_true, false_iff, reduceCtorEq, false_or]
    intro h
    cases h
  | a :: as, b :: bs => by
    have ih := strLe_iff as bs
    simp only [strLe, StrLe] at ih ⊢
    by_cases h : a = b
    · subst h
      simp only [if_true]
      rw [ih]
      constructor
      · rintro (rfl | h)
        · exact .inl rfl
        · exact .inr (.cons h)
      · rintro (h | h)
        · simp only [List.cons.injEq, true_and] at h
          exact .inl h
        · cases h with
          | rel h => exact absurd h (lt_irrefl _)
          | cons h => exact .inr h
    · simp only [if_neg h, decide_eq_true_eq]
      constructor
      · exact fun hl => .inr (.rel hl)
      · rintro (e | e)
        · simp only [List.cons.injEq] at e
          exact absurd e.1 h
        · cases e with
          | rel e => exact e
          | cons e => exact absurd rfl h

theorem strLe_total : ∀ a b : Str, strLe a b = true ∨ strLe b a = true
  | [], _ => .inl rfl
  | _ :: _, [] => .inr rfl
  | a :: as, b :: bs => by
    simp only [strLe]
    by_cases h : a = b
    · subst h
      simpa using strLe_total as bs
    · simp only [if_neg h, if_neg (Ne.symm h), decide_eq_true_eq]
      exact lt_or_gt_of_ne h

theorem strLe_antisymm : ∀ a b : Str, strLe a b = true → strLe b a = true → a = b
  | [], [], _, _ => rfl
  | [], _ :: _, _, h => by simp [strLe] at h
  | _ :: _, [], h, _ => by simp [strLe] at h
  | a :: as, b :: bs, h1, h2 => by
    simp only [strLe] at h1 h2
    by_cases h : a = b
    · subst h
      simp only [if_true] at h1 h2
      rw [strLe_antisymm as bs h1 h2]
    · simp only [if_neg h, if_neg (Ne.symm h), decide_eq_true_eq] at h1 h2
      exact absurd (lt_trans h1 h2) (lt_irrefl _)

theorem strLe_trans : ∀ a b c : Str, strLe a b = true → strLe b c = true → strLe a c = true
  | [], _, _, _, _ => rfl
  | _ :: _, [], _, h, _ => by simp [strLe] at h
  | _ :: _, _ :: _, [], _, h => by simp [strLe] at h
  | a :: as, b :: bs, c :: cs, h1, h2 => by
    simp only [strLe] at h1 h2 ⊢
    by_cases hab : a = b
    · subst hab
      simp only [if_true] at h1
      by_cases hac : a = c
      · subst hac
        simp only [if_true] at h2 ⊢
        exact strLe_trans as bs cs h1 h2
      · simpa only [if_neg hac] using h2
    · simp only [if_neg hab, decide_eq_true_eq] at h1
      by_cases hbc : b = c
      · subst hbc
        simpa only [if_neg hab, decide_eq_true_eq] using h1
      · simp only [if_neg hbc, decide_eq_true_eq] at h2
        have h3 := lt_trans h1 h2
        rw [if_neg (ne_of_lt h3)]
        simpa using h3

theorem insertStr_perm (x : Str) : ∀ l : List Str, (insertStr x l).Perm (x :: l)
  | [] => .refl _
  | y :: ys => by
    simp only [insertStr]
    split
    · exact .refl _
    · exact ((insertStr_perm x ys).cons y).trans (.swap x y ys)

theorem sortStr_perm : ∀ l : List Str, (sortStr l).Perm l
  | [] => .refl _
  | x :: l => (insertStr_perm x (sortStr l)).trans ((sortStr_perm l).cons x)

theorem insertStr_sorted (x : Str) : ∀ l : List Str, l.Pairwise (fun a b => strLe a b = true) →
    (insertStr x l).Pairwise (fun a b => strLe a b = true)
  | [], _ => by simp [insertStr]
  | y :: ys, h => by
    simp only [insertStr]
    rw [List.pairwise_cons] at h
    split
    · next hxy =>
      rw [List.pairwise_cons, List.pairwise_cons]
      refine ⟨?_, h⟩
      intro z hz
      rcases List.mem_cons.1 hz with rfl | hz
      · exact hxy
      · exact strLe_trans _ _ _ hxy (h.1 z hz)
    · next hxy =>
      rw [List.pairwise_cons]
      refine ⟨?_, insertStr_sorted x ys h.2⟩
      intro z hz
      rw [mem_insertStr] at hz
      rcases hz with rfl | hz
      · exact (strLe_total z y).resolve_left hxy
      · exact h.1 z hz

theorem sortStr_sorted : ∀ l : List Str, (sortStr l).Pairwise (fun a b => strLe a b = true)
  | [] => .nil
  | x :: l => insertStr_sorted x (sortStr l) (sortStr_sorted l)

theorem sortStr_pairwise (l : List Str) : (sortStr l).Pairwise StrLe :=
  (sortStr_sorted l).imp fun h => (strLe_iff _ _).1 h

theorem sortStr_congr {l m : List Str} (h : l.Perm m) : sortStr l = sortStr m :=
  ((sortStr_perm l).trans (h.trans (sortStr_perm m).symm)).eq_of_pairwise
    (fun a b _ _ h1 h2 => strLe_antisymm a b h1 h2) (sortStr_sorted l) (sortStr_sorted m)

/-! ### the order of the item -/

theorem dictGet_perm {α : Type} {d e : List (Str × α)} (h : d.Perm e) (hn : (d.map Prod.fst).Nodup) (k : Str) :
    dictGet d k = dictGet e k := by
  have hn' : (e.map Prod.fst).Nodup := (h.map Prod.fst).nodup_iff.1 hn
  cases hd : dictGet d k with
  | some v => exact (dictGet_of_mem_nodup hn' (h.mem_iff.1 (dictGet_mem hd))).symm
  | none =>
    cases he : dictGet e k with
    | none => rfl
    | some v =>
      rw [dictGet_of_mem_nodup hn (h.mem_iff.2 (dictGet_mem he))] at hd
      cases hd

theorem readSlices_congr {α : Type} {d e : List (Str × List α)} (h : ∀ k, dictGet d k = dictGet e k) :
    ∀ l, readSlices d l = readSlices e l
  | [] => rfl
  | (k, a, b) :: l => by
    have ih := readSlices_congr h l
    simp only [readSlices, h k, ih]

theorem encodeStreams_congr {α : Type} {d e : List (Str × List α)} (h : ∀ k, dictGet d k = dictGet e k)
    (idx : List (Str × Str × Nat × Nat)) : ∀ l, encodeStreams d idx l = encodeStreams e idx l
  | [] => rfl
  | (k, v) :: l => by
    have ih := encodeStreams_congr h idx l
    simp only [encodeStreams, readSlices_congr h, ih]

/-- C10: the order in which an item lists its arrays does not matter, for every spec and every item, also where
the same code occurs in several arrays. -/
theorem C10_item_order {α : Type} (c : Chan) {item item' : List (Str × List α)} (h : item.Perm item')
    (hn : (item.map Prod.fst).Nodup) : Chan.encode c item = Chan.encode c item' := by
  unfold Chan.encode
  have e1 : item = [] ↔ item' = [] := by
    constructor
    · rintro rfl; simpa using h
    · rintro rfl; simpa using h
  by_cases hi : item = []
  · rw [if_pos hi, if_pos (e1.1 hi)]
  · rw [if_neg hi, if_neg (fun x => hi (e1.2 x)), sortStr_congr (h.map Prod.fst)]
    simp only [encodeStreams_congr (dictGet_perm h hn)]

/-- `g` is in two arrays of the item; the one with the larger key is used. -/
example : Chan.encode ⟨p! "g", none⟩ [(p! "r|g", [1, 2]), (p! "b|g", [3, 4])] = .ok [(p! "g", [2])] ∧
    Chan.encode ⟨p! "g", none⟩ [(p! "b|g", [3, 4]), (p! "r|g", [1, 2])] = .ok [(p! "g", [2])] :=
  ⟨by decide, by decide⟩

/-- C10: of several arrays with the same code the one with the last key in the order of strings is used; with
`mode=0` it is the one the item lists last, so the modes disagree. -/
theorem C10_overlap_violated :
    Chan.encode ⟨p! "g", none⟩ [(p! "r|g", [1, 2]), (p! "b|g", [3, 4])] = .ok [(p! "g", [2])] ∧
    Chan.encode0 ⟨p! "g", none⟩ [(p! "r|g", [1, 2]), (p! "b|g", [3, 4])] = .ok [(p! "g", [4])] :=
  ⟨by decide, by decide⟩

/-! ### when encode raises -/

theorem mergeStep_nonempty (st : MState) (e : Str × Nat × Nat) : (mergeStep st e).accum ≠ [] := by
  unfold mergeStep
  split
  · split
    · simp
    · split <;> simp
  · split <;> simp

theorem mergeStep_mem {P : Str × Nat × Nat → Prop} {st : MState} {e : Str × Nat × Nat} (he : P e)
    (h1 : ∀ g ∈ st.accepted, ∀ x ∈ g, P x) (h2 : ∀ x ∈ st.accum, P x) (h3 : ∀ g ∈ st.accepted, g ≠ []) :
    (∀ g ∈ (mergeStep st e).accepted, ∀ x ∈ g, P x) ∧ (∀ x ∈ (mergeStep st e).accum, P x) ∧
      ∀ g ∈ (mergeStep st e).accepted, g ≠ [] := by
  have a1 : ∀ x ∈ st.accum ++ [e], P x := by
    intro x hx
    rcases List.mem_append.1 hx with hx | hx
    · exact h2 x hx
    · rw [List.mem_singleton.1 hx]; exact he
  have a2 : ∀ x ∈ [e], P x := by
    intro x hx
    rw [List.mem_singleton.1 hx]; exact he
  have a3 : ∀ g ∈ st.accepted ++ [st.accum], ∀ x ∈ g, P x := by
    intro g hg
    rcases List.mem_append.1 hg with hg | hg
    · exact h1 g hg
    · rw [List.mem_singleton.1 hg]; exact h2
  have a4 : st.accum ≠ [] → ∀ g ∈ st.accepted ++ [st.accum], g ≠ [] := by
    intro hne g hg
    rcases List.mem_append.1 hg with hg | hg
    · exact h3 g hg
    · rw [List.mem_singleton.1 hg]; exact hne
  unfold mergeStep
  split
  · split
    · exact ⟨h1, a1, h3⟩
    · split
      · exact ⟨h1, a2, h3⟩
      · next hne => exact ⟨a3, a2, a4 hne⟩
  · split
    · exact ⟨h1, a2, h3⟩
    · next hne => exact ⟨a3, a2, a4 hne⟩

theorem mergeLoop_mem {P : Str × Nat × Nat → Prop} : ∀ (l : List (Str × Nat × Nat)) (st : MState),
    (∀ e ∈ l, P e) → (∀ g ∈ st.accepted, ∀ x ∈ g, P x) → (∀ x ∈ st.accum, P x) →
    (∀ g ∈ st.accepted, g ≠ []) →
    (∀ g ∈ (l.foldl mergeStep st).accepted, ∀ x ∈ g, P x) ∧ (∀ x ∈ (l.foldl mergeStep st).accum, P x) ∧
      (∀ g ∈ (l.foldl mergeStep st).accepted, g ≠ []) ∧ (l ≠ [] → (l.foldl mergeStep st).accum ≠ [])
  | [], st, _, h1, h2, h3 => ⟨h1, h2, h3, fun h => absurd rfl h⟩
  | e :: l, st, he, h1, h2, h3 => by
    obtain ⟨g1, g2, g3⟩ := mergeStep_mem (he e (by simp)) h1 h2 h3
    obtain ⟨i1, i2, i3, i4⟩ := mergeLoop_mem l (mergeStep st e) (fun x hx => he x (by simp [hx])) g1 g2 g3
    refine ⟨i1, i2, i3, fun _ => ?_⟩
    cases l with
    | nil => exact mergeStep_nonempty st e
    | cons x xs => exact i4 (by simp)

theorem mergeGroup_key {P : Str → Prop} {g : List (Str × Nat × Nat)} {e : Str × Nat × Nat}
    (h : ∀ x ∈ g, P x.1) (hm : mergeGroup g = some e) : P e.1 := by
  match g, hm with
  | [x], hm =>
    simp only [mergeGroup, Option.some.injEq] at hm
    subst hm
    exact h x (by simp)
  | x :: y :: zs, hm =>
    simp only [mergeGroup, Option.some.injEq] at hm
    subst hm
    exact h x (by simp)

theorem mergeGroup_some {g : List (Str × Nat × Nat)} (h : g ≠ []) : ∃ e, mergeGroup g = some e := by
  match g with
  | [] => exact absurd rfl h
  | [x] => exact ⟨_, rfl⟩
  | x :: y :: zs => exact ⟨_, rfl⟩

theorem mergeSlices_key {P : Str → Prop} {l : List (Str × Nat × Nat)} (h : ∀ x ∈ l, P x.1) :
    (∀ e ∈ mergeSlices l, P e.1) ∧ (l ≠ [] → mergeSlices l ≠ []) := by
  obtain ⟨h1, h2, h3, h4⟩ := mergeLoop_mem (P := fun x => P x.1) l ⟨none, [], []⟩ h (by simp) (by simp) (by simp)
  have hg : ∀ g ∈ mergeGroups l, (∀ x ∈ g, P x.1) ∧ g ≠ [] := by
    intro g hg
    unfold mergeGroups at hg
    simp only at hg
    split at hg
    · exact ⟨h1 g hg, h3 g hg⟩
    · next hne =>
      rcases List.mem_append.1 hg with hg | hg
      · exact ⟨h1 g hg, h3 g hg⟩
      · rw [List.mem_singleton.1 hg]; exact ⟨h2, hne⟩
  refine ⟨?_, ?_⟩
  · intro e he
    obtain ⟨g, hg', hm⟩ := List.mem_filterMap.1 he
    exact mergeGroup_key (hg g hg').1 hm
  · intro hl hnil
    have hacc := h4 hl
    have hm : (l.foldl mergeStep ⟨none, [], []⟩).accum ∈ mergeGroups l := by
      unfold mergeGroups
      simp only
      rw [if_neg hacc]
      simp
    obtain ⟨e, he⟩ := mergeGroup_some hacc
    have : e ∈ mergeSlices l := List.mem_filterMap.2 ⟨_, hm, he⟩
    rw [hnil] at this
    cases this

theorem readSlices_ok {α : Type} {item : List (Str × List α)} : ∀ l : List (Str × Nat × Nat),
    (∀ e ∈ l, ∃ v, dictGet item e.1 = some v) → ∃ r, readSlices item l = .ok r ∧ r.length = l.length
  | [], _ => ⟨[], rfl, rfl⟩
  | (k, a, b) :: l, h => by
    obtain ⟨v, hv⟩ := h (k, a, b) (by simp)
    obtain ⟨r, hr, hlen⟩ := readSlices_ok l (fun x hx => h x (by simp [hx]))
    simp only at hv
    exact ⟨rows v a b :: r, by simp [readSlices, hv, hr], by simp [hlen]⟩

theorem lookupAll_missing {α : Type} {d : List (Str × α)} : ∀ {ks : List Str},
    (∃ k ∈ ks, dictGet d k = none) → lookupAll d ks = .error .keyError
  | [], h => by obtain ⟨k, hk, -⟩ := h; cases hk
  | k :: ks, h => by
    simp only [lookupAll]
    cases hk : dictGet d k with
    | none => rfl
    | some v =>
      simp only
      obtain ⟨k', hk', hn⟩ := h
      rcases List.mem_cons.1 hk' with rfl | hk'
      · rw [hk] at hn; cases hn
      · rw [lookupAll_missing ⟨k', hk', hn⟩]; rfl

theorem itemIndices_known {groups : List (List Str)} {size : Str → Nat} {d : List (Str × Str × Nat × Nat)}
    (hd1 : ∀ k v, dictGet d k = some v → ∃ g ∈ groups, Occ size g (k, v))
    (hd2 : ∀ k, (∃ g ∈ groups, k ∈ g) → ∃ v, dictGet d k = some v) (k : Str) :
    dictGet d k = none ↔ ∀ g ∈ groups, k ∉ g := by
  constructor
  · intro h g hg hk
    obtain ⟨v, hv⟩ := hd2 k ⟨g, hg, hk⟩
    rw [h] at hv; cases hv
  · intro h
    cases hd : dictGet d k with
    | none => rfl
    | some v =>
      obtain ⟨g, hg, pre, post, e, -⟩ := hd1 k v hd
      exact absurd (show k ∈ g by rw [e]; simp) (h g hg)

/-- C10: `encode` raises exactly if some code of the spec is in no array of the item, and then it raises
`KeyError`; items without arrays are refused with `ValueError`.  This holds for repeated codes and codes without
channels, too. -/
theorem C10_raises_iff {α : Type} (groups ss : List (List Str)) (comp : Str → List α)
    (hg : groups ≠ []) (hok : ∀ g ∈ groups, StreamOk g)
    (hsize : ∀ g ∈ groups, ∀ c ∈ g, Fused.numel ⟨[c], false⟩ = .ok (comp c).length)
    (hs : ss ≠ []) (hsok : ∀ s ∈ ss, StreamOk s) (hdist : ss.Nodup) :
    ((∃ r, Chan.encode ⟨specOf ss, none⟩ (itemOf groups comp) = .ok r) ↔
      ∀ s ∈ ss, ∀ c ∈ s, ∃ g ∈ groups, c ∈ g) ∧
    (∀ e, Chan.encode ⟨specOf ss, none⟩ (itemOf groups comp) = .error e → e = .keyError) ∧
    Chan.encode ⟨specOf ss, none⟩ (itemOf [] comp) = .error .valueError := by
  refine ⟨?_, ?_, rfl⟩ <;>
  have hcs : ∀ g ∈ groups, ∀ c ∈ g, codeSize c = .ok (comp c).length := by
    intro g hg c hc
    have := hsize g hg c hc
    simp only [Fused.numel, Fused.sizes, Bool.false_eq_true, if_false, Fused.sizesLoop] at this
    cases h : codeSize c with
    | error e => rw [h] at this; cases this
    | ok n => rw [h] at this; simpa [Except.map] using this
  all_goals
    have hkeys : ∀ k ∈ sortStr ((itemOf groups comp).map Prod.fst), ∃ g ∈ groups, k = joinWith '|' g := by
      intro k hk
      rw [mem_sortStr] at hk
      simp only [itemOf, List.map_map, List.mem_map, Function.comp_apply] at hk
      obtain ⟨g, hg, rfl⟩ := hk
      exact ⟨g, hg, rfl⟩
    obtain ⟨d, hd, hd1, hd2⟩ := itemIndices_spec (size := fun c => (comp c).length) hok hcs _ hkeys []
      (by intro k v h; simp [dictGet] at h)
    have hd2' : ∀ k, (∃ g ∈ groups, k ∈ g) → ∃ v, dictGet d k = some v := by
      rintro k ⟨g, hg', hk⟩
      refine hd2 k (.inr ⟨g, hg', ?_, hk⟩)
      rw [mem_sortStr]
      simp only [itemOf, List.map_map, List.mem_map, Function.comp_apply]
      exact ⟨g, hg', rfl⟩
    have known := itemIndices_known hd1 hd2'
    have henc : Chan.encode ⟨specOf ss, none⟩ (itemOf groups comp) =
        encodeStreams (itemOf groups comp) d (ss.map (fun g => (joinWith '|' g, (⟨g, false⟩ : Fused)))) := by
      unfold Chan.encode
      rw [if_neg (by simpa [itemOf] using hg), hd]
      simp only [Except.ok_bind']
      rw [parse_specOf hs hsok hdist]
    have main : ∀ ts : List (List Str), (∀ t ∈ ts, StreamOk t) →
        ((∀ t ∈ ts, ∀ c ∈ t, ∃ g ∈ groups, c ∈ g) →
          ∃ r, encodeStreams (itemOf groups comp) d
            (ts.map (fun g => (joinWith '|' g, (⟨g, false⟩ : Fused)))) = .ok r) ∧
        (¬ (∀ t ∈ ts, ∀ c ∈ t, ∃ g ∈ groups, c ∈ g) →
          encodeStreams (itemOf groups comp) d
            (ts.map (fun g => (joinWith '|' g, (⟨g, false⟩ : Fused)))) = .error .keyError) := by
      intro ts
      induction ts with
      | nil => intro _; exact ⟨fun _ => ⟨[], rfl⟩, fun h => absurd (by simp) h⟩
      | cons t ts ih =>
        intro hts
        have ih := ih (fun x hx => hts x (by simp [hx]))
        have head : (∀ c ∈ t, ∃ g ∈ groups, c ∈ g) → ∃ vs arr ps, lookupAll d t = .ok vs ∧
            readSlices (itemOf groups comp) (mergeSlices vs) = .ok ps ∧ cat ps = .ok arr := by
          intro hall
          obtain ⟨vs, hv1, hv2, hv3⟩ := lookupAll_ok (d := d) (ks := t) (fun k hk => hd2' k (hall k hk))
          have hkeyv : ∀ x ∈ vs, ∃ v, dictGet (itemOf groups comp) x.1 = some v := by
            intro x hx
            have hzs : (t.zip vs).map Prod.snd = vs := List.map_snd_zip (by omega)
            rw [← hzs] at hx
            obtain ⟨q, hq, rfl⟩ := List.mem_map.1 hx
            obtain ⟨g, hg', pre, post, e1, e2, e3, e4⟩ := hd1 q.1 q.2 (hv3 q hq)
            refine ⟨(g.map comp).flatten, ?_⟩
            rw [e2]
            exact dictGet_map_key hok (fun g => (g.map comp).flatten) hg'
          obtain ⟨hk1, hk2⟩ := mergeSlices_key (P := fun k => ∃ v, dictGet (itemOf groups comp) k = some v) hkeyv
          obtain ⟨ps, hps, hlen⟩ := readSlices_ok (mergeSlices vs) hk1
          have hvne : vs ≠ [] := by
            intro e
            rw [e] at hv2
            exact (hts t (by simp)).ne (List.length_eq_zero_iff.1 hv2.symm)
          have hpne : ps ≠ [] := by
            intro e
            rw [e] at hlen
            exact hk2 hvne (List.length_eq_zero_iff.1 hlen.symm)
          cases ps with
          | nil => exact absurd rfl hpne
          | cons p ps => exact ⟨vs, (p :: ps).flatten, p :: ps, hv1, hps, rfl⟩
        refine ⟨?_, ?_⟩
        · intro hall
          obtain ⟨vs, arr, ps, h1, h2, h3⟩ := head (hall t (by simp))
          obtain ⟨r, hr⟩ := ih.1 (fun x hx => hall x (by simp [hx]))
          exact ⟨(joinWith '|' t, arr) :: r, by
            simp only [List.map_cons, encodeStreams, h1, h2, h3, hr, Except.ok_bind']⟩
        · intro hnot
          by_cases ht : ∀ c ∈ t, ∃ g ∈ groups, c ∈ g
          · obtain ⟨vs, arr, ps, h1, h2, h3⟩ := head ht
            have hrest : ¬ (∀ u ∈ ts, ∀ c ∈ u, ∃ g ∈ groups, c ∈ g) := by
              intro h
              refine hnot ?_
              intro u hu
              rcases List.mem_cons.1 hu with rfl | hu
              · exact ht
              · exact h u hu
            simp only [List.map_cons, encodeStreams, h1, h2, h3, ih.2 hrest, Except.ok_bind']
            rfl
          · have : ∃ k ∈ t, dictGet d k = none := by
              by_contra hcon
              refine ht ?_
              intro c hc
              by_contra hcc
              refine hcon ⟨c, hc, (known c).2 ?_⟩
              intro g hg' hcg
              exact hcc ⟨g, hg', hcg⟩
            simp only [List.map_cons, encodeStreams, lookupAll_missing this]
            rfl
  · rw [henc]
    constructor
    · rintro ⟨r, hr⟩
      by_contra hnot
      rw [(main ss hsok).2 hnot] at hr
      cases hr
    · exact (main ss hsok).1
  · intro e he
    rw [henc] at he
    by_cases hall : ∀ t ∈ ss, ∀ c ∈ t, ∃ g ∈ groups, c ∈ g
    · obtain ⟨r, hr⟩ := (main ss hsok).1 hall
      rw [hr] at he
      cases he
    · rw [(main ss hsok).2 hall] at he
      cases he
      rfl

example : Chan.encode ⟨p! "a|b,c", none⟩ [(p! "a|b", [1, 2])] = .error .keyError ∧
    Chan.encode ⟨p! "a|b|b", none⟩ [(p! "a|b", [1, 2])] = .ok [(p! "a|b|b", [1, 2])] := ⟨by decide, by decide⟩

/-! ### mode 0 -/

theorem components0_ok {α : Type} {groups : List (List Str)} {comp : Str → List α}
    (hcs : ∀ g ∈ groups, ∀ c ∈ g, codeSize c = .ok (comp c).length) (hok : ∀ g ∈ groups, StreamOk g)
    (all : List (Str × List α)) : ∀ (gs : List (List Str)) (acc : List (Str × List α)), (∀ g ∈ gs, g ∈ groups) →
    (∀ k v, dictGet acc k = some v → v = comp k) →
    ∃ d, components0 all acc (itemOf gs comp) = .ok d ∧ (∀ k v, dictGet d k = some v → v = comp k) ∧
      ∀ k, ((∃ v, dictGet acc k = some v) ∨ ∃ g ∈ gs, k ∈ g) → ∃ v, dictGet d k = some v
  | [], acc, _, hacc => ⟨acc, rfl, hacc, by
      rintro k (h | ⟨g, hg, -⟩)
      · exact h
      · cases hg⟩
  | g :: gs, acc, hgs, hacc => by
    have hg := hgs g (by simp)
    classical
    have hp : parse ⟨joinWith '|' g, none⟩ = [(joinWith '|' g, ⟨g, false⟩)] := by
      have := parse_specOf (ss := [g]) (by simp) (by simpa using hok g hg) (by simp)
      simpa [specOf, joinWith] using this
    have hdec : decode ⟨joinWith '|' g, none⟩ [(joinWith '|' g, (g.map comp).flatten)] =
        .ok (dictOf [] (g.map fun c => (c, comp c))) := by
      unfold Chan.decode
      rw [hp]
      have := decodeItems_ok comp [(joinWith '|' g, (g.map comp).flatten)] [g] (by simpa using hok g hg)
        (by simpa using hcs g hg) (by simp [dictGet])
      simp only [List.map_cons, List.map_nil, List.flatten_cons, List.flatten_nil, List.append_nil] at this
      rw [this]
      rfl
    obtain ⟨d, hd, hd1, hd2⟩ := components0_ok hcs hok all gs (dictOf acc (dictOf [] (g.map fun c => (c, comp c))))
      (fun x hx => hgs x (by simp [hx])) (by
        intro k v h
        have nd : ∀ (items d : List (Str × List α)), (d.map Prod.fst).Nodup →
            ((dictOf d items).map Prod.fst).Nodup := by
          intro items
          induction items with
          | nil => intro d hd; exact hd
          | cons p ps ih => intro d hd; exact ih _ (nodup_keys_dictSet _ _ _ hd)
        rcases dictGet_dictOf h with h' | h'
        · exact hacc k v h'
        · have := dictGet_of_mem_nodup (nd _ [] (by simp)) h'
          rcases dictGet_dictOf this with h2 | h2
          · simp [dictGet] at h2
          · obtain ⟨c, -, e⟩ := List.mem_map.1 h2
            simp only [Prod.mk.injEq] at e
            rw [← e.2, e.1])
    refine ⟨d, ?_, hd1, ?_⟩
    · simp only [itemOf, List.map_cons, components0, hdec, Except.ok_bind']
      exact hd
    · intro k hk
      apply hd2
      rcases hk with hk | ⟨g', hg', hkg⟩
      · exact .inl (dictGet_dictOf_isSome (.inl hk))
      · rcases List.mem_cons.1 hg' with rfl | hg'
        · left
          apply dictGet_dictOf_isSome
          right
          obtain ⟨v, hv⟩ := dictGet_dictOf_isSome (d := ([] : List (Str × List α)))
            (items := g'.map fun c => (c, comp c)) (k := k) (.inr (by simpa [Function.comp_def] using hkg))
          exact List.mem_map_of_mem (f := Prod.fst) (dictGet_mem hv)
        · exact .inr ⟨g', hg', hkg⟩

theorem lookupAll_comp {α : Type} {d : List (Str × List α)} {comp : Str → List α}
    (h1 : ∀ k v, dictGet d k = some v → v = comp k) : ∀ {ks : List Str}, (∀ k ∈ ks, ∃ v, dictGet d k = some v) →
    lookupAll d ks = .ok (ks.map comp)
  | [], _ => rfl
  | k :: ks, h => by
    obtain ⟨v, hv⟩ := h k (by simp)
    have e := h1 k v hv
    subst e
    have ih := lookupAll_comp h1 (ks := ks) (fun x hx => h x (by simp [hx]))
    simp [lookupAll, hv, ih]

/-- C10 for `mode=0`: specs written without shorthand are encoded, also if they repeat codes, and items without arrays
are refused.  Missing: specs with aliases and slices, which raise (`C10_mode0_alias_violated`). -/
theorem C10_mode0_partial {α : Type} (groups ss : List (List Str)) (comp : Str → List α)
    (hg : groups ≠ []) (hok : ∀ g ∈ groups, StreamOk g)
    (hsize : ∀ g ∈ groups, ∀ c ∈ g, Fused.numel ⟨[c], false⟩ = .ok (comp c).length)
    (hs : ss ≠ []) (hsok : ∀ s ∈ ss, StreamOk s) (hdist : ss.Nodup)
    (hsub : ∀ s ∈ ss, ∀ c ∈ s, ∃ g ∈ groups, c ∈ g)
    (hplain : ∀ s ∈ ss, Fused.asList ⟨s, false⟩ = .ok s) :
    Chan.encode0 ⟨specOf ss, none⟩ (itemOf groups comp) =
      .ok (ss.map (fun s => (joinWith '|' s, (s.map comp).flatten))) ∧
    Chan.encode0 ⟨specOf ss, none⟩ (itemOf [] comp) = .error .valueError := by
  refine ⟨?_, rfl⟩
  have hcs : ∀ g ∈ groups, ∀ c ∈ g, codeSize c = .ok (comp c).length := by
    intro g hg c hc
    have := hsize g hg c hc
    simp only [Fused.numel, Fused.sizes, Bool.false_eq_true, if_false, Fused.sizesLoop] at this
    cases h : codeSize c with
    | error e => rw [h] at this; cases this
    | ok n => rw [h] at this; simpa [Except.map] using this
  obtain ⟨d, hd, hd1, hd2⟩ := components0_ok hcs hok (itemOf groups comp) groups [] (fun _ h => h)
    (by intro k v h; simp [dictGet] at h)
  unfold Chan.encode0
  rw [if_neg (by simpa [itemOf] using hg), hd]
  simp only [Except.ok_bind']
  rw [parse_specOf hs hsok hdist]
  clear hs hdist
  induction ss with
  | nil => rfl
  | cons s ss ih =>
    have ih := ih (fun x hx => hsok x (by simp [hx])) (fun x hx => hsub x (by simp [hx]))
      (fun x hx => hplain x (by simp [hx]))
    have hl := lookupAll_comp hd1 (ks := s) (fun k hk => hd2 k (.inr (hsub s (by simp) k hk)))
    have hc : cat (s.map comp) = .ok (s.map comp).flatten := by
      cases s with
      | nil => exact absurd rfl (hsok [] (by simp)).ne
      | cons a as => rfl
    simp only [List.map_cons, encodeStreams0, hplain s (by simp), Except.ok_bind', hl, hc, ih]

example : Chan.encode0 ⟨p! "b|a|b,m.1", none⟩ [(p! "a|b", [1, 2]), (p! "m.0|m.1", [5, 6])] =
    .ok [(p! "b|a|b", [2, 1, 2]), (p! "m.1", [6])] := by decide

/-- C10 fails in `mode=0` if a key of the item lists several streams: the others are not looked at. -/
theorem C10_joined_key_violated :
    Chan.encode0 ⟨p! "a", none⟩ [(p! "a,b", [1, 2]), (p! "a", [3]), (p! "b", [4])] = .error .keyError ∧
    Chan.encode ⟨p! "a", none⟩ [(p! "a,b", [1, 2]), (p! "a", [3]), (p! "b", [4])] = .ok [(p! "a", [3])] :=
  ⟨by decide, by decide⟩

/-- C10 fails for streams without channels: with `mode=0` nothing is left to concatenate, which is refused. -/
theorem C10_no_channels_violated :
    Chan.encode0 ⟨p! "a,z:0", none⟩ [(p! "a|z:0", [1])] = .error .valueError ∧
    Chan.encode ⟨p! "a,z:0", none⟩ [(p! "a|z:0", [1])] = .ok [(p! "a", [1]), (p! "z:0", [])] :=
  ⟨by decide, by decide⟩

/-! ### C11 with codes without channels -/

/-- What the loop has when it ends in this state. -/
def flushed (st : MState) : List (List (Str × Nat × Nat)) :=
  if st.accum = [] then st.accepted else st.accepted ++ [st.accum]

theorem mergeLoop_distinct : ∀ (l : List (Str × Nat × Nat)) (st : MState), (l.map Prod.fst).Nodup →
    (∀ p, st.prev = some p → p.1 ∉ l.map Prod.fst) →
    flushed (l.foldl mergeStep st) = flushed st ++ l.map (fun e => [e])
  | [], st, _, _ => by simp
  | e :: l, st, hn, hp => by
    simp only [List.map_cons, List.nodup_cons] at hn
    have hstep : mergeStep st e = ⟨some e, flushed st, [e]⟩ := by
      unfold mergeStep flushed
      cases hprev : st.prev with
      | none => by_cases h : st.accum = [] <;> simp [h]
      | some p =>
        have : p.1 ≠ e.1 := fun h => hp p hprev (by simp [h])
        by_cases h : st.accum = [] <;> simp [h, this]
    have ih := mergeLoop_distinct l (mergeStep st e) hn.2
      (by rw [hstep]; rintro p h; cases h; exact hn.1)
    rw [List.foldl_cons, ih, hstep]
    simp [flushed]

theorem mergeSlices_distinct {l : List (Str × Nat × Nat)} (h : (l.map Prod.fst).Nodup) : mergeSlices l = l := by
  have hg : mergeGroups l = l.map (fun e => [e]) := by
    have := mergeLoop_distinct l ⟨none, [], []⟩ h (by simp)
    simpa [flushed, mergeGroups] using this
  unfold mergeSlices
  rw [hg]
  clear hg h
  induction l with
  | nil => rfl
  | cons e l ih => simpa [mergeGroup] using ih

/-- C11: `encode` undoes `decode` for every spec with distinct, nonempty codes, codes without channels
included. -/
theorem C11_encode_decode {α : Type} [DecidableEq α] (ss : List (List Str)) (comp : Str → List α)
    (hs : ss ≠ []) (hsok : ∀ s ∈ ss, StreamOk s) (hnd : ss.flatten.Nodup)
    (hsize : ∀ s ∈ ss, ∀ c ∈ s, Fused.numel ⟨[c], false⟩ = .ok (comp c).length)
    (hemp : ∀ s ∈ ss, ∀ c ∈ s, c ≠ []) :
    ∃ comps, Chan.decode ⟨specOf ss, none⟩ (itemOf ss comp) = .ok comps ∧
      Chan.encode ⟨specOf ss, none⟩ comps = .ok (itemOf ss comp) := by
  refine ⟨_, C11_decode ss comp hs hsok hnd hsize, ?_⟩
  have e : ss.flatten.map (fun c => (c, comp c)) = itemOf (ss.flatten.map (fun c => [c])) comp := by
    simp [itemOf, joinWith, Function.comp_def]
  rw [e]
  have hgne : ss.flatten.map (fun c => [c]) ≠ [] := by
    obtain ⟨s, hs'⟩ := List.exists_mem_of_ne_nil ss hs
    obtain ⟨c, hc⟩ := List.exists_mem_of_ne_nil s (hsok s hs').ne
    intro h
    have : c ∈ ss.flatten := List.mem_flatten.2 ⟨s, hs', hc⟩
    rw [List.map_eq_nil_iff] at h
    simp [h] at this
  have hgok : ∀ g ∈ ss.flatten.map (fun c => [c]), StreamOk g := by
    intro g hg'
    obtain ⟨c, hc, rfl⟩ := List.mem_map.1 hg'
    obtain ⟨s, hs', hc⟩ := List.mem_flatten.1 hc
    exact ⟨by simp, by simpa using hemp s hs' c hc, by simpa using (hsok s hs').pipe c hc,
      by simpa using (hsok s hs').comma c hc⟩
  have hcs : ∀ g ∈ ss.flatten.map (fun c => [c]), ∀ c ∈ g, codeSize c = .ok (comp c).length := by
    intro g hg' c' hc'
    obtain ⟨c, hc, rfl⟩ := List.mem_map.1 hg'
    simp only [List.mem_singleton] at hc'
    subst hc'
    obtain ⟨s, hs', hc⟩ := List.mem_flatten.1 hc
    have := hsize s hs' c' hc
    simp only [Fused.numel, Fused.sizes, Bool.false_eq_true, if_false, Fused.sizesLoop] at this
    cases h : codeSize c' with
    | error e => rw [h] at this; cases this
    | ok n => rw [h] at this; simpa [Except.map] using this
  have hdist : ss.Nodup := by
    have hne' : ∀ g ∈ ss, g ≠ [] := fun g hg => (hsok g hg).ne
    clear hsize hsok hs hemp hcs hgok hgne e
    induction ss with
    | nil => simp
    | cons g gs ih =>
      rw [List.flatten_cons, List.nodup_append] at hnd
      rw [List.nodup_cons]
      refine ⟨?_, ih hnd.2.1 (fun x hx => hne' x (by simp [hx]))⟩
      intro hg
      cases hgc : g with
      | nil => exact hne' g (by simp) hgc
      | cons c cs =>
        exact hnd.2.2 c (by simp [hgc]) c (List.mem_flatten.2 ⟨g, hg, by simp [hgc]⟩) rfl
  unfold Chan.encode
  rw [if_neg (by simpa [itemOf] using hgne)]
  have hkeys : ∀ k ∈ sortStr ((itemOf (ss.flatten.map (fun c => [c])) comp).map Prod.fst),
      ∃ g ∈ ss.flatten.map (fun c => [c]), k = joinWith '|' g := by
    intro k hk
    rw [mem_sortStr] at hk
    simp only [itemOf, List.map_map, List.mem_map, Function.comp_apply] at hk
    obtain ⟨c, hc, rfl⟩ := hk
    exact ⟨[c], List.mem_map.2 ⟨c, hc, rfl⟩, rfl⟩
  obtain ⟨d, hd, hd1, hd2⟩ := itemIndices_spec (size := fun c => (comp c).length) hgok hcs _ hkeys []
    (by intro k v h; simp [dictGet] at h)
  rw [hd]
  simp only [Except.ok_bind']
  rw [parse_specOf hs hsok hdist]
  have hget : ∀ c ∈ ss.flatten, dictGet d c = some (c, 0, (comp c).length) := by
    intro c hc
    obtain ⟨v, hv⟩ := hd2 c (by
      right
      refine ⟨[c], List.mem_map.2 ⟨c, hc, rfl⟩, ?_, by simp⟩
      rw [mem_sortStr]
      simp only [itemOf, List.map_map, List.mem_map, Function.comp_apply]
      exact ⟨c, hc, rfl⟩)
    obtain ⟨g, hg, pre, post, e1, e2, e3, e4⟩ := hd1 c v hv
    obtain ⟨c', -, rfl⟩ := List.mem_map.1 hg
    have hpre : pre = [] ∧ post = [] := by
      have := congrArg List.length e1
      simp at this
      constructor <;> (apply List.length_eq_zero_iff.1; omega)
    obtain ⟨rfl, rfl⟩ := hpre
    simp only [List.nil_append, List.cons.injEq, and_true] at e1
    subst e1
    simp only at e2 e3 e4
    rw [hv]
    obtain ⟨k, a, b⟩ := v
    simp only at e2 e3 e4
    simp [e2, e3, e4, joinWith]
  have hitem : ∀ c ∈ ss.flatten,
      dictGet (itemOf (ss.flatten.map (fun c => [c])) comp) c = some (comp c) := by
    intro c hc
    have := dictGet_map_key hgok (fun g => (g.map comp).flatten) (List.mem_map.2 ⟨c, hc, rfl⟩)
    simpa [itemOf, joinWith] using this
  generalize itemOf (ss.flatten.map (fun c => [c])) comp = item at hitem
  have hnds : ∀ s ∈ ss, s.Nodup := fun s hs' => (List.nodup_flatten.1 hnd).1 s hs'
  have hmem : ∀ s ∈ ss, ∀ c ∈ s, c ∈ ss.flatten := fun s hs' c hc => List.mem_flatten.2 ⟨s, hs', hc⟩
  revert hget hitem hmem
  generalize ss.flatten = all
  clear hnd hsize hemp hcs hgok hgne e hd hd1 hd2 hkeys hs hdist
  intro hget hitem hmem
  induction ss with
  | nil => rfl
  | cons s ss ih =>
    have ih := ih (fun x hx => hsok x (by simp [hx])) (fun x hx => hnds x (by simp [hx]))
      (fun x hx => hmem x (by simp [hx]))
    have hl : ∀ t : List Str, (∀ c ∈ t, c ∈ all) →
        lookupAll d t = .ok (t.map (fun c => (c, 0, (comp c).length))) ∧
        readSlices item (t.map (fun c => (c, 0, (comp c).length))) = .ok (t.map comp) := by
      intro t
      induction t with
      | nil => exact fun _ => ⟨rfl, rfl⟩
      | cons c t ih2 =>
        intro ht
        obtain ⟨i1, i2⟩ := ih2 (fun x hx => ht x (by simp [hx]))
        have h1 := hget c (ht c (by simp))
        have h2 := hitem c (ht c (by simp))
        refine ⟨by simp [lookupAll, h1, i1], ?_⟩
        simp [readSlices, h2, i2, rows]
    obtain ⟨l1, l2⟩ := hl s (hmem s (by simp))
    have hm : mergeSlices (s.map (fun c => (c, 0, (comp c).length))) =
        s.map (fun c => (c, 0, (comp c).length)) :=
      mergeSlices_distinct (by simpa [Function.comp_def] using hnds s (by simp))
    have hcat : cat (s.map comp) = .ok (s.map comp).flatten := by
      cases hsc : s with
      | nil => exact absurd hsc (hsok s (by simp)).ne
      | cons c cs => rfl
    simp only [List.map_cons, encodeStreams, l1, l2, Except.ok_bind', hm, hcat, ih, itemOf]

/-- `z:0` has no channels. -/
example : Chan.decode ⟨p! "a|z:0|m:2,b", none⟩ [(p! "a|z:0|m:2", [1, 2, 3]), (p! "b", [4])] =
      .ok [(p! "a", [1]), (p! "z:0", []), (p! "m:2", [2, 3]), (p! "b", [4])] ∧
    Chan.encode ⟨p! "a|z:0|m:2,b", none⟩
      [(p! "a", [1]), (p! "z:0", []), (p! "m:2", [2, 3]), (p! "b", [4])] =
      .ok [(p! "a|z:0|m:2", [1, 2, 3]), (p! "b", [4])] := ⟨by decide, by decide⟩

/-- The other direction of C11 is false with codes without channels: `b` comes back without its row. -/
theorem C11_zero_size_code_violated :
    Chan.decode ⟨p! "a|z:0|b", none⟩ [(p! "a|z:0|b", [1, 2])] =
      .ok [(p! "a", [1]), (p! "z:0", []), (p! "b", [2])] ∧
    ∃ arrs, Chan.encode ⟨p! "a|b|z:0", none⟩ [(p! "a|z:0|b", [1, 2])] = .ok arrs ∧
      Chan.decode ⟨p! "a|b|z:0", none⟩ arrs = .ok [(p! "a", [1]), (p! "b", []), (p! "z:0", [])] :=
  ⟨by decide, _, rfl, by decide⟩

end Verif.Props
