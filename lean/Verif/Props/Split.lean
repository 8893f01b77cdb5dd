/-
C65: membership and splitting of channel specs.  C66: the shapes of the items a spec expects.
-/
import Verif.Split
import Verif.Props.Chan
import Mathlib.Data.Finset.Card
import Mathlib.Data.Finset.Dedup

namespace Verif.Props
open Verif Verif.Fused Verif.Chan

/-! ### C65: membership -/

/-- The channels of several written streams one after the other. -/
def channelsOf : List Str → Py (List Str)
  | [] => .ok []
  | k :: ks =>
    match (Fused.parse k).asList with
    | .error e => .error e
    | .ok a =>
      match channelsOf ks with
      | .error e => .error e
      | .ok b => .ok (a ++ b)

theorem parse_asList (k : Str) : (Fused.parse k).asList = normParts (Fused.parse k).parsed := by
  unfold Fused.parse
  split <;> exact asList_false _

theorem channelsOf_eq (ks : List Str) :
    channelsOf ks = normParts (ks.map (fun k => (Fused.parse k).parsed)).flatten := by
  induction ks with
  | nil => rfl
  | cons k ks ih =>
    simp only [channelsOf, List.map_cons, List.flatten_cons, normParts_append]
    rw [parse_asList, ih]
    cases normParts (Fused.parse k).parsed with
    | error e => rfl
    | ok a =>
      simp only [Except.ok_bind']
      cases normParts (ks.map (fun k => (Fused.parse k).parsed)).flatten with
      | error e => rfl
      | ok b => rfl

/-- The channels of `fuse()` are those of the streams. -/
theorem fuse_channelsOf (s : Str) : (Chan.fuse ⟨s, none⟩).asList = channelsOf (splitOn ',' s) := by
  rw [channelsOf_eq]
  unfold Chan.fuse Chan.streams Chan.keys
  simp only
  cases h : splitOn ',' s with
  | nil => exact asList_false _
  | cons k ks =>
    cases ks with
    | nil =>
      simp only [List.map_cons, List.map_nil, List.flatten_cons, List.flatten_nil, List.append_nil]
      exact parse_asList k
    | cons k' ks =>
      simp only [List.map_cons]
      rw [asList_false]
      simp [List.map_map, Function.comp_def]

theorem channelsOf_append (a b : List Str) : channelsOf (a ++ b) =
    match channelsOf a with
    | .error e => .error e
    | .ok x => match channelsOf b with
      | .error e => .error e
      | .ok y => .ok (x ++ y) := by
  induction a with
  | nil =>
    simp only [List.nil_append, channelsOf]
    cases channelsOf b <;> rfl
  | cons k a ih =>
    simp only [List.cons_append, channelsOf]
    rw [ih]
    cases (Fused.parse k).asList with
    | error e => rfl
    | ok u =>
      cases channelsOf a with
      | error e => rfl
      | ok x =>
        cases channelsOf b with
        | error e => rfl
        | ok y => simp

theorem channelsOf_filter (ks : List Str) :
    channelsOf (ks.filter (fun k => decide (k ≠ []))) = channelsOf ks := by
  induction ks with
  | nil => rfl
  | cons k ks ih =>
    by_cases h : k = []
    · subst h
      rw [List.filter_cons_of_neg (by simp), ih]
      simp only [channelsOf]
      rw [show (Fused.parse []).asList = .ok [] from rfl]
      cases channelsOf ks <;> rfl
    · rw [List.filter_cons_of_pos (by simpa using h)]
      simp only [channelsOf]
      rw [ih]

theorem channelsOf_mem {ks : List Str} {l : List Str} (h : channelsOf ks = .ok l) {k : Str} (hk : k ∈ ks) :
    ∃ a, (Fused.parse k).asList = .ok a ∧ ∀ x ∈ a, x ∈ l := by
  induction ks generalizing l with
  | nil => simp at hk
  | cons k0 ks ih =>
    simp only [channelsOf] at h
    cases h1 : (Fused.parse k0).asList with
    | error e => rw [h1] at h; cases h
    | ok a =>
      cases h2 : channelsOf ks with
      | error e => rw [h1, h2] at h; cases h
      | ok b =>
        rw [h1, h2] at h
        cases h
        rcases List.mem_cons.1 hk with rfl | hk
        · exact ⟨a, h1, fun x hx => by simp [hx]⟩
        · obtain ⟨a', h3, h4⟩ := ih h2 hk
          exact ⟨a', h3, fun x hx => by simp [h4 x hx]⟩

/-- Leaving out repeated streams changes neither the set of channels nor the exception. -/
theorem channelsOf_oset (ks : List Str) :
    (∀ e, channelsOf (oset ks) = .error e ↔ channelsOf ks = .error e) ∧
    ∀ l, channelsOf ks = .ok l → ∃ l', channelsOf (oset ks) = .ok l' ∧ ∀ x, x ∈ l' ↔ x ∈ l := by
  induction ks using List.reverseRecOn with
  | nil => exact ⟨fun e => Iff.rfl, fun l h => ⟨l, h, fun _ => Iff.rfl⟩⟩
  | append_singleton ks k ih =>
    obtain ⟨h1, h2⟩ := ih
    rw [oset_append]
    simp only [List.foldl_cons, List.foldl_nil, osetAdd, mem_oset]
    by_cases hk : k ∈ ks
    · rw [if_pos hk, channelsOf_append]
      cases hc : channelsOf ks with
      | error e0 =>
        refine ⟨fun e => ?_, fun l h => by cases h⟩
        rw [h1, hc]
      | ok l0 =>
        obtain ⟨l', h3, h4⟩ := h2 l0 hc
        obtain ⟨a, h5, h6⟩ := channelsOf_mem hc hk
        have h7 : channelsOf [k] = .ok (a ++ []) := by simp only [channelsOf, h5]
        rw [h7, h3]
        simp only [List.append_nil]
        refine ⟨fun e => ⟨fun h => (by cases h), fun h => (by cases h)⟩, fun l h => ⟨l', rfl, fun x => ?_⟩⟩
        cases h
        rw [h4]
        simp only [List.mem_append]
        exact ⟨.inl, fun h => h.elim id (h6 x)⟩
    · rw [if_neg hk, channelsOf_append, channelsOf_append]
      cases hc : channelsOf ks with
      | error e0 =>
        rw [(h1 e0).2 hc]
        exact ⟨fun e => Iff.rfl, fun l h => by cases h⟩
      | ok l0 =>
        obtain ⟨l', h3, h4⟩ := h2 l0 hc
        rw [h3]
        cases hd : channelsOf [k] with
        | error e1 => exact ⟨fun e => Iff.rfl, fun l h => by cases h⟩
        | ok b =>
          refine ⟨fun e => ⟨fun h => (by cases h), fun h => (by cases h)⟩, fun l h => ⟨l' ++ b, rfl, fun x => ?_⟩⟩
          cases h
          simp [h4]

/-- A dict built from keys is the list of the distinct keys. -/
theorem dictOf_oset {α : Type} (v : Str → α) (ks : List Str) :
    dictOf [] (ks.map (fun k => (k, v k))) = (oset ks).map (fun k => (k, v k)) := by
  induction ks using List.reverseRecOn with
  | nil => rfl
  | append_singleton ks k ih =>
    rw [List.map_append, dictOf_append, ih, oset_append]
    simp only [List.map_cons, List.map_nil, List.foldl_cons, List.foldl_nil, osetAdd]
    show dictSet _ k (v k) = _
    by_cases hk : k ∈ oset ks
    · rw [if_pos hk]
      generalize oset ks = l at hk
      induction l with
      | nil => simp at hk
      | cons a l ih2 =>
        simp only [List.map_cons, dictSet]
        by_cases e : a = k
        · subst e; rw [if_pos rfl]
        · rw [if_neg e]
          rw [ih2 ((List.mem_cons.1 hk).resolve_left (fun h => e h.symm))]
    · rw [if_neg hk, dictSet_of_not_mem _ _ _ (by simpa [Function.comp_def] using hk)]
      simp

theorem parseSlice_bar {s : Char} {v root : Str} {a b st : Int} (hv : s ∉ v)
    (h : parseSlice v = .ok (root, a, b, st)) : s ∉ root := by
  unfold parseSlice at h
  simp only [bind, Except.bind] at h
  cases hs : sliceParts v with
  | error e => rw [hs] at h; cases h
  | ok p =>
    obtain ⟨r, args⟩ := p
    rw [hs] at h
    simp only at h
    cases ha : sliceArgs args with
    | error e => rw [ha] at h; cases h
    | ok t =>
      obtain ⟨x, y, z⟩ := t
      rw [ha] at h
      simp only at h
      cases y with
      | none => cases h
      | some y =>
        simp only at h
        split at h
        · cases h
        · cases h
          unfold sliceParts at hs
          split at hs
          · next r' suf he =>
            simp only at hs
            split at hs
            · cases hs
            · cases hs
              have := splitOnce_eq_some he
              intro hm
              exact hv (by rw [this.1]; simp [hm])
          · split at hs
            · next r' suf he =>
              cases hs
              have := splitOnce_eq_some he
              intro hm
              exact hv (by rw [this.1]; simp [hm])
            · cases hs

theorem expandCode_bar {s : Char} (hs : s = '|' ∨ s = ',') {v : Str} (hv : s ∉ v) {l : List Str}
    (h : expandCode v = .ok l) : ∀ c ∈ l, s ∉ c := by
  unfold expandCode at h
  split at h
  · next l' ha =>
    cases h
    intro c hc
    unfold alias? at ha
    split at ha
    · cases ha; revert hc c; rcases hs with rfl | rfl <;> decide
    · split at ha
      · cases ha; revert hc c; rcases hs with rfl | rfl <;> decide
      · split at ha
        · cases ha; revert hc c; rcases hs with rfl | rfl <;> decide
        · split at ha
          · cases ha; revert hc c; rcases hs with rfl | rfl <;> decide
          · cases ha
  · split at h
    · simp only [bind, Except.bind] at h
      cases hp : parseSlice v with
      | error e => rw [hp] at h; cases h
      | ok r =>
        obtain ⟨root, a, b, st⟩ := r
        rw [hp] at h
        simp only at h
        cases hr : pyRange a b st with
        | error e => rw [hr] at h; cases h
        | ok is =>
          rw [hr] at h
          cases h
          intro c hc
          obtain ⟨i, -, rfl⟩ := List.mem_map.1 hc
          have hroot : s ∉ root := parseSlice_bar hv hp
          unfold dotted
          simp only [List.mem_append, List.mem_cons, not_or]
          exact ⟨hroot, by rcases hs with rfl | rfl <;> decide, intStr_not_mem (by tauto)⟩
    · cases h
      intro c hc
      simp only [List.mem_singleton] at hc
      subst hc
      exact hv

theorem normParts_bar {s : Char} (hs : s = '|' ∨ s = ',') {vs : List Str} (hv : ∀ v ∈ vs, s ∉ v) {l : List Str}
    (h : normParts vs = .ok l) : ∀ c ∈ l, s ∉ c := by
  induction vs generalizing l with
  | nil => cases h; simp
  | cons v vs ih =>
    simp only [normParts, bind, Except.bind] at h
    cases h1 : expandCode v with
    | error e => rw [h1] at h; cases h
    | ok a =>
      cases h2 : normParts vs with
      | error e => rw [h1, h2] at h; cases h
      | ok b =>
        rw [h1, h2] at h
        cases h
        intro c hc
        rcases List.mem_append.1 hc with hc | hc
        · exact expandCode_bar hs (hv v (by simp)) h1 c hc
        · exact ih (fun w hw => hv w (by simp [hw])) h2 c hc

theorem mem_dictSet {κ α : Type} [DecidableEq κ] {d : List (κ × α)} {k : κ} {v : α} {p : κ × α}
    (h : p ∈ dictSet d k v) : p = (k, v) ∨ p ∈ d := by
  induction d with
  | nil => exact .inl (by simpa [dictSet] using h)
  | cons q d ih =>
    obtain ⟨k', v'⟩ := q
    simp only [dictSet] at h
    split at h
    · rcases List.mem_cons.1 h with h | h
      · exact .inl h
      · exact .inr (List.mem_cons_of_mem _ h)
    · rcases List.mem_cons.1 h with h | h
      · exact .inr (by simp [h])
      · exact (ih h).imp id (List.mem_cons_of_mem _)

/-- Entries of a normalized spec. -/
def Entry (p : Str × Fused) : Prop := p.1 = p.2.spec ∧ p.2.isNorm = true ∧ ∀ c ∈ p.2.parsed, '|' ∉ c

theorem Entry.mem {p : Str × Fused} (h : Entry p) {x : Str} (hx : x ≠ []) :
    x ∈ p.2.parsed ↔ x ∈ splitOn '|' p.1 := by
  rw [h.1, Fused.spec]
  by_cases e : p.2.parsed = []
  · rw [e]
    simp [joinWith, splitOn, hx]
  · rw [splitOn_join e h.2.2]

theorem mapStreams_spec (ks : List Str) (hk : ∀ k ∈ ks, k ≠ []) (acc : List (Str × Fused))
    (ha : ∀ p ∈ acc, Entry p) :
    (∀ e, channelsOf ks = .error e →
      mapStreams Fused.normalize acc (ks.map (fun k => (k, (⟨splitOn '|' k, false⟩ : Fused)))) = .error e) ∧
    ∀ l, channelsOf ks = .ok l → ∃ r,
      mapStreams Fused.normalize acc (ks.map (fun k => (k, (⟨splitOn '|' k, false⟩ : Fused)))) = .ok r ∧
      (∀ p ∈ r, Entry p) ∧
      ∀ x, x ≠ [] → ((∃ k ∈ r.map Prod.fst, x ∈ splitOn '|' k) ↔
        (∃ k ∈ acc.map Prod.fst, x ∈ splitOn '|' k) ∨ x ∈ l) := by
  induction ks generalizing acc with
  | nil =>
    refine ⟨fun e h => (by cases h), fun l h => ?_⟩
    cases h
    exact ⟨acc, rfl, ha, fun x _ => by simp⟩
  | cons k ks ih =>
    have hp : Fused.parse k = ⟨splitOn '|' k, false⟩ := by
      unfold Fused.parse; rw [if_neg (hk k (by simp))]
    simp only [channelsOf, List.map_cons, mapStreams]
    rw [hp, asList_false, normalize_eq (flagSound_false _)]
    cases hn : normParts (splitOn '|' k) with
    | error e0 =>
      refine ⟨fun e h => ?_, fun l h => (by cases h)⟩
      cases h
      rfl
    | ok a =>
      have hbar : ∀ c ∈ a, '|' ∉ c := normParts_bar (.inl rfl) (fun v hv => not_mem_of_mem_splitOn hv) hn
      have hent : Entry ((⟨a, true⟩ : Fused).spec, ⟨a, true⟩) := ⟨rfl, rfl, hbar⟩
      have ha' : ∀ p ∈ dictSet acc (⟨a, true⟩ : Fused).spec ⟨a, true⟩, Entry p := by
        intro p hp'
        exact (mem_dictSet hp').elim (fun h => h ▸ hent) (ha p)
      obtain ⟨i1, i2⟩ := ih (fun k' h' => hk k' (by simp [h'])) (dictSet acc (⟨a, true⟩ : Fused).spec ⟨a, true⟩) ha'
      simp only [Except.map_ok', Except.ok_bind']
      constructor
      · intro e h
        cases hc : channelsOf ks with
        | error e1 => rw [hc] at h; cases h; exact i1 _ hc
        | ok b => rw [hc] at h; cases h
      · intro l h
        cases hc : channelsOf ks with
        | error e1 => rw [hc] at h; cases h
        | ok b =>
          rw [hc] at h
          cases h
          obtain ⟨r, r1, r2, r3⟩ := i2 b hc
          refine ⟨r, r1, r2, fun x hx => ?_⟩
          rw [r3 x hx, List.mem_append, ← or_assoc]
          refine or_congr ?_ Iff.rfl
          have hm := hent.mem hx
          constructor
          · rintro ⟨k', hk', hx'⟩
            rcases (mem_keys_dictSet _ _ _ _).1 hk' with rfl | hk'
            · exact .inr (hm.2 hx')
            · exact .inl ⟨k', hk', hx'⟩
          · rintro (⟨k', hk', hx'⟩ | hx')
            · exact ⟨k', (mem_keys_dictSet _ _ _ _).2 (.inr hk'), hx'⟩
            · exact ⟨_, (mem_keys_dictSet _ _ _ _).2 (.inl rfl), hm.1 hx'⟩

theorem flattenSpecs_norm (fs : List Fused) (h : ∀ f ∈ fs, f.isNorm = true) :
    flattenSpecs fs = .ok (fs.map Fused.parsed).flatten := by
  induction fs with
  | nil => rfl
  | cons f fs ih =>
    have e : f.asList = .ok f.parsed := by simp [Fused.asList, Fused.normalize, h f (by simp)]
    simp [flattenSpecs, e, ih (fun g hg => h g (by simp [hg]))]

/-- C65: a channel is `in` a written spec exactly if it is one of the channels of `fuse()`; if these cannot be
listed, the same exception is raised. -/
theorem C65_contains (s x : Str) (hx : x ≠ []) :
    Chan.contains ⟨s, none⟩ x = ((Chan.fuse ⟨s, none⟩).asList).map (fun l => decide (x ∈ l)) := by
  rw [fuse_channelsOf, ← channelsOf_filter]
  generalize hks : (splitOn ',' s).filter (fun k => decide (k ≠ [])) = ks
  have hp : Chan.parse ⟨s, none⟩ = (oset ks).map (fun k => (k, (⟨splitOn '|' k, false⟩ : Fused))) := by
    unfold Chan.parse
    simp only
    rw [hks]
    exact dictOf_oset _ ks
  have hne : ∀ k ∈ oset ks, k ≠ [] := by
    intro k hk
    rw [mem_oset, ← hks] at hk
    simpa using (List.mem_filter.1 hk).2
  obtain ⟨m1, m2⟩ := mapStreams_spec (oset ks) hne [] (by simp)
  obtain ⟨o1, o2⟩ := channelsOf_oset ks
  unfold Chan.contains Chan.unique Chan.normalize
  rw [hp]
  cases hc : channelsOf ks with
  | error e =>
    rw [m1 e ((o1 e).2 hc)]
    rfl
  | ok l =>
    obtain ⟨l', h1, h2⟩ := o2 l hc
    obtain ⟨r, r1, r2, r3⟩ := m2 l' h1
    rw [r1]
    simp only [Except.ok_bind', Except.map_ok']
    rw [flattenSpecs_norm _ (by
      intro f hf
      obtain ⟨p, hp, rfl⟩ := List.mem_map.1 hf
      exact (r2 p hp).2.1)]
    simp only
    congr 1
    rw [decide_eq_decide, ← h2 x]
    have := r3 x hx
    simp only [List.map_nil, List.not_mem_nil, false_and, exists_false, false_or] at this
    rw [← this]
    simp only [Chan.parse, List.mem_flatten, List.mem_map]
    constructor
    · rintro ⟨a, ⟨f, ⟨p, hp, rfl⟩, rfl⟩, hx'⟩
      exact ⟨p.1, ⟨p, hp, rfl⟩, ((r2 p hp).mem hx).1 hx'⟩
    · rintro ⟨k, ⟨p, hp, rfl⟩, hx'⟩
      exact ⟨p.2.parsed, ⟨p.2, ⟨p, hp, rfl⟩, rfl⟩, ((r2 p hp).mem hx).2 hx'⟩

example : Chan.contains ⟨p! "rgb|m.2:4,rgb,x", none⟩ (p! "m.3") = .ok true ∧
    Chan.contains ⟨p! "rgb|m.2:4,rgb,x", none⟩ (p! "rgb") = .ok false ∧
    (Chan.fuse ⟨p! "rgb|m.2:4,rgb,x", none⟩).asList =
      .ok [p! "r", p! "g", p! "b", p! "m.2", p! "m.3", p! "r", p! "g", p! "b", p! "x"] := by decide

/-- Fused specs look at the codes as they are written instead: they do not contain the channels of shorthand, and
they contain the shorthand itself. -/
theorem C65_fused_contains_violated :
    (Fused.parse (p! "rgb")).asList = .ok [p! "r", p! "g", p! "b"] ∧
    (Fused.parse (p! "rgb")).contains (p! "r") = false ∧ (Fused.parse (p! "rgb")).contains (p! "rgb") = true ∧
    Chan.contains ⟨p! "rgb", none⟩ (p! "r") = .ok true ∧ Chan.contains ⟨p! "rgb", none⟩ (p! "rgb") = .ok false := by
  decide

/-- For fused specs without shorthand the two agree. -/
theorem C65_fused_contains_partial (f : Fused) (hf : FlagSound f) (h : ∀ c ∈ f.parsed, alias? c = none ∧ ':' ∉ c)
    (x : Str) : f.asList.map (fun l => decide (x ∈ l)) = .ok (f.contains x) := by
  have hn : ∀ c ∈ f.parsed, needsNorm c = false := by
    intro c hc
    simp [needsNorm, h c hc]
  rw [asList_eq hf, normParts_of_not_needs hn]
  rfl

example : (Fused.parse (p! "r|m.2")).contains (p! "m.2") = true ∧
    (Fused.parse (p! "r|m.2")).asList = .ok [p! "r", p! "m.2"] := by decide

/-! ### C65: splitting -/

theorem mem_join_of_mem {s c : Char} {ws : List Str} {w : Str} (hw : w ∈ ws) (hc : c ∈ w) : c ∈ joinWith s ws := by
  induction ws with
  | nil => simp at hw
  | cons x ws ih =>
    cases ws with
    | nil =>
      simp only [List.mem_singleton] at hw
      subst hw
      exact hc
    | cons y ws =>
      simp only [joinWith, List.mem_append, List.mem_cons]
      rcases List.mem_cons.1 hw with rfl | hw
      · exact .inl hc
      · exact .inr (.inr (ih hw))

theorem splitLoop_ok (ss : List Fused) (lss : List (List Str)) (h : ss.map Fused.asList = lss.map .ok) :
    splitLoop ss = .ok (lss.map (joinWith ',')) := by
  induction ss generalizing lss with
  | nil => cases lss <;> simp at h; rfl
  | cons f ss ih =>
    cases lss with
    | nil => simp at h
    | cons l lss =>
      simp only [List.map_cons, List.cons.injEq] at h
      simp only [splitLoop, Fused.split, h.1, ih lss h.2, List.map_cons]

theorem joinWith_append (c : Char) {a b : List Str} (ha : a ≠ []) (hb : b ≠ []) :
    joinWith c (a ++ b) = joinWith c a ++ c :: joinWith c b := by
  induction a with
  | nil => exact absurd rfl ha
  | cons x a ih =>
    cases a with
    | nil =>
      cases b with
      | nil => exact absurd rfl hb
      | cons y b => simp [joinWith]
    | cons x' a =>
      have := ih (by simp)
      simp only [List.cons_append] at this ⊢
      simp [joinWith, this]

theorem join_join (c : Char) (lss : List (List Str)) (h : ∀ l ∈ lss, l ≠ []) :
    joinWith c (lss.map (joinWith c)) = joinWith c lss.flatten := by
  induction lss with
  | nil => rfl
  | cons l lss ih =>
    cases lss with
    | nil => simp [joinWith]
    | cons l' lss =>
      have e := ih (fun x hx => h x (by simp [hx]))
      have hl' : (l' :: lss).flatten ≠ [] := by
        have := h l' (by simp)
        simp [this]
      rw [List.flatten_cons, joinWith_append c (h l (by simp)) hl', ← e]
      simp [joinWith]

theorem toFinset_card_oset (l : List Str) : l.toFinset.card = (oset l).length := by
  have h : l.toFinset = (oset l).toFinset := by
    ext x
    simp [mem_oset]
  rw [h, List.toFinset_card_of_nodup (nodup_oset l)]

/-- C65: `split()` lists every channel of every stream as a stream of its own, in order.  It has as many channels as
there are distinct ones, the same fused channels, and splitting again changes nothing. -/
theorem C65_split_partial (s : Str) (lss : List (List Str))
    (hl : (Chan.streams ⟨s, none⟩).map Fused.asList = lss.map .ok) (hne : ∀ l ∈ lss, l ≠ [] ∧ [] ∉ l) :
    ∃ t, Chan.split ⟨s, none⟩ = .ok t ∧ t.streams.map Fused.parsed = lss.flatten.map (fun c => [c]) ∧
      t.numel = .ok lss.flatten.toFinset.card ∧ t.fuse.asList = .ok lss.flatten ∧ t.split = .ok t := by
  -- the channels
  have hcode : ∀ c ∈ lss.flatten, c ≠ [] ∧ '|' ∉ c ∧ ',' ∉ c ∧ needsNorm c = false := by
    intro c hc
    obtain ⟨l, hlm, hcl⟩ := List.mem_flatten.1 hc
    have h1 : (Except.ok l : Py (List Str)) ∈ lss.map .ok := List.mem_map.2 ⟨l, hlm, rfl⟩
    rw [← hl] at h1
    obtain ⟨f, hf, hfl⟩ := List.mem_map.1 h1
    obtain ⟨k, hk, rfl⟩ := List.mem_map.1 hf
    rw [parse_asList] at hfl
    have hparts : ∀ v ∈ (Fused.parse k).parsed, '|' ∉ v ∧ ',' ∉ v := by
      intro v hv
      unfold Fused.parse at hv
      split at hv
      · simp at hv
      · refine ⟨not_mem_of_mem_splitOn hv, fun hm => ?_⟩
        have hkc : ',' ∉ k := not_mem_of_mem_splitOn hk
        exact hkc (by rw [← join_splitOn '|' k]; exact mem_join_of_mem hv hm)
    refine ⟨fun e => (hne l hlm).2 (e ▸ hcl), normParts_bar (.inl rfl) (fun v hv => (hparts v hv).1) hfl c hcl,
      normParts_bar (.inr rfl) (fun v hv => (hparts v hv).2) hfl c hcl, normParts_needs hfl c hcl⟩
  have hss : lss ≠ [] := by
    rintro rfl
    have : (Chan.streams ⟨s, none⟩) = [] := by simpa using hl
    unfold Chan.streams Chan.keys at this
    exact splitOn_ne_nil ',' s (by simpa using this)
  have hflat : lss.flatten ≠ [] := by
    cases lss with
    | nil => exact absurd rfl hss
    | cons l lss => simp [(hne l (by simp)).1]
  generalize hF : lss.flatten = F at *
  have hso : ∀ g ∈ F.map (fun c => [c]), StreamOk g := by
    intro g hg
    obtain ⟨c, hc, rfl⟩ := List.mem_map.1 hg
    obtain ⟨h1, h2, h3, -⟩ := hcode c hc
    exact ⟨by simp, by simpa using h1, by simpa using h2, by simpa using h3⟩
  have hne' : F.map (fun c => [c]) ≠ [] := by simpa using hflat
  have hspec : specOf (F.map (fun c => [c])) = joinWith ',' F := by
    unfold specOf
    rw [List.map_map]
    congr 1
    conv => rhs; rw [← List.map_id F]
    apply List.map_congr_left
    intro c _
    rfl
  have hsplit : Chan.split ⟨s, none⟩ = .ok ⟨joinWith ',' F, none⟩ := by
    unfold Chan.split
    rw [splitLoop_ok _ lss hl]
    simp only
    rw [join_join ',' lss (fun l h => (hne l h).1), hF]
  have hstr : Chan.streams ⟨joinWith ',' F, none⟩ = F.map (fun c => (⟨[c], false⟩ : Fused)) := by
    rw [← hspec, streams_specOf hne' hso, List.map_map]
    rfl
  have hasl : ∀ c ∈ F, Fused.asList ⟨[c], false⟩ = .ok [c] := by
    intro c hc
    rw [asList_false]
    exact normParts_of_not_needs (by simpa using (hcode c hc).2.2.2)
  refine ⟨⟨joinWith ',' F, none⟩, hsplit, ?_, ?_, ?_, ?_⟩
  · rw [hstr, List.map_map]
    rfl
  · have hp : Chan.parse ⟨joinWith ',' F, none⟩ = (oset F).map (fun c => (c, (⟨[c], false⟩ : Fused))) := by
      unfold Chan.parse
      simp only
      rw [splitOn_join hflat (fun c hc => (hcode c hc).2.2.1), List.filter_eq_self.2 (by
        intro c hc
        simpa using (hcode c hc).1), dictOf_oset]
      apply List.map_congr_left
      intro c hc
      rw [splitOn_of_not_mem (hcode c (mem_oset.1 hc)).2.1]
    unfold Chan.numel Chan.sizes
    rw [hp, toFinset_card_oset]
    have : ∀ l : List Str, (∀ c ∈ l, needsNorm c = false) →
        Chan.sizesLoop (l.map (fun c => (c, (⟨[c], false⟩ : Fused)))) = .ok (l.map (fun c => (c, 1))) := by
      intro l hl
      induction l with
      | nil => rfl
      | cons c l ih =>
        have h1 : Fused.numel ⟨[c], false⟩ = .ok 1 := by
          simp [Fused.numel, Fused.sizes, Fused.sizesLoop, codeSize_eq, expandCode_of_not_needs (hl c (by simp))]
        simp [Chan.sizesLoop, h1, ih (fun x hx => hl x (by simp [hx]))]
    rw [this _ (fun c hc => (hcode c (mem_oset.1 hc)).2.2.2)]
    simp [Function.comp_def]
  · rw [← hspec, fuse_specOf hne' hso, asList_false]
    have : (F.map (fun c => [c])).flatten = F := by simp [← List.flatMap_def]
    rw [this]
    exact normParts_of_not_needs (fun c hc => (hcode c hc).2.2.2)
  · unfold Chan.split
    rw [hstr, splitLoop_ok _ (F.map (fun c => [c])) (by
      rw [List.map_map, List.map_map]
      apply List.map_congr_left
      intro c hc
      exact hasl c hc)]
    simp only
    congr 2
    rw [join_join ',' _ (by simp)]
    simp [← List.flatMap_def]

example : Chan.split ⟨p! "rgb|m.2:4,r,x", none⟩ = .ok ⟨p! "r,g,b,m.2,m.3,r,x", none⟩ ∧
    (Chan.streams ⟨p! "rgb|m.2:4,r,x", none⟩).map Fused.asList =
      [[p! "r", p! "g", p! "b", p! "m.2", p! "m.3"], [p! "r"], [p! "x"]].map .ok ∧
    Chan.numel ⟨p! "r,g,b,m.2,m.3,r,x", none⟩ = .ok 6 := by decide

/-- Channels without a name are lost: the stream `|a` has two channels, splitting gives an empty stream and `a`. -/
theorem C65_split_violated :
    (Chan.fuse ⟨p! "|a", none⟩).asList = .ok [[], p! "a"] ∧ Chan.split ⟨p! "|a", none⟩ = .ok ⟨p! ",a", none⟩ ∧
    Chan.numel ⟨p! "|a", none⟩ = .ok 2 ∧ Chan.numel ⟨p! ",a", none⟩ = .ok 1 := by decide

/-! ### C66 -/

theorem dictGet_fun {α : Type} (v : List Str → α) {ss : List (List Str)} (hok : ∀ g ∈ ss, StreamOk g) {g : List Str}
    (hg : g ∈ ss) : dictGet (ss.map (fun g => (joinWith '|' g, v g))) (joinWith '|' g) = some (v g) :=
  dictGet_map_key hok v hg

/-- C66: the shapes of the items name every code once, with its number of channels first and the given dimensions
after it. -/
theorem C66_shapes (ss : List (List Str)) (size : Str → Nat) (dims : List Nat) (hne : ss ≠ [])
    (hok : ∀ g ∈ ss, StreamOk g) (hnd : ss.Nodup)
    (hsize : ∀ g ∈ ss, ∀ c ∈ g, Fused.numel ⟨[c], false⟩ = .ok (size c)) :
    ∃ d, Chan.itemShapes ⟨specOf ss, none⟩ dims = .ok d ∧ (d.map Prod.fst).Nodup ∧
      ∀ c sh, (c, sh) ∈ d ↔ (∃ g ∈ ss, c ∈ g) ∧ sh = size c :: dims := by
  have hcs : ∀ g ∈ ss, ∀ c ∈ g, codeSize c = .ok (size c) := by
    intro g hg c hc
    have := hsize g hg c hc
    simp only [Fused.numel, Fused.sizes, Bool.false_eq_true, if_false, Fused.sizesLoop] at this
    cases h : codeSize c with
    | error e => rw [h] at this; cases this
    | ok n => rw [h] at this; simpa [Except.map] using this
  have key : ∀ ks : List (List Str), (∀ g ∈ ks, g ∈ ss) →
      shapesLoop (ss.map (fun g => (joinWith '|' g, (⟨g, false⟩ : Fused)))) dims (ks.map (joinWith '|')) =
        .ok (ks.flatten.map (fun c => (c, size c :: dims))) := by
    intro ks hks
    induction ks with
    | nil => rfl
    | cons g ks ih =>
      have hg := hks g (by simp)
      simp only [List.map_cons, shapesLoop, dictGet_fun (fun g => (⟨g, false⟩ : Fused)) hok hg, Fused.sizes,
        Bool.false_eq_true, if_false, sizesLoop_ok (hcs g hg), ih (fun x hx => hks x (by simp [hx])),
        zip_map_self, List.map_map, List.flatten_cons, List.map_append]
      rfl
  refine ⟨(oset ss.flatten).map (fun c => (c, size c :: dims)), ?_, ?_, ?_⟩
  · unfold Chan.itemShapes
    have hk : Chan.keys ⟨specOf ss, none⟩ = ss.map (joinWith '|') := splitOn_specOf hne hok
    rw [parse_specOf hne hok hnd, hk, key ss (fun _ h => h)]
    simp only
    rw [dictOf_oset]
  · simpa [Function.comp_def] using nodup_oset ss.flatten
  · intro c sh
    simp only [List.mem_map, mem_oset, List.mem_flatten, Prod.mk.injEq]
    constructor
    · rintro ⟨a, ⟨g, hg, ha⟩, rfl, rfl⟩
      exact ⟨⟨g, hg, ha⟩, rfl⟩
    · rintro ⟨⟨g, hg, hc⟩, rfl⟩
      exact ⟨c, ⟨g, hg, hc⟩, rfl, rfl⟩

/-- C66: arrays of these shapes are what `encode` expects: it accepts them, and the arrays it returns have the
announced sizes.  Missing: codes that a stream repeats, codes without a name and codes without channels, see C10. -/
theorem C66_encode_partial {α : Type} [DecidableEq α] (ss : List (List Str)) (size : Str → Nat) (dims : List Nat)
    (hne : ss ≠ []) (hok : ∀ g ∈ ss, StreamOk g) (hnd : ss.Nodup)
    (hsize : ∀ g ∈ ss, ∀ c ∈ g, Fused.numel ⟨[c], false⟩ = .ok (size c) ∧ size c ≠ 0 ∧ c ≠ [])
    (hdist : ∀ g ∈ ss, g.Nodup) (item : List (Str × List α))
    (hitem : Chan.itemShapes ⟨specOf ss, none⟩ dims = .ok (item.map (fun p => (p.1, p.2.length :: dims)))) :
    ∃ arrs, Chan.encode ⟨specOf ss, none⟩ item = .ok arrs ∧
      Chan.sizes ⟨specOf ss, none⟩ = .ok (arrs.map (fun p => (p.1, p.2.length))) := by
  obtain ⟨d, hd, hdn, hdm⟩ := C66_shapes ss size dims hne hok hnd (fun g hg c hc => (hsize g hg c hc).1)
  rw [hitem] at hd
  cases hd
  have hkeys : (item.map Prod.fst).Nodup := by simpa [Function.comp_def] using hdn
  have hlen : ∀ p ∈ item, (∃ g ∈ ss, p.1 ∈ g) ∧ p.2.length = size p.1 := by
    intro p hp
    have := (hdm p.1 (p.2.length :: dims)).1 (List.mem_map.2 ⟨p, hp, rfl⟩)
    exact ⟨this.1, by simpa using this.2⟩
  have hget : ∀ p ∈ item, dictGet item p.1 = some p.2 := fun p hp => dictGet_of_mem_nodup hkeys hp
  have hmem : ∀ g ∈ ss, ∀ c ∈ g, ∃ a, (c, a) ∈ item := by
    intro g hg c hc
    have := (hdm c (size c :: dims)).2 ⟨⟨g, hg, hc⟩, rfl⟩
    obtain ⟨p, hp, e⟩ := List.mem_map.1 this
    simp only [Prod.mk.injEq] at e
    exact ⟨p.2, by rw [← e.1]; exact hp⟩
  let comp : Str → List α := fun c => (dictGet item c).getD []
  have hcomp : ∀ p ∈ item, comp p.1 = p.2 := by
    intro p hp
    show (dictGet item p.1).getD [] = p.2
    rw [hget p hp]
    rfl
  have hclen : ∀ g ∈ ss, ∀ c ∈ g, (comp c).length = size c := by
    intro g hg c hc
    obtain ⟨a, ha⟩ := hmem g hg c hc
    rw [hcomp (c, a) ha]
    exact (hlen _ ha).2
  have hitemOf : itemOf (item.map (fun p => [p.1])) comp = item := by
    unfold itemOf
    rw [List.map_map]
    conv => rhs; rw [← List.map_id item]
    apply List.map_congr_left
    intro p hp
    simp [joinWith, hcomp p hp]
  have hine : item ≠ [] := by
    rintro rfl
    cases ss with
    | nil => exact hne rfl
    | cons g ss =>
      have hg := (hok g (by simp)).ne
      cases g with
      | nil => exact hg rfl
      | cons c g =>
        obtain ⟨a, ha⟩ := hmem (c :: g) (by simp) c (by simp)
        simp at ha
  have henc := C10_encode_partial (item.map (fun p => [p.1])) ss comp (by simpa using hine)
    (by
      intro g hg
      obtain ⟨p, hp, rfl⟩ := List.mem_map.1 hg
      obtain ⟨⟨g', hg', hc⟩, -⟩ := hlen p hp
      have h1 := hok g' hg'
      exact ⟨by simp, by simpa using (hsize g' hg' _ hc).2.2, by simpa using h1.pipe _ hc,
        by simpa using h1.comma _ hc⟩)
    (by
      intro g hg c hc
      obtain ⟨p, hp, rfl⟩ := List.mem_map.1 hg
      simp only [List.mem_singleton] at hc
      subst hc
      obtain ⟨⟨g', hg', hc⟩, hl⟩ := hlen p hp
      rw [(hsize g' hg' _ hc).1, hcomp p hp, hl])
    hne hok hnd
    (by
      intro g hg c hc
      obtain ⟨a, ha⟩ := hmem g hg c hc
      exact ⟨[c], List.mem_map.2 ⟨(c, a), ha, rfl⟩, by simp⟩)
    hdist
    (by
      intro g hg c hc e
      have := hclen g hg c hc
      rw [e] at this
      exact (hsize g hg c hc).2.1 this.symm)
  rw [hitemOf] at henc
  refine ⟨_, henc, ?_⟩
  have hcs : ∀ g ∈ ss, ∀ c ∈ g, codeSize c = .ok (size c) := by
    intro g hg c hc
    have := (hsize g hg c hc).1
    simp only [Fused.numel, Fused.sizes, Bool.false_eq_true, if_false, Fused.sizesLoop] at this
    cases h : codeSize c with
    | error e => rw [h] at this; cases this
    | ok n => rw [h] at this; simpa [Except.map] using this
  unfold Chan.sizes
  rw [parse_specOf hne hok hnd, List.map_map]
  have : ∀ ks : List (List Str), (∀ g ∈ ks, g ∈ ss) →
      Chan.sizesLoop (ks.map (fun g => (joinWith '|' g, (⟨g, false⟩ : Fused)))) =
        .ok (ks.map (fun g => (joinWith '|' g, ((g.map comp).flatten).length))) := by
    intro ks hks
    induction ks with
    | nil => rfl
    | cons g ks ih =>
      have hg := hks g (by simp)
      have h1 : Fused.numel ⟨g, false⟩ = .ok ((g.map comp).flatten).length := by
        have e : g.map size = g.map (fun c => (comp c).length) :=
          List.map_congr_left (fun c hc => (hclen g hg c hc).symm)
        simp [Fused.numel, Fused.sizes, sizesLoop_ok (hcs g hg), List.length_flatten, e, Function.comp_def]
      simp [Chan.sizesLoop, h1, ih (fun x hx => hks x (by simp [hx]))]
  rw [this ss (fun _ h => h)]
  rfl

example : Chan.itemShapes ⟨p! "rgb|x,m:2|x", none⟩ [4, 5] =
      .ok [(p! "rgb", [3, 4, 5]), (p! "x", [1, 4, 5]), (p! "m:2", [2, 4, 5])] ∧
    Chan.encode ⟨p! "rgb|x,m:2|x", none⟩ [(p! "rgb", [1, 2, 3]), (p! "x", [4]), (p! "m:2", [5, 6])] =
      .ok [(p! "rgb|x", [1, 2, 3, 4]), (p! "m:2|x", [5, 6, 4])] := by decide

/-- A spec with an empty stream has no shapes. -/
theorem C66_empty_stream_violated :
    Chan.itemShapes ⟨p! "a,", none⟩ [4, 5] = .error .keyError ∧ Chan.numel ⟨p! "a,", none⟩ = .ok 1 := by decide

end Verif.Props
