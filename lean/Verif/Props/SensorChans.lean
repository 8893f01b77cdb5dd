/-
Property theorems about the conversions between channel specs and sensor-channel specs (C71).
-/
import Verif.SensorChans
import Verif.Props.SensorChan
import Verif.Props.Chan

set_option linter.unusedSimpArgs false
set_option linter.unusedVariables false

namespace Verif
namespace Props
open SC Fused Chan

/-! ### the two readings of one code -/

theorem normParts_slice {r : Str} (hr : isIden r = true) (a b : Int) :
    normParts (sliceCodes r a b) = .ok (sliceCodes r a b) := by
  apply normParts_of_not_needs
  intro v hv
  obtain ⟨i, _, rfl⟩ := List.mem_map.1 hv
  exact needsNorm_dotted (isIden_not_mem hr (by simp [special])) i

theorem isInt_ne_nil {s : Str} (h : isInt s = true) : s ≠ [] := by
  simp only [isInt, Bool.and_eq_true, decide_eq_true_eq] at h
  exact h.1

theorem expandCode_slice {v r : Str} {args : List Str} {i j : Int} (hv : ':' ∈ v) (hr : isIden r = true)
    (hp : sliceParts v = .ok (r, args)) (ha : sliceArgs args = .ok (i, some j, 1)) :
    expandCode v = .ok (sliceCodes r i j) := by
  have h1 : '.' ∉ r := isIden_not_mem hr (by simp [special])
  have h2 : ':' ∉ r := isIden_not_mem hr (by simp [special])
  unfold expandCode
  rw [alias_none_of_mem hv (.inr rfl)]
  simp only [hv, if_true, parseSlice, hp, ha, Except.ok_bind', h1, h2, or_self, if_false, pyRange]
  rfl

/-- A code of the grammar expands as `FusedChannelSpec` expands it. -/
theorem codeOf_expand {s : Str} {l : List Str} (h : codeOf s = .ok l) : normParts l = expandCode s := by
  unfold codeOf at h
  split at h
  · next r suf hsp =>
    have hsp' := hsp
    obtain ⟨rfl, hr⟩ := splitOnce_eq_some hsp
    have hj := join_splitOn ':' suf
    split at h
    · next hir =>
      split at h
      · next a hs =>
        rw [hs] at hj
        simp only [joinWith] at hj
        subst hj
        split at h
        · cases h
          exact normParts_single _
        · cases h
      · next a b hs =>
        rw [hs] at hj
        simp only [joinWith] at hj
        subst hj
        split at h
        · next hi =>
          rw [Bool.and_eq_true] at hi
          obtain ⟨n, hn⟩ := pyInt_isInt hi.1
          obtain ⟨m, hm⟩ := pyInt_isInt hi.2
          rw [hn, hm] at h
          cases h
          rw [normParts_slice hir]
          refine (expandCode_slice (args := [a, b]) (by simp) hir ?_ ?_).symm
          · simp [sliceParts, hsp', hs]
          · simp [sliceArgs, intOr, intOrNone, isInt_ne_nil hi.1, isInt_ne_nil hi.2, hn, hm, Except.map]
        · cases h
      · cases h
    · cases h
  · next hsp =>
    have hj := join_splitOn ':' s
    split at h
    · next r hs =>
      rw [hs] at hj
      simp only [joinWith] at hj
      subst hj
      split at h
      · cases h
        exact normParts_single _
      · cases h
    · next r b hs =>
      rw [hs] at hj
      simp only [joinWith] at hj
      subst hj
      split at h
      · next hi =>
        rw [Bool.and_eq_true] at hi
        obtain ⟨m, hm⟩ := pyInt_isInt hi.2
        rw [hm] at h
        cases h
        have hc : ':' ∉ r := isIden_not_mem hi.1 (by simp [special])
        rw [normParts_slice hi.1]
        refine (expandCode_slice (args := [b]) (by simp) hi.1 ?_ ?_).symm
        · simp [sliceParts, hsp, splitOnce_append hc,
            splitOn_of_not_mem (isInt_not_mem hi.2 (c := ':') (by simp [special]))]
        · simp [sliceArgs, hm]
      · cases h
    · next r a b hs =>
      rw [hs] at hj
      simp only [joinWith] at hj
      subst hj
      split at h
      · next hi =>
        rw [Bool.and_eq_true, Bool.and_eq_true] at hi
        obtain ⟨n, hn⟩ := pyInt_isInt hi.1.2
        obtain ⟨m, hm⟩ := pyInt_isInt hi.2
        rw [hn, hm] at h
        cases h
        have hc : ':' ∉ r := isIden_not_mem hi.1.1 (by simp [special])
        rw [normParts_slice hi.1.1]
        refine (expandCode_slice (args := [a, b]) (by simp) hi.1.1 ?_ ?_).symm
        · simp [sliceParts, hsp, splitOnce_append hc,
            splitOn_append_sep (isInt_not_mem hi.1.2 (c := ':') (by simp [special])),
            splitOn_of_not_mem (isInt_not_mem hi.2 (c := ':') (by simp [special]))]
        · simp [sliceArgs, intOr, intOrNone, isInt_ne_nil hi.1.2, isInt_ne_nil hi.2, hn, hm, Except.map]
      · cases h
    · cases h

theorem codes_expand {ps l : List Str} (h : flatMapM codeOf ps = .ok l) : normParts l = normParts ps := by
  induction ps generalizing l with
  | nil => cases h; rfl
  | cons p ps ih =>
    simp only [flatMapM] at h
    rw [Except.bind_eq_ok'] at h
    obtain ⟨u, hu, h⟩ := h
    rw [Except.bind_eq_ok'] at h
    obtain ⟨v, hv, h⟩ := h
    cases h
    rw [normParts_append, codeOf_expand hu, ih hv]
    rfl

/-! ### text that looks like a sensor is no channel -/

theorem strip_cons {c : Char} {cs : Str} (h : isWs c = false) : ∃ t, strip (c :: cs) = c :: t := by
  unfold strip
  rw [List.dropWhile_cons_of_neg (by simp [h])]
  have : ∀ l : Str, ∃ m, (l ++ [c]).dropWhile isWs = m ++ [c] := by
    intro l
    induction l with
    | nil => exact ⟨[], by simp [List.dropWhile, h]⟩
    | cons x xs ih =>
      obtain ⟨m, hm⟩ := ih
      by_cases hx : isWs x = true
      · exact ⟨m, by simp [List.dropWhile_cons, hx, hm]⟩
      · exact ⟨x :: xs, by simp [List.dropWhile_cons, hx]⟩
  obtain ⟨m, hm⟩ := this cs.reverse
  exact ⟨m.reverse, by simp [hm]⟩

theorem idenStart_not_ws {c : Char} (h : idenStart c = true) : isWs c = false := by
  cases hw : isWs c with
  | false => rfl
  | true =>
    exfalso
    simp only [idenStart, isLetter, Bool.or_eq_true, decide_eq_true_eq] at h
    simp only [isWs, Bool.or_eq_true, decide_eq_true_eq] at hw
    rcases hw with ((((rfl | rfl) | rfl) | rfl) | hw) | hw
    · exact absurd h (by decide)
    · exact absurd h (by decide)
    · exact absurd h (by decide)
    · exact absurd h (by decide)
    · rcases h with (rfl | rfl) | h
      · exact absurd hw (by decide)
      · exact absurd hw (by decide)
      · omega
    · rcases h with (rfl | rfl) | h
      · exact absurd hw (by decide)
      · exact absurd hw (by decide)
      · omega

/-- `int` refuses what begins like an identifier. -/
theorem pyInt_iden {c : Char} {cs : Str} (h : idenStart c = true) : pyInt (c :: cs) = .error .valueError := by
  obtain ⟨t, ht⟩ := strip_cons (cs := cs) (idenStart_not_ws h)
  have h1 : c ≠ '-' := by rintro rfl; exact absurd h (by decide)
  have h2 : c ≠ '+' := by rintro rfl; exact absurd h (by decide)
  have hd : digitVal? c = none := by
    have := idenStart_not_digit h
    simp only [isDigit, decide_eq_false_iff_not] at this
    simp [digitVal?, this]
  unfold pyInt
  rw [ht]
  split
  · next h' => simp only [List.cons.injEq] at h'; exact absurd h'.1 h1
  · next h' => simp only [List.cons.injEq] at h'; exact absurd h'.1 h2
  · simp [parseNat?, hd]

theorem pyInt_nil : pyInt [] = .error .valueError := by decide

theorem sliceArgs_iden {w : Str} (h : w = [] ∨ ∃ c cs, w = c :: cs ∧ idenStart c = true) :
    ∃ e, sliceArgs (splitOn ':' w) = .error e := by
  rcases h with rfl | ⟨c, cs, rfl, hc⟩
  · exact ⟨.valueError, by decide⟩
  · have hcol : c ≠ ':' := by rintro rfl; exact absurd hc (by decide)
    have hx : ∃ x xs, splitOn ':' (c :: cs) = (c :: x) :: xs := by
      rw [splitOn, if_neg hcol]
      cases hs : splitOn ':' cs with
      | nil => exact absurd hs (splitOn_ne_nil _ _)
      | cons w ws => exact ⟨w, ws, rfl⟩
    obtain ⟨x, xs, hx⟩ := hx
    rw [hx]
    refine ⟨.valueError, ?_⟩
    match xs with
    | [] => simp [sliceArgs, pyInt_iden hc]
    | [_] => simp [sliceArgs, intOr, pyInt_iden hc]
    | [_, _] => simp [sliceArgs, intOr, pyInt_iden hc]
    | _ :: _ :: _ :: _ => rfl

/-- A sensor followed by a channel, read as one code, is malformed. -/
theorem expandCode_sense {a w : Str} (ha : isIden a = true)
    (hw : w = [] ∨ ∃ c cs, w = c :: cs ∧ idenStart c = true) : ∃ e, expandCode (a ++ ':' :: w) = .error e := by
  have hm : ':' ∈ a ++ ':' :: w := by simp
  have hc : ':' ∉ a := isIden_not_mem ha (by simp [special])
  have hdot : '.' ∉ a := isIden_not_mem ha (by simp [special])
  cases he : expandCode (a ++ ':' :: w) with
  | error e => exact ⟨e, rfl⟩
  | ok l =>
    exfalso
    unfold expandCode at he
    rw [alias_none_of_mem hm (.inr rfl)] at he
    simp only [hm, if_true] at he
    rw [Except.bind_eq_ok'] at he
    obtain ⟨⟨r, i, j, s⟩, hp, _⟩ := he
    have hroot := (parseSlice_root hp).2
    unfold parseSlice at hp
    rw [Except.bind_eq_ok'] at hp
    obtain ⟨⟨root, args⟩, h1, hp⟩ := hp
    rw [Except.bind_eq_ok'] at hp
    obtain ⟨⟨st, sp, stp⟩, h2, hp⟩ := hp
    have hr : root = r := by
      simp only at hp
      split at hp
      · cases hp
      · split at hp
        · cases hp
        · cases hp; rfl
    subst hr
    unfold sliceParts at h1
    split at h1
    · next root' suf hsp =>
      simp only at h1
      split at h1
      · cases h1
      · cases h1
        obtain ⟨e, hn⟩ := splitOnce_eq_some hsp
        -- the dot comes after the colon
        rcases List.append_eq_append_iff.1 e with ⟨m, rfl, e2⟩ | ⟨m, rfl, e2⟩
        · cases m with
          | nil => simp at e2
          | cons x xs =>
            simp only [List.cons_append, List.cons.injEq] at e2
            exact hroot (by rw [← e2.1]; simp)
        · cases m with
          | nil => simp at e2
          | cons x xs =>
            simp only [List.cons_append, List.cons.injEq] at e2
            exact hdot (by rw [e2.1]; simp)
    · rw [splitOnce_append hc] at h1
      cases h1
      obtain ⟨e, he⟩ := sliceArgs_iden hw
      rw [he] at h2
      cases h2

theorem splitOn_prefix {s : Char} {p t w : Str} {ws : List Str} (hp : s ∉ p) (h : splitOn s t = w :: ws) :
    splitOn s (p ++ t) = (p ++ w) :: ws := by
  induction p with
  | nil => exact h
  | cons x xs ih =>
    have hx : x ≠ s := fun e => hp (by simp [e])
    rw [List.cons_append, splitOn, if_neg hx, ih (fun hm => hp (by simp [hm]))]
    rfl

theorem codeOf_start {s : Str} {l : List Str} (h : codeOf s = .ok l) :
    ∃ c cs, s = c :: cs ∧ idenStart c = true := by
  cases s with
  | nil => rw [show codeOf [] = .error .generic by decide] at h; cases h
  | cons c cs =>
    refine ⟨c, cs, rfl, ?_⟩
    have key : ∀ (r t : Str), isIden r = true → c :: cs = r ++ t → idenStart c = true := by
      intro r t hr e
      obtain ⟨x, xs, rfl, hx⟩ := isIden_cons hr
      simp only [List.cons_append, List.cons.injEq] at e
      rw [e.1]; exact hx
    unfold codeOf at h
    split at h
    · next r suf hsp =>
      obtain ⟨e, _⟩ := splitOnce_eq_some hsp
      split at h
      · next hir => exact key r _ hir e
      · cases h
    · have hj := join_splitOn ':' (c :: cs)
      split at h
      · next r hs =>
        rw [hs] at hj
        simp only [joinWith] at hj
        split at h
        · next hir => exact key r [] hir (by simp [hj])
        · cases h
      · next r b hs =>
        rw [hs] at hj
        simp only [joinWith] at hj
        split at h
        · next hi => rw [Bool.and_eq_true] at hi; exact key r _ hi.1 hj.symm
        · cases h
      · next r a b hs =>
        rw [hs] at hj
        simp only [joinWith] at hj
        split at h
        · next hi => rw [Bool.and_eq_true, Bool.and_eq_true] at hi; exact key r _ hi.1.1 hj.symm
        · cases h
      · cases h

/-- One stream, read by both classes. -/
theorem parseItem_alike {t : Str} {ns : List (Str × List Str)} {l : List Str} (hp : '(' ∉ t)
    (h : parseItem t = .ok ns) (hl : normParts (splitOn '|' t) = .ok l) :
    ∃ cs, ns = [(p! "*", cs)] ∧ normParts cs = .ok l := by
  have plain : ∀ f, fusedOf t = .ok f → ns = product [p! "*"] [f] →
      ∃ cs, ns = [(p! "*", cs)] ∧ normParts cs = .ok l := by
    intro f hf e
    refine ⟨f, by simpa [product] using e, ?_⟩
    rw [codes_expand hf]
    exact hl
  unfold parseItem at h
  split at h
  · exact absurd (by simp) hp
  · split at h
    · next a rhs hsp =>
      obtain ⟨rfl, hc⟩ := splitOnce_eq_some hsp
      split at h
      · next hi =>
        exfalso
        rw [Bool.and_eq_true] at hi
        rw [Except.bind_eq_ok'] at h
        obtain ⟨r, hr, -⟩ := h
        have hbar : '|' ∉ a ++ [':'] := by
          simp [isIden_not_mem hi.1 (c := '|') (by simp [special])]
        obtain ⟨w, ws, hw, hst⟩ : ∃ w ws, splitOn '|' rhs = w :: ws ∧
            (w = [] ∨ ∃ c cs, w = c :: cs ∧ idenStart c = true) := by
          unfold parseRhsOpt at hr
          split at hr
          · next e => subst e; exact ⟨[], [], rfl, .inl rfl⟩
          · unfold parseRhs at hr
            split at hr
            · exact absurd (by simp) hp
            · rw [Except.bind_eq_ok'] at hr
              obtain ⟨f, hf, -⟩ := hr
              cases hs : splitOn '|' rhs with
              | nil => exact absurd hs (splitOn_ne_nil _ _)
              | cons w ws =>
                unfold fusedOf at hf
                rw [hs] at hf
                obtain ⟨y, hy, _⟩ := flatMapM_ok_mem hf w (by simp)
                exact ⟨w, ws, rfl, .inr (codeOf_start hy)⟩
        have := splitOn_prefix hbar hw
        simp only [List.append_assoc, List.singleton_append] at this
        rw [this] at hl
        obtain ⟨e, he⟩ := expandCode_sense hi.1 hst
        simp [normParts, he] at hl
      · rw [Except.bind_eq_ok'] at h
        obtain ⟨f, hf, h⟩ := h
        cases h
        exact plain f hf rfl
    · rw [Except.bind_eq_ok'] at h
      obtain ⟨f, hf, h⟩ := h
      cases h
      exact plain f hf rfl

theorem splitTop_plain {s : Str} (h : '(' ∉ s) : splitTop 0 s = splitOn ',' s := by
  induction s with
  | nil => rfl
  | cons c cs ih =>
    have hc : c ≠ '(' := fun e => h (by simp [e])
    have ih := ih (fun hm => h (by simp [hm]))
    by_cases hcc : c = ','
    · simp [splitTop, splitOn, hcc, ih]
    · simp only [splitTop, splitOn, hcc, false_and, if_false, hc, Nat.zero_sub, ite_self, ih]
      rfl

theorem mem_splitOn_sub {s x : Char} {t w : Str} (hw : w ∈ splitOn s t) (hx : x ∈ w) : x ∈ t := by
  rw [← join_splitOn s t]
  generalize splitOn s t = ws at hw
  induction ws with
  | nil => cases hw
  | cons v vs ih =>
    cases vs with
    | nil =>
      rw [List.mem_singleton] at hw
      subst hw
      exact hx
    | cons v' vs =>
      simp only [joinWith, List.mem_append, List.mem_cons]
      rcases List.mem_cons.1 hw with rfl | hw
      · exact .inl hx
      · exact .inr (.inr (ih hw))

theorem items_alike {ts : List Str} (hp : ∀ t ∈ ts, '(' ∉ t) {ns : List (Str × List Str)}
    (h : flatMapM parseItem ts = .ok ns) {ls : List (List Str)}
    (hl : ts.map (fun t => (Fused.parse t).asList) = ls.map .ok) :
    ∃ cs : List (List Str), ns = cs.map (fun c => (p! "*", c)) ∧ cs.map normParts = ls.map .ok := by
  induction ts generalizing ns ls with
  | nil =>
    cases h
    cases ls with
    | nil => exact ⟨[], rfl, rfl⟩
    | cons l ls => simp at hl
  | cons t ts ih =>
    cases ls with
    | nil => simp at hl
    | cons l ls =>
      simp only [List.map_cons, List.cons.injEq] at hl
      simp only [flatMapM] at h
      rw [Except.bind_eq_ok'] at h
      obtain ⟨u, hu, h⟩ := h
      rw [Except.bind_eq_ok'] at h
      obtain ⟨v, hv, h⟩ := h
      cases h
      have ht : t ≠ [] := by
        rintro rfl
        rw [show parseItem [] = .error .generic by decide] at hu
        cases hu
      have hl1 : normParts (splitOn '|' t) = .ok l := by
        have := hl.1
        rwa [Fused.parse, if_neg ht, asList_false] at this
      obtain ⟨c, rfl, hc⟩ := parseItem_alike (hp t (by simp)) hu hl1
      obtain ⟨cs, rfl, hcs⟩ := ih (fun x hx => hp x (by simp [hx])) hv hl.2
      exact ⟨c :: cs, rfl, by simp [hc, hcs]⟩

/-! ### C71 -/

/-- C71: a text without parentheses that both classes accept is read alike: `SensorChanSpec` reads it as
streams of the sensor `*`, with the channels `ChannelSpec` reads, stream by stream. -/
theorem C71_read_alike (c : Chan) (hp : '(' ∉ c.spec) {ss : List FSC}
    (hs : SC.streams (coerce (.spec (.chan c))) = .ok ss) {ls : List (List Str)}
    (hl : c.streams.map Fused.asList = ls.map .ok) :
    (∀ f ∈ ss, f.sensor = p! "*") ∧ ss.map (fun f => f.chans.asList) = ls.map .ok := by
  obtain ⟨ns, hns, rfl⟩ := streams_eq_ok.1 hs
  have hns' : flatMapM parseItem (splitOn ',' c.spec) = .ok ns := by
    rw [← splitTop_plain hp]; exact hns
  have hl' : (splitOn ',' c.spec).map (fun t => (Fused.parse t).asList) = ls.map .ok := by
    rw [← hl]; simp [Chan.streams, Chan.keys]
  obtain ⟨cs, rfl, hcs⟩ := items_alike (fun t ht hm => hp (mem_splitOn_sub ht hm)) hns' hl'
  refine ⟨?_, ?_⟩
  · intro f hf
    simp only [List.map_map, List.mem_map, Function.comp] at hf
    obtain ⟨g, _, rfl⟩ := hf
    rfl
  · rw [← hcs]
    simp [List.map_map, Function.comp_def, asList_false]

example : SC.streams (coerce (.spec (.chan ⟨p! "a|B:2,rgb|c.2:4", none⟩))) =
      .ok [⟨p! "*", ⟨[p! "a", p! "B.0", p! "B.1"], false⟩⟩, ⟨p! "*", ⟨[p! "rgb", p! "c.2", p! "c.3"], false⟩⟩] ∧
    (⟨p! "a|B:2,rgb|c.2:4", none⟩ : Chan).streams.map Fused.asList =
      [.ok [p! "a", p! "B.0", p! "B.1"], .ok [p! "r", p! "g", p! "b", p! "c.2", p! "c.3"]] := by
  decide

/-- C71: every spec whose codes are identifiers, with or without a number, is accepted, and its streams are those of
the sensor `*` with the same codes. -/
theorem C71_accepts {gs : List (List Str)} (hne : gs ≠ []) (hg : ∀ g ∈ gs, g ≠ [] ∧ ∀ c ∈ g, CodeOk c) :
    SC.streams (coerce (.spec (.chan ⟨specOf gs, none⟩))) =
      .ok (gs.map (fun g => ⟨p! "*", ⟨g, false⟩⟩)) := by
  have hsp : splitTop 0 (specOf gs) = gs.map (joinWith '|') := by
    unfold specOf
    apply splitTop_join (by simpa using hne)
    intro w hw
    obtain ⟨g, h, rfl⟩ := List.mem_map.1 hw
    have := (fusedOf_join (hg g h).1 (hg g h).2).2.2
    exact bal_flat this.2.1 this.2.2 this.1
  refine streams_eq_ok.2 ⟨gs.map (fun g => (p! "*", g)), ?_, by simp⟩
  show nodes (specOf gs) = _
  unfold nodes
  rw [hsp]
  clear hsp hne
  induction gs with
  | nil => rfl
  | cons g gs ih =>
    have ih := ih (fun x hx => hg x (by simp [hx]))
    obtain ⟨h1, h2⟩ := hg g (by simp)
    obtain ⟨hf, ⟨x, xs, hx, hi⟩, _⟩ := fusedOf_join h1 h2
    have hcol : ':' ∉ joinWith '|' g := by
      intro hm
      rcases mem_joinWith hm with e | ⟨w, hw, hm⟩
      · exact absurd e (by decide)
      · exact codeOk_not_mem (h2 w hw) (by simp [special]) (by decide) hm
    have : parseItem (joinWith '|' g) = .ok [(p! "*", g)] := by
      have hne : x ≠ '(' := by rintro rfl; exact absurd hi (by decide)
      unfold parseItem
      split
      · next h' => rw [hx] at h'; simp only [List.cons.injEq] at h'; exact absurd h'.1 hne
      · rw [splitOnce_none hcol]
        simp [hf, product]
    simp only [List.map_cons, flatMapM, this, ih, Except.ok_bind']
    rfl

example : ∀ g ∈ [[p! "a", p! "B.7"], [p! "c"]], g ≠ [] ∧ ∀ c ∈ g, CodeOk c := by
  have h : ∀ c, isIden c = true → CodeOk c := fun c h => .inl h
  intro g hg
  simp only [List.mem_cons, List.not_mem_nil, or_false] at hg
  rcases hg with rfl | rfl
  · refine ⟨by simp, fun c hc => ?_⟩
    simp only [List.mem_cons, List.not_mem_nil, or_false] at hc
    rcases hc with rfl | rfl
    · exact h _ (by decide)
    · exact .inr ⟨p! "B", p! "7", by decide, by decide, by decide⟩
  · refine ⟨by simp, fun c hc => ?_⟩
    rw [List.mem_singleton] at hc
    subst hc
    exact h _ (by decide)

theorem allSame_iff (l : List Str) : allSame l = true ↔ ∀ a ∈ l, ∀ b ∈ l, a = b := by
  cases l with
  | nil => simp [allSame]
  | cons x xs =>
    simp only [allSame, List.all_eq_true, decide_eq_true_eq]
    constructor
    · intro h a ha b hb
      have : ∀ c ∈ x :: xs, c = x := by
        intro c hc
        rcases List.mem_cons.1 hc with rfl | hc
        · rfl
        · exact h c hc
      rw [this a ha, this b hb]
    · intro h b hb
      exact h b (by simp [hb]) x (by simp)

/-- The streams a spec keeps when its sensors are forgotten: those with channels, or one without channels when
there is no other. -/
def keptStreams (l : List Fused) : List Fused :=
  if ∀ f ∈ l, f.parsed = [] then [⟨[], false⟩] else l.filter (fun f => decide (f.parsed ≠ []))

theorem nodes_codes {spec : Str} {ss : List FSC} (h : SC.streams spec = .ok ss) :
    ∀ f ∈ ss, f.chans.isNorm = false ∧ ∀ c ∈ f.chans.parsed, CodeOk c := by
  obtain ⟨ns, hns, rfl⟩ := streams_eq_ok.1 h
  intro f hf
  obtain ⟨n, hn, rfl⟩ := List.mem_map.1 hf
  exact ⟨rfl, ((nodes_ok hns).1 n hn).2⟩

/-- C71: `chans` of a spec with one sensor is a channel spec with the streams of the spec, in order.  Streams
without channels are left out. -/
theorem C71_chans {spec : Str} {ss : List FSC} (h : SC.streams spec = .ok ss)
    (hs : ∀ f ∈ ss, ∀ g ∈ ss, f.sensor = g.sensor) :
    ∃ r, SC.chans spec = .ok (some r) ∧ r.toChan.streams = keptStreams (ss.map FSC.chans) := by
  have hne : ss ≠ [] := by
    obtain ⟨ns, hns, rfl⟩ := streams_eq_ok.1 h
    simpa using nodes_nonempty hns
  obtain ⟨r, hr, hspec⟩ := C13_sum_streams (ss.map (fun f => AnySpec.fused f.chans)) (by simpa using hne)
  have hsame : allSame (ss.map FSC.sensor) = true := by
    rw [allSame_iff]
    intro a ha b hb
    obtain ⟨f, hf, rfl⟩ := List.mem_map.1 ha
    obtain ⟨g, hg, rfl⟩ := List.mem_map.1 hb
    exact hs f hf g hg
  refine ⟨r, by simp [SC.chans, h, hsame, hr], ?_⟩
  have hcodes : ∀ f ∈ ss.map FSC.chans, f.isNorm = false ∧ ∀ c ∈ f.parsed, CodeOk c := by
    intro f hf
    obtain ⟨g, hg, rfl⟩ := List.mem_map.1 hf
    exact nodes_codes h g hg
  have hmap : (ss.map (fun f => AnySpec.fused f.chans)).map AnySpec.spec = (ss.map FSC.chans).map Fused.spec := by
    simp [AnySpec.spec]
  rw [hmap] at hspec
  generalize ss.map FSC.chans = l at hcodes hspec ⊢
  have hstr : ∀ f ∈ l, f.parsed ≠ [] → f.spec ≠ [] ∧ ',' ∉ f.spec ∧ Fused.parse f.spec = f := by
    intro f hf hn
    obtain ⟨h1, h2⟩ := hcodes f hf
    obtain ⟨hfu, ⟨x, xs, hx, _⟩, hcm, _⟩ := fusedOf_join hn h2
    have hn' : f.spec ≠ [] := by rw [Fused.spec, hx]; simp
    refine ⟨hn', hcm, ?_⟩
    rw [Fused.parse, if_neg hn', Fused.spec, splitOn_join hn
      (fun c hc => codeOk_not_mem (h2 c hc) (by simp [special]) (by decide)), ← h1]
  have hfil : (l.map Fused.spec).filter (fun x => decide (x ≠ [])) =
      (l.filter (fun f => decide (f.parsed ≠ []))).map Fused.spec := by
    clear hspec
    induction l with
    | nil => rfl
    | cons f l ih =>
      have ih := ih (fun x hx => hcodes x (by simp [hx])) (fun x hx => hstr x (by simp [hx]))
      by_cases hf : f.parsed = []
      · have : f.spec = [] := by simp [Fused.spec, hf, joinWith]
        simpa [hf, this] using ih
      · have := (hstr f (by simp) hf).1
        simpa [hf, this] using ih
  rw [hfil] at hspec
  unfold Chan.streams Chan.keys keptStreams
  rw [anySpec_toChan, hspec]
  split
  · next hall =>
    have : l.filter (fun f => decide (f.parsed ≠ [])) = [] := by
      rw [List.filter_eq_nil_iff]
      intro f hf
      simp [hall f hf]
    rw [this]
    rfl
  · next hall =>
    have hne : l.filter (fun f => decide (f.parsed ≠ [])) ≠ [] := by
      intro e
      rw [List.filter_eq_nil_iff] at e
      exact hall (fun f hf => by simpa using e f hf)
    have hmem : ∀ f ∈ l.filter (fun f => decide (f.parsed ≠ [])), f ∈ l ∧ f.parsed ≠ [] := by
      intro f hf
      simpa using hf
    rw [splitOn_join (by simpa using hne)]
    · rw [List.map_map]
      conv_rhs => rw [← List.map_id (l.filter (fun f => decide (f.parsed ≠ [])))]
      apply List.map_congr_left
      intro f hf
      exact (hstr f (hmem f hf).1 (hmem f hf).2).2.2
    · intro w hw
      obtain ⟨f, hf, rfl⟩ := List.mem_map.1 hw
      exact (hstr f (hmem f hf).1 (hmem f hf).2).2.1

example : SC.streams (p! "S2:a|B:2,S2:,S2:(rgb,d)") =
      .ok [⟨p! "S2", ⟨[p! "a", p! "B.0", p! "B.1"], false⟩⟩, ⟨p! "S2", ⟨[], false⟩⟩, ⟨p! "S2", ⟨[p! "rgb"], false⟩⟩,
        ⟨p! "S2", ⟨[p! "d"], false⟩⟩] ∧
    SC.chans (p! "S2:a|B:2,S2:,S2:(rgb,d)") = .ok (some (.chan ⟨p! "a|B.0|B.1,rgb,d", none⟩)) := by
  decide

/-- C71: with two different sensors `chans` raises. -/
theorem C71_chans_mixed {spec : Str} {ss : List FSC} (h : SC.streams spec = .ok ss) {f g : FSC} (hf : f ∈ ss)
    (hg : g ∈ ss) (hfg : f.sensor ≠ g.sensor) : SC.chans spec = .error .generic := by
  have : allSame (ss.map FSC.sensor) = false := by
    cases hs : allSame (ss.map FSC.sensor) with
    | false => rfl
    | true =>
      rw [allSame_iff] at hs
      exact absurd (hs _ (List.mem_map.2 ⟨f, hf, rfl⟩) _ (List.mem_map.2 ⟨g, hg, rfl⟩)) hfg
  simp [SC.chans, h, this]

example : SC.chans (p! "(S1,S2):a,S1:b") = .error .generic := by decide

/-- C71: a channel spec whose codes are identifiers survives the conversion to a sensor-channel spec and back. -/
theorem C71_round_trip {gs : List (List Str)} (hne : gs ≠ []) (hg : ∀ g ∈ gs, g ≠ [] ∧ ∀ c ∈ g, CodeOk c) :
    ∃ r, SC.chans (coerce (.spec (.chan ⟨specOf gs, none⟩))) = .ok (some r) ∧
      r.toChan.streams = (⟨specOf gs, none⟩ : Chan).streams := by
  have h := C71_accepts hne hg
  obtain ⟨r, h1, h2⟩ := C71_chans h (by
    intro f hf g hg
    obtain ⟨_, _, rfl⟩ := List.mem_map.1 hf
    obtain ⟨_, _, rfl⟩ := List.mem_map.1 hg
    rfl)
  refine ⟨r, h1, ?_⟩
  rw [h2, Chan.streams_specOf hne]
  · rw [List.map_map]
    unfold keptStreams
    rw [if_neg, List.filter_eq_self.2]
    · rfl
    · intro f hf
      obtain ⟨g, hgs, rfl⟩ := List.mem_map.1 hf
      simpa using (hg g hgs).1
    · intro hall
      cases gs with
      | nil => exact hne rfl
      | cons g gs => exact (hg g (by simp)).1 (hall _ (List.mem_map.2 ⟨g, by simp, rfl⟩))
  · intro g hgs
    obtain ⟨h1, h2⟩ := hg g hgs
    refine ⟨h1, ?_, fun c hc => codeOk_not_mem (h2 c hc) (by simp [special]) (by decide),
      fun c hc => codeOk_not_mem (h2 c hc) (by simp [special]) (by decide)⟩
    rintro rfl
    obtain ⟨x, xs, e, _⟩ := codeOk_start (h2 [] (by simp))
    cases e

/-- C71: a number of channels `n ≥ 1` gives the `n` channels `u0, u1, ...` of the sensor `*`. -/
theorem C71_coerce_number (n : Nat) :
    SC.streams (coerce (.int (n + 1))) =
      .ok [⟨p! "*", ⟨(List.range (n + 1)).map (fun i => 'u' :: natStr i), false⟩⟩] := by
  have := C71_accepts (gs := [(List.range (n + 1)).map (fun i => 'u' :: natStr i)]) (by simp) (by
    intro g hg
    rw [List.mem_singleton] at hg
    subst hg
    refine ⟨by simp, ?_⟩
    intro c hc
    obtain ⟨i, _, rfl⟩ := List.mem_map.1 hc
    left
    have h := isInt_natStr i
    simp only [isInt, Bool.and_eq_true, List.all_eq_true] at h
    simp only [isIden, Bool.and_eq_true, List.all_eq_true]
    refine ⟨by decide, fun x hx => ?_⟩
    simp [idenChar, h.2 x hx])
  simpa [coerce, specOf, joinWith, AnySpec.spec, Chan.ofInt] using this

/-- C71 fails for no channels: the empty spec has one stream without channels as a `ChannelSpec` and raises as a
`SensorChanSpec`. -/
theorem C71_empty_violated :
    SC.streams (coerce (.int 0)) = .error .generic ∧ (Chan.ofInt 0).streams = [⟨[], false⟩] := by decide

/-- C71 fails for codes outside the grammar: channels named by numbers, slices with a step, and names with a
slash are channel specs but raise as sensor-channel specs. -/
theorem C71_codes_violated :
    (∀ t ∈ [p! "0|1", p! "B.0:6:2", p! "a/b"],
      SC.streams (coerce (.spec (.chan ⟨t, none⟩))) = .error .generic) ∧
    (⟨p! "0|1", none⟩ : Chan).streams.map Fused.asList = [.ok [p! "0", p! "1"]] ∧
    (⟨p! "B.0:6:2", none⟩ : Chan).streams.map Fused.asList = [.ok [p! "B.0", p! "B.2", p! "B.4"]] ∧
    (⟨p! "a/b", none⟩ : Chan).streams.map Fused.asList = [.ok [p! "a/b"]] := by decide

/-- Parentheses are needed in `C71_read_alike`: they belong to the code of a channel spec and group the channels of
a sensor-channel spec. -/
theorem C71_parens_violated :
    SC.streams (coerce (.spec (.chan ⟨p! "(a)", none⟩))) = .ok [⟨p! "*", ⟨[p! "a"], false⟩⟩] ∧
    (⟨p! "(a)", none⟩ : Chan).streams.map Fused.asList = [.ok [p! "(a)"]] := by decide

/-- `numel` is not kept by `chans` when a stream is repeated: a `ChannelSpec` counts equal streams once. -/
theorem C71_numel_violated :
    SC.numel (p! "S2:a|b,S2:a|b") = .ok 4 ∧
    ∃ r, SC.chans (p! "S2:a|b,S2:a|b") = .ok (some r) ∧ r.toChan.numel = .ok 2 :=
  ⟨by decide, .chan ⟨p! "a|b,a|b", none⟩, by decide, by decide⟩

/-! #### one sensor, one stream -/

/-- C71: `FusedSensorChanSpec.coerce` accepts exactly the specs with one stream, and is that stream. -/
theorem C71_fused (spec : Str) (f : FSC) : fscFromSpec spec = .ok f ↔ SC.streams spec = .ok [f] := by
  have parse_join : ∀ n : Str × List Str, NodeOk n → Fused.parse (joinWith '|' n.2) = ⟨n.2, false⟩ := by
    intro n hn
    by_cases hne : n.2 = []
    · rw [hne]; rfl
    · obtain ⟨_, ⟨x, xs, hx, _⟩, _⟩ := fusedOf_join hne hn.2
      rw [Fused.parse, if_neg (by rw [hx]; simp), splitOn_join hne
        (fun c hc => codeOk_not_mem (hn.2 c hc) (by simp [special]) (by decide))]
  cases hns : nodes spec with
  | error e => simp [fscFromSpec, SC.streams, hns, Except.map]
  | ok ns =>
    have hok := (nodes_ok hns).1
    match ns with
    | [] => simp [fscFromSpec, SC.streams, hns, Except.map]
    | [n] => simp [fscFromSpec, SC.streams, hns, Except.map, parse_join n (hok n (by simp))]
    | _ :: _ :: _ => simp [fscFromSpec, SC.streams, hns, Except.map]

/-- C71: a spec with several streams is refused. -/
theorem C71_fused_refuses {spec : Str} {ss : List FSC} (h : SC.streams spec = .ok ss) (hn : ss.length ≠ 1) :
    fscFromSpec spec = .error .valueError := by
  obtain ⟨ns, hns, rfl⟩ := streams_eq_ok.1 h
  match ns with
  | [] => simp [fscFromSpec, hns]
  | [n] => simp at hn
  | _ :: _ :: _ => simp [fscFromSpec, hns]

example : fscFromSpec (p! "S2:(rgb|B:2)") = .ok ⟨p! "S2", ⟨[p! "rgb", p! "B.0", p! "B.1"], false⟩⟩ ∧
    fscFromSpec (p! "(S2,L8):a") = .error .valueError := by decide

theorem fsc_node {spec : Str} {f : FSC} (h : fscFromSpec spec = .ok f) :
    ∃ n, NodeOk n ∧ f = ⟨n.1, ⟨n.2, false⟩⟩ ∧ nodes f.spec = .ok [n] := by
  obtain ⟨ns, hns, e⟩ := streams_eq_ok.1 ((C71_fused spec f).1 h)
  match ns with
  | [] => simp at e
  | [n] =>
    simp only [List.map_cons, List.map_nil, List.cons.injEq, and_true] at e
    have hok := (nodes_ok hns).1 n (by simp)
    refine ⟨n, hok, e, ?_⟩
    have := nodes_print (ns := [n]) (by simp) (by simpa using hok)
    subst e
    simpa [joinWith, nodeSpec, FSC.spec, Fused.spec] using this
  | _ :: _ :: _ => simp at e

/-- C71: `normalize()` returns the same sensor and the same codes. -/
theorem C71_fused_normalize {spec : Str} {f : FSC} (h : fscFromSpec spec = .ok f) : f.normalize = .ok f := by
  obtain ⟨n, hok, rfl, hn⟩ := fsc_node h
  have hs : (⟨n.1, ⟨n.2, false⟩⟩ : FSC).spec ≠ [] := by simp [FSC.spec]
  obtain ⟨t, ht, hst⟩ := C17_normalize_streams (streams_eq_ok.2 ⟨_, hn, rfl⟩) hs
  simp only [FSC.normalize, ht, Except.ok_bind']
  exact (C71_fused t _).2 hst

/-- C71: `concise()` keeps the sensor and the channels, for numbers without leading zeros. -/
theorem C71_fused_concise_partial {spec : Str} {f : FSC} (h : fscFromSpec spec = .ok f)
    (hcan : ∀ c ∈ f.chans.parsed, CanonicalCode c) :
    ∃ l, f.chans.asList = .ok l ∧ f.concise = .ok ⟨f.sensor, ⟨l, false⟩⟩ := by
  obtain ⟨n, hok, rfl, hn⟩ := fsc_node h
  obtain ⟨t, l, ht, hl, hm, hnil, hN⟩ := conciseChan_means hok.2 hcan
  refine ⟨l, by simp only [asList_false]; exact hl, ?_⟩
  have hc : SC.concise (⟨n.1, ⟨n.2, false⟩⟩ : FSC).spec = .ok (chanPart n.1 [t]) := by
    have hp : pass1 [(t, n.1)] = [(n.1, t)] := by
      simp [pass1, groupItems, Fused.oset, osetAdd, sensePart, Chan.sortStr, Chan.insertStr, joinWith]
    have hq : conciseParts [(t, n.1)] = [chanPart n.1 [t]] := by
      unfold conciseParts
      rw [hp]
      simp [groupItems, Fused.oset, osetAdd, Chan.sortStr, Chan.insertStr]
    simp [SC.concise, hn, conciseNodes, ht, hq, joinWith]
  simp only [FSC.concise, hc, Except.ok_bind']
  refine (C71_fused _ _).2 (streams_eq_ok.2 ⟨[(n.1, l)], ?_, rfl⟩)
  have hsense : SenseOk n.1 := .inl hok.1
  have hp : parseItem (chanPart n.1 [t]) = .ok [(n.1, l)] := by
    unfold chanPart
    rcases hm with ⟨rfl, rfl⟩ | ⟨h1, h2⟩
    · simpa [joinWith, product, senses_iden hok.1] using parseItem_sense (rhs := []) (r := [[]]) hsense rfl rfl
    · have := parseRhs_text h1 h2
      simpa [joinWith, product, senses_iden hok.1] using parseItem_sense hsense this.1 this.2
  have hb : Bal (chanPart n.1 [t]) := by
    have ht : Bal t := by
      rcases hm with ⟨rfl, rfl⟩ | ⟨h1, h2⟩
      · exact bal_flat (by simp) (by simp) (by simp)
      · exact bal_flat h1.2.2.1 h1.2.2.2 h1.2.1
    simpa [chanPart, joinWith] using bal_append (bal_sense hsense) (bal_append bal_colon ht)
  simp [nodes, splitTop_self hb, flatMapM, hp]

example : fscFromSpec (p! "S2:rgb|B:3") = .ok ⟨p! "S2", ⟨[p! "rgb", p! "B.0", p! "B.1", p! "B.2"], false⟩⟩ ∧
    (⟨p! "S2", ⟨[p! "rgb", p! "B.0", p! "B.1", p! "B.2"], false⟩⟩ : FSC).concise =
      .ok ⟨p! "S2", ⟨[p! "r", p! "g", p! "b", p! "B.0", p! "B.1", p! "B.2"], false⟩⟩ := by decide

/-- `concise()` of one fused sensor spec is not concise: the shortened text is parsed, which writes every slice out
again, while `SensorChanSpec.concise()` of the same spec is the short text. -/
theorem C71_fused_concise_violated :
    fscFromSpec (p! "S2:B.0|B.1|B.2") = .ok ⟨p! "S2", ⟨[p! "B.0", p! "B.1", p! "B.2"], false⟩⟩ ∧
    ((⟨p! "S2", ⟨[p! "B.0", p! "B.1", p! "B.2"], false⟩⟩ : FSC).concise).map FSC.spec = .ok (p! "S2:B.0|B.1|B.2") ∧
    SC.concise (p! "S2:B.0|B.1|B.2") = .ok (p! "S2:B:3") := by decide

/-! #### which names are accepted -/

/-- The letters of the grammar. -/
def asciiLetters : Str := p! "abcdefghijklmnopqrstuvwxyzABCDEFGHIJKLMNOPQRSTUVWXYZ"

/-- A name in the grammar: a letter, an underscore or a star, then letters, digits, underscores, stars, blanks and
hyphens. -/
def GrammarName (s : Str) : Prop :=
  ∃ c cs, s = c :: cs ∧ c ∈ asciiLetters ++ p! "_*" ∧ ∀ x ∈ cs, x ∈ asciiLetters ++ p! "0123456789_* -"

theorem char_of_toNat {c d : Char} (h : c.toNat = d.toNat) : c = d := Char.ext (UInt32.toNat_inj.1 h)

theorem isLetter_iff (c : Char) : isLetter c = true ↔ c ∈ asciiLetters := by
  constructor
  · intro h
    simp only [isLetter, decide_eq_true_eq] at h
    have : ∀ n < 123, (65 ≤ n ∧ n ≤ 90) ∨ (97 ≤ n ∧ n ≤ 122) → ∃ d ∈ asciiLetters, d.toNat = n := by decide +kernel
    obtain ⟨d, hd, e⟩ := this _ (by omega) h
    rwa [char_of_toNat e.symm]
  · have : ∀ d ∈ asciiLetters, isLetter d = true := by decide
    exact this c

theorem isDigit_iff (c : Char) : isDigit c = true ↔ c ∈ p! "0123456789" := by
  constructor
  · intro h
    simp only [isDigit, decide_eq_true_eq] at h
    have : ∀ n < 58, 48 ≤ n ∧ n ≤ 57 → ∃ d ∈ p! "0123456789", d.toNat = n := by decide +kernel
    obtain ⟨d, hd, e⟩ := this _ (by omega) h
    rwa [char_of_toNat e.symm]
  · have : ∀ d ∈ p! "0123456789", isDigit d = true := by decide
    exact this c

theorem isIden_iff (s : Str) : isIden s = true ↔ GrammarName s := by
  have h1 : ∀ c, idenStart c = true ↔ c ∈ asciiLetters ++ p! "_*" := by
    intro c
    simp only [idenStart, Bool.or_eq_true, decide_eq_true_eq, isLetter_iff, List.mem_append, List.mem_cons,
      List.not_mem_nil, or_false]
    tauto
  have h2 : ∀ c, idenChar c = true ↔ c ∈ asciiLetters ++ p! "0123456789_* -" := by
    intro c
    rw [show p! "0123456789_* -" = p! "0123456789" ++ p! "_* -" by decide]
    simp only [idenChar, Bool.or_eq_true, decide_eq_true_eq, isLetter_iff, isDigit_iff, List.mem_append]
    have : c ∈ p! "_* -" ↔ c = '_' ∨ c = '*' ∨ c = ' ' ∨ c = '-' := by
      simp only [List.mem_cons, List.not_mem_nil, or_false]
    rw [this]
    tauto
  cases s with
  | nil => simp [isIden, GrammarName]
  | cons c cs =>
    simp only [isIden, Bool.and_eq_true, List.all_eq_true, h1, h2]
    constructor
    · rintro ⟨h, h'⟩
      exact ⟨c, cs, rfl, h, h'⟩
    · rintro ⟨_, _, e, h, h'⟩
      cases e
      exact ⟨h, h'⟩

/-- C71: which names are accepted.  A text without `,` `(` `)` `:` `.` and `|` is a sensor-channel spec exactly if it is a
name of the grammar, and then it is that channel of the sensor `*`.  Sensors and channels with such names, written
`sensor:channel|channel,...`, are read as they are written. -/
theorem C71_names :
    (∀ s : Str, (∀ c ∈ s, c ∉ p! ",():.|") →
      ((∃ ss, SC.streams s = .ok ss) ↔ GrammarName s) ∧
      (GrammarName s → SC.streams s = .ok [⟨p! "*", ⟨[s], false⟩⟩])) ∧
    ∀ ns : List (Str × List Str), ns ≠ [] → (∀ n ∈ ns, GrammarName n.1 ∧ ∀ c ∈ n.2, GrammarName c) →
      SC.streams (joinWith ',' (ns.map (fun n => n.1 ++ ':' :: joinWith '|' n.2))) =
        .ok (ns.map (fun n => ⟨n.1, ⟨n.2, false⟩⟩)) := by
  refine ⟨fun s hs => ?_, fun ns hne hns => ?_⟩
  · have hn : ∀ x ∈ p! ",():.|", x ∉ s := fun x hx hm => hs x hm hx
    have hsplit : splitTop 0 s = [s] :=
      splitTop_self (bal_flat (hn '(' (by decide)) (hn ')' (by decide)) (hn ',' (by decide)))
    have hcode : codeOf s = if isIden s then .ok [s] else .error .generic := by
      rw [codeOf, splitOnce_none (hn '.' (by decide)), splitOn_of_not_mem (hn ':' (by decide))]
    have hitem : parseItem s = (fusedOf s).bind fun f => .ok (product [p! "*"] [f]) := by
      cases s with
      | nil => rfl
      | cons c cs =>
        have hc : c ≠ '(' := fun e => hn '(' (by decide) (by rw [e]; exact List.mem_cons_self)
        unfold parseItem
        split
        · rename_i e
          exact absurd (List.cons.inj e).1 hc
        · rw [splitOnce_none (hn ':' (by decide))]
          rfl
    have hf : fusedOf s = if isIden s then .ok [s] else .error .generic := by
      rw [fusedOf, splitOn_of_not_mem (hn '|' (by decide)), flatMapM, hcode]
      by_cases h : isIden s = true
      · simp only [h, if_true]; rfl
      · simp only [h, if_false]; rfl
    have key : SC.streams s = if isIden s then .ok [⟨p! "*", ⟨[s], false⟩⟩] else .error .generic := by
      rw [SC.streams, nodes, hsplit, flatMapM, hitem, hf]
      by_cases h : isIden s = true
      · simp only [h, if_true]; rfl
      · simp only [h, if_false]; rfl
    rw [key, ← isIden_iff]
    by_cases h : isIden s = true
    · simp [h]
    · simp [h]
  · rw [SC.streams]
    have : nodes (joinWith ',' (ns.map nodeSpec)) = .ok ns :=
      nodes_print hne fun n hn => ⟨(isIden_iff _).2 (hns n hn).1, fun c hc => .inl ((isIden_iff _).2 ((hns n hn).2 c hc))⟩
    exact congrArg _ this

example : GrammarName (p! "Sentinel-2 A") ∧ ¬ GrammarName (p! "2nd") ∧
    SC.streams (p! "Sentinel-2 A:near ir|B1") = .ok [⟨p! "Sentinel-2 A", ⟨[p! "near ir", p! "B1"], false⟩⟩] := by
  refine ⟨(isIden_iff _).1 (by decide), fun h => ?_, by decide⟩
  exact absurd ((isIden_iff _).2 h) (by decide)

end Props
end Verif
