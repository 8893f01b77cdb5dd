/-
C02: which texts are numbers in slices of channel specs.
-/
import Verif.EnviLemmas
import Verif.Props.Fused

namespace Verif.Props

open Verif Verif.Fused Verif.Envi

/-! #### specification: numbers of Python -/

/-- The decimal digits. -/
def Digit (c : Char) (d : Nat) : Prop :=
  (c, d) ∈ [('0', 0), ('1', 1), ('2', 2), ('3', 3), ('4', 4), ('5', 5), ('6', 6), ('7', 7), ('8', 8), ('9', 9)]

/-- Digits, with single underscores between them, and the number they are. -/
inductive Digits : Str → Nat → Prop
  | one {c : Char} {d : Nat} (h : Digit c d) : Digits [c] d
  | more {s : Str} {n : Nat} {c : Char} {d : Nat} (t : Digits s n) (h : Digit c d) : Digits (s ++ [c]) (10 * n + d)
  | under {s : Str} {n : Nat} {c : Char} {d : Nat} (t : Digits s n) (h : Digit c d) :
      Digits (s ++ ['_', c]) (10 * n + d)

/-- White space. -/
def White (c : Char) : Prop := c ∈ [' ', '\t', '\n', '\r', Char.ofNat 11, Char.ofNat 12]

/-- `int(s)` is `i`: digits after an optional sign, white space around. -/
def Numeral (s : Str) (i : Int) : Prop :=
  ∃ a sign t b n, s = a ++ (sign ++ t) ++ b ∧ (∀ c ∈ a, White c) ∧ (∀ c ∈ b, White c) ∧ Digits t n ∧
    ((sign = [] ∧ i = n) ∨ (sign = ['+'] ∧ i = n) ∨ (sign = ['-'] ∧ i = -n))

/-! #### the model reads them -/

theorem char_ext {c : Char} {k : Nat} (hk : k < 128) (h : c.toNat = k) : c = Char.ofNat k := by
  rw [← h, Char.ofNat_toNat]

theorem digit_iff (c : Char) (d : Nat) : Digit c d ↔ digitVal? c = some d := by
  constructor
  · intro h
    simp only [Digit, List.mem_cons, Prod.mk.injEq, List.not_mem_nil, or_false] at h
    rcases h with ⟨rfl, rfl⟩ | ⟨rfl, rfl⟩ | ⟨rfl, rfl⟩ | ⟨rfl, rfl⟩ | ⟨rfl, rfl⟩ | ⟨rfl, rfl⟩ | ⟨rfl, rfl⟩ | ⟨rfl, rfl⟩ |
      ⟨rfl, rfl⟩ | ⟨rfl, rfl⟩ <;> rfl
  · intro h
    unfold digitVal? at h
    split at h
    · rename_i hc
      have e : d = c.toNat - 48 := by simpa using h.symm
      have hd : d < 10 := by omega
      have hcd : c = Char.ofNat (48 + d) := char_ext (by omega) (by omega)
      subst hcd
      clear h e hc
      unfold Digit
      have all : ∀ d < 10, (Char.ofNat (48 + d), d) ∈ [('0', 0), ('1', 1), ('2', 2), ('3', 3), ('4', 4), ('5', 5),
        ('6', 6), ('7', 7), ('8', 8), ('9', 9)] := by decide
      exact all d hd
    · cases h

/-- Digits after others. -/
inductive Rest : Nat → Str → Nat → Prop
  | nil (n : Nat) : Rest n [] n
  | more {a n d : Nat} {c : Char} {s : Str} (h : Digit c d) (t : Rest (10 * a + d) s n) : Rest a (c :: s) n
  | under {a n d : Nat} {c : Char} {s : Str} (h : Digit c d) (t : Rest (10 * a + d) s n) : Rest a ('_' :: c :: s) n

theorem goDigits_iff : ∀ (s : Str) (a n : Nat), goDigits a s = some n ↔ Rest a s n
  | [], a, n => by
    rw [goDigits, Option.some.injEq]
    exact ⟨fun h => h ▸ .nil a, fun h => by cases h; rfl⟩
  | c :: cs, a, n => by
    cases hd : digitVal? c with
    | some d =>
      have e : goDigits a (c :: cs) = goDigits (a * 10 + d) cs := by rw [goDigits.eq_def]; simp only [hd]
      rw [e, goDigits_iff cs, Nat.mul_comm a]
      refine ⟨fun h => .more ((digit_iff c d).2 hd) h, fun h => ?_⟩
      cases h with
      | more h t =>
        rw [digit_iff, hd] at h
        cases h
        exact t
      | under h t => rw [show digitVal? '_' = none from rfl] at hd; cases hd
    | none =>
      have hno : ∀ d, ¬ Digit c d := fun d h => by rw [digit_iff, hd] at h; cases h
      by_cases hu : c = '_'
      · subst hu
        cases cs with
        | nil =>
          have e : goDigits a ['_'] = none := rfl
          rw [e]
          exact ⟨fun h => (by cases h), fun h => (by cases h with | more h _ => exact (hno _ h).elim)⟩
        | cons c' cs =>
          cases hd' : digitVal? c' with
          | none =>
            have e : goDigits a ('_' :: c' :: cs) = none := by simp [goDigits, hd, hd']
            rw [e]
            refine ⟨fun h => (by cases h), fun h => ?_⟩
            cases h with
            | more h _ => exact (hno _ h).elim
            | under h _ => rw [digit_iff, hd'] at h; cases h
          | some d =>
            have e : goDigits a ('_' :: c' :: cs) = goDigits (a * 10 + d) cs := by simp [goDigits, hd, hd']
            rw [e, goDigits_iff cs, Nat.mul_comm a]
            refine ⟨fun h => .under ((digit_iff c' d).2 hd') h, fun h => ?_⟩
            cases h with
            | more h _ => exact (hno _ h).elim
            | under h t =>
              rw [digit_iff, hd'] at h
              cases h
              exact t
      · have e : goDigits a (c :: cs) = none := by rw [goDigits.eq_def]; simp only [hd, hu, if_false]
        rw [e]
        refine ⟨fun h => (by cases h), fun h => ?_⟩
        cases h with
        | more h _ => exact (hno _ h).elim
        | under _ _ => exact (hu rfl).elim

theorem Rest.append {a n : Nat} {s : Str} (h : Rest a s n) {c : Char} {d : Nat} (hd : Digit c d) :
    Rest a (s ++ [c]) (10 * n + d) ∧ Rest a (s ++ ['_', c]) (10 * n + d) := by
  induction h with
  | nil n => exact ⟨.more hd (.nil _), .under hd (.nil _)⟩
  | more h _ ih => exact ⟨.more h ih.1, .more h ih.2⟩
  | under h _ ih => exact ⟨.under h ih.1, .under h ih.2⟩

theorem Digits.rest {s : Str} {n : Nat} (h : Digits s n) : ∃ c d t, s = c :: t ∧ Digit c d ∧ Rest d t n := by
  induction h with
  | one h => exact ⟨_, _, [], rfl, h, .nil _⟩
  | more _ h ih =>
    obtain ⟨c, d, t, rfl, h1, h2⟩ := ih
    exact ⟨c, d, _, rfl, h1, (h2.append h).1⟩
  | under _ h ih =>
    obtain ⟨c, d, t, rfl, h1, h2⟩ := ih
    exact ⟨c, d, _, rfl, h1, (h2.append h).2⟩

theorem Rest.digits {a n : Nat} {t : Str} (h : Rest a t n) : ∀ {s : Str}, Digits s a → Digits (s ++ t) n := by
  induction h with
  | nil n => intro s h; simpa using h
  | more h _ ih => intro s hs; simpa using ih (.more hs h)
  | under h _ ih => intro s hs; simpa using ih (.under hs h)

theorem parseNat_iff (s : Str) (n : Nat) : parseNat? s = some n ↔ Digits s n := by
  cases s with
  | nil =>
    refine ⟨fun h => (by cases h), fun h => ?_⟩
    obtain ⟨c, d, t, e, _⟩ := h.rest
    cases e
  | cons c cs =>
    cases hd : digitVal? c with
    | none =>
      simp only [parseNat?, hd]
      refine ⟨fun h => (by cases h), fun h => ?_⟩
      obtain ⟨_, d, _, e, h1, _⟩ := h.rest
      cases e
      rw [digit_iff, hd] at h1
      cases h1
    | some d =>
      simp only [parseNat?, hd]
      rw [goDigits_iff]
      constructor
      · intro h
        exact h.digits (.one ((digit_iff c d).2 hd))
      · intro h
        obtain ⟨_, d', _, e, h1, h2⟩ := h.rest
        cases e
        rw [digit_iff, hd] at h1
        cases h1
        exact h2

theorem white_iff (c : Char) : White c ↔ isWs c = true := by
  constructor
  · intro h
    simp only [White, List.mem_cons, List.not_mem_nil, or_false] at h
    rcases h with rfl | rfl | rfl | rfl | rfl | rfl <;> rfl
  · intro h
    simp only [isWs, Bool.or_eq_true, decide_eq_true_eq] at h
    unfold White
    rcases h with ((((rfl | rfl) | rfl) | rfl) | h) | h
    · decide
    · decide
    · decide
    · decide
    · rw [char_ext (by decide) h]; decide
    · rw [char_ext (by decide) h]; decide

theorem Digits.plain {s : Str} {n : Nat} (h : Digits s n) : ∀ c ∈ s, isWs c = false ∧ c ≠ '-' ∧ c ≠ '+' := by
  have one : ∀ {c : Char} {d : Nat}, Digit c d → isWs c = false ∧ c ≠ '-' ∧ c ≠ '+' := by
    intro c d h
    simp only [Digit, List.mem_cons, Prod.mk.injEq, List.not_mem_nil, or_false] at h
    rcases h with ⟨rfl, rfl⟩ | ⟨rfl, rfl⟩ | ⟨rfl, rfl⟩ | ⟨rfl, rfl⟩ | ⟨rfl, rfl⟩ | ⟨rfl, rfl⟩ | ⟨rfl, rfl⟩ | ⟨rfl, rfl⟩ |
      ⟨rfl, rfl⟩ | ⟨rfl, rfl⟩ <;> decide
  induction h with
  | one h => intro c hc; rw [List.mem_singleton.1 hc]; exact one h
  | more _ h ih =>
    intro c hc
    rcases List.mem_append.1 hc with hc | hc
    · exact ih c hc
    · rw [List.mem_singleton.1 hc]; exact one h
  | under _ h ih =>
    intro c hc
    rcases List.mem_append.1 hc with hc | hc
    · exact ih c hc
    · simp only [List.mem_cons, List.not_mem_nil, or_false] at hc
      rcases hc with rfl | rfl
      · decide
      · exact one h

/-- `int(s)` gives the numbers of Python and raises `ValueError` for everything else. -/
theorem pyInt_iff (s : Str) (i : Int) : pyInt s = .ok i ↔ Numeral s i := by
  constructor
  · intro h
    obtain ⟨a, b, ha, hb, e⟩ := strip_decomp s
    have go : ∀ sign t n, strip s = sign ++ t → parseNat? t = some n →
        ((sign = [] ∧ i = n) ∨ (sign = ['+'] ∧ i = n) ∨ (sign = ['-'] ∧ i = -n)) → Numeral s i := by
      intro sign t n h1 h2 h3
      rw [h1] at e
      exact ⟨a, sign, t, b, n, e, fun c hc => (white_iff c).2 (ha c hc), fun c hc => (white_iff c).2 (hb c hc),
        (parseNat_iff t n).1 h2, h3⟩
    unfold pyInt at h
    split at h
    · rename_i cs hs
      split at h
      · rename_i n hn
        cases h
        exact go ['-'] cs n hs hn (.inr (.inr ⟨rfl, rfl⟩))
      · cases h
    · rename_i cs hs
      split at h
      · rename_i n hn
        cases h
        exact go ['+'] cs n hs hn (.inr (.inl ⟨rfl, rfl⟩))
      · cases h
    · split at h
      · rename_i n hn
        cases h
        exact go [] _ n rfl hn (.inl ⟨rfl, rfl⟩)
      · cases h
  · rintro ⟨a, sign, t, b, n, rfl, ha, hb, ht, hs⟩
    have hw : ∀ c ∈ sign ++ t, isWs c = false := by
      intro c hc
      rcases List.mem_append.1 hc with hc | hc
      · rcases hs with ⟨rfl, _⟩ | ⟨rfl, _⟩ | ⟨rfl, _⟩
        · cases hc
        · rw [List.mem_singleton.1 hc]; rfl
        · rw [List.mem_singleton.1 hc]; rfl
      · exact (ht.plain c hc).1
    have e : strip (a ++ (sign ++ t) ++ b) = sign ++ t := by
      rw [strip_append_blank (fun c hc => (white_iff c).1 (hb c hc)),
        strip_blank_append (fun c hc => (white_iff c).1 (ha c hc)), strip_of_no_ws hw]
    have hn := (parseNat_iff t n).2 ht
    rcases hs with ⟨rfl, rfl⟩ | ⟨rfl, rfl⟩ | ⟨rfl, rfl⟩
    · unfold pyInt
      rw [e]
      obtain ⟨c, d, t', rfl, _, _⟩ := ht.rest
      obtain ⟨_, h1, h2⟩ := ht.plain c (by simp)
      simp only [List.nil_append]
      split
      · rename_i h; cases h; exact (h1 rfl).elim
      · rename_i h; cases h; exact (h2 rfl).elim
      · rw [hn]
    · unfold pyInt
      rw [e]
      simp only [List.cons_append, List.nil_append, hn]
    · unfold pyInt
      rw [e]
      simp only [List.cons_append, List.nil_append, hn]

theorem pyInt_error {s : Str} (h : ∀ i, ¬ Numeral s i) : pyInt s = .error .valueError := by
  cases e : pyInt s with
  | ok i => exact (h i ((pyInt_iff s i).1 e)).elim
  | error e' => rw [pyInt_only e]

/-- The value of a bound that may be left out. -/
def Bound (d : Int) (s : Str) (i : Int) : Prop := (s = [] ∧ i = d) ∨ (s ≠ [] ∧ Numeral s i)

theorem intOr_iff (d : Int) (s : Str) (i : Int) : intOr d s = .ok i ↔ Bound d s i := by
  unfold intOr Bound
  by_cases hs : s = []
  · simp [hs, eq_comm]
  · simp [hs, pyInt_iff]

theorem intOr_error {d : Int} {s : Str} (h : ∀ i, ¬ Bound d s i) : intOr d s = .error .valueError := by
  cases e : intOr d s with
  | ok i => exact (h i ((intOr_iff d s i).1 e)).elim
  | error e' =>
    unfold intOr at e
    split at e
    · cases e
    · rw [pyInt_only e]

theorem numeral_ne {s : Str} {i : Int} (h : Numeral s i) : s ≠ [] := by
  rintro rfl
  obtain ⟨a, sign, t, b, n, e, _, _, ht, _⟩ := h
  obtain ⟨c, d, t', rfl, _⟩ := ht.rest
  simp at e

/-- What `sliceParts` makes of codes with a root without dots and colons. -/
theorem sliceParts_texts {root : Str} (h1 : '.' ∉ root) (h2 : ':' ∉ root) {t : Str} (ht : '.' ∉ t) :
    sliceParts (root ++ ':' :: t) = .ok (root, splitOn ':' t) ∧
    ((splitOn ':' t).length > 1 → sliceParts (root ++ '.' :: t) = .ok (root, splitOn ':' t)) := by
  have hone : splitOnce '.' (root ++ ':' :: t) = none := by
    cases hx : splitOnce '.' (root ++ ':' :: t) with
    | none => rfl
    | some p => exact absurd (splitOnce_isSome_iff.1 (by rw [hx]; rfl)) (by simp [h1, ht])
  refine ⟨?_, fun hl => ?_⟩
  · unfold sliceParts
    rw [hone, splitOnce_append h2]
  · unfold sliceParts
    rw [splitOnce_append h1]
    simp only
    rw [if_neg (by omega)]

/-- C02: slices are written with the numbers of Python: signs, white space and underscores are allowed, the start is
zero and the step is one if they are left out. -/
theorem C02_numbers {root ta tb ts : Str} (h1 : '.' ∉ root) (h2 : ':' ∉ root) (ha : '.' ∉ ta ∧ ':' ∉ ta)
    (hb : '.' ∉ tb ∧ ':' ∉ tb) (hs : '.' ∉ ts ∧ ':' ∉ ts) {sep : Char} (hsep : sep = '.' ∨ sep = ':') {a b s : Int}
    (na : Bound 0 ta a) (nb : Numeral tb b) (ns : Bound 1 ts s) (h0 : s ≠ 0) :
    (∃ l, asList ⟨[root ++ ':' :: tb], false⟩ = .ok (l.map (dotted root)) ∧ SliceNumbers 0 b 1 l) ∧
    (∃ l, asList ⟨[root ++ sep :: (ta ++ ':' :: tb)], false⟩ = .ok (l.map (dotted root)) ∧ SliceNumbers a b 1 l) ∧
    (∃ l, asList ⟨[root ++ sep :: (ta ++ ':' :: (tb ++ ':' :: ts))], false⟩ = .ok (l.map (dotted root)) ∧
      SliceNumbers a b s l) := by
  have ea := (intOr_iff 0 ta a).2 na
  have es := (intOr_iff 1 ts s).2 ns
  have eb := (pyInt_iff tb b).2 nb
  have eb' : intOrNone tb = .ok (some b) := by
    unfold intOrNone
    rw [if_neg (numeral_ne nb), eb]
    rfl
  have hparts : ∀ t : Str, '.' ∉ t → (splitOn ':' t).length > 1 →
      sliceParts (root ++ sep :: t) = .ok (root, splitOn ':' t) := by
    intro t ht hl
    obtain ⟨g1, g2⟩ := sliceParts_texts h1 h2 ht
    rcases hsep with rfl | rfl
    · exact g2 hl
    · exact g1
  refine ⟨?_, ?_, ?_⟩
  · refine asList_slice (args := [tb]) (by simp) h1 h2 ?_ ?_ (by decide)
    · rw [(sliceParts_texts h1 h2 hb.1).1, splitOn_of_not_mem hb.2]
    · simp only [sliceArgs, eb, Except.ok_bind']
  · have hsp : splitOn ':' (ta ++ ':' :: tb) = [ta, tb] := by
      rw [splitOn_append_sep ha.2, splitOn_of_not_mem hb.2]
    refine asList_slice (args := [ta, tb]) (by simp) h1 h2 ?_ ?_ (by decide)
    · rw [hparts _ (by simp [ha.1, hb.1]) (by rw [hsp]; simp), hsp]
    · simp only [sliceArgs, ea, eb', Except.ok_bind']
  · have hsp : splitOn ':' (ta ++ ':' :: (tb ++ ':' :: ts)) = [ta, tb, ts] := by
      rw [splitOn_append_sep ha.2, splitOn_append_sep hb.2, splitOn_of_not_mem hs.2]
    refine asList_slice (args := [ta, tb, ts]) (by simp) h1 h2 ?_ ?_ h0
    · rw [hparts _ (by simp [ha.1, hb.1, hs.1]) (by rw [hsp]; simp), hsp]
    · simp only [sliceArgs, ea, eb', es, Except.ok_bind']

/-- C02: slices with other texts raise `ValueError`. -/
theorem C02_not_numbers {root ta tb ts : Str} (h1 : '.' ∉ root) (h2 : ':' ∉ root) (ha : '.' ∉ ta ∧ ':' ∉ ta)
    (hb : '.' ∉ tb ∧ ':' ∉ tb) (hs : '.' ∉ ts ∧ ':' ∉ ts) {sep : Char} (hsep : sep = '.' ∨ sep = ':') :
    ((∀ b, ¬ Numeral tb b) → asList ⟨[root ++ ':' :: tb], false⟩ = .error .valueError) ∧
    ((∀ a, ¬ Bound 0 ta a) ∨ (∀ b, ¬ Numeral tb b) →
      asList ⟨[root ++ sep :: (ta ++ ':' :: tb)], false⟩ = .error .valueError) ∧
    ((∀ a, ¬ Bound 0 ta a) ∨ (∀ b, ¬ Numeral tb b) ∨ (∀ s, ¬ Bound 1 ts s) →
      asList ⟨[root ++ sep :: (ta ++ ':' :: (tb ++ ':' :: ts))], false⟩ = .error .valueError) := by
  have fails : ∀ v args, ':' ∈ v → sliceParts v = .ok (root, args) →
      (∀ a b s, sliceArgs args ≠ .ok (a, some b, s)) → asList ⟨[v], false⟩ = .error .valueError := by
    intro v args hv hp hn
    cases e : asList ⟨[v], false⟩ with
    | error e' => rw [C02_only_value_errors e]
    | ok l =>
      rw [asList_false, normParts_single] at e
      unfold expandCode at e
      rw [alias_none_of_mem hv (.inr rfl)] at e
      simp only [hv, if_true, parseSlice, hp, Except.ok_bind'] at e
      cases ea : sliceArgs args with
      | error e' => rw [ea] at e; cases e
      | ok r =>
        obtain ⟨a, b, s⟩ := r
        cases b with
        | none => rw [ea] at e; cases e
        | some b => exact (hn a b s ea).elim
  have hparts : ∀ t : Str, '.' ∉ t → (splitOn ':' t).length > 1 →
      sliceParts (root ++ sep :: t) = .ok (root, splitOn ':' t) := by
    intro t ht hl
    obtain ⟨g1, g2⟩ := sliceParts_texts h1 h2 ht
    rcases hsep with rfl | rfl
    · exact g2 hl
    · exact g1
  have stop : ∀ b, intOrNone tb = .ok (some b) → Numeral tb b := by
    intro b h
    unfold intOrNone at h
    split at h
    · cases h
    · obtain ⟨c, hc, e⟩ := Except.map_eq_ok'.1 h
      cases e
      exact (pyInt_iff tb b).1 hc
  refine ⟨fun hn => ?_, fun hn => ?_, fun hn => ?_⟩
  · refine fails _ [tb] (by simp) ?_ ?_
    · rw [(sliceParts_texts h1 h2 hb.1).1, splitOn_of_not_mem hb.2]
    · intro a b s h
      simp only [sliceArgs, pyInt_error hn] at h
      cases h
  · have hsp : splitOn ':' (ta ++ ':' :: tb) = [ta, tb] := by
      rw [splitOn_append_sep ha.2, splitOn_of_not_mem hb.2]
    refine fails _ [ta, tb] (by simp) ?_ ?_
    · rw [hparts _ (by simp [ha.1, hb.1]) (by rw [hsp]; simp), hsp]
    · intro a b s h
      simp only [sliceArgs] at h
      obtain ⟨x, hx, h⟩ := Except.bind_eq_ok'.1 h
      obtain ⟨y, hy, h⟩ := Except.bind_eq_ok'.1 h
      cases h
      rcases hn with hn | hn
      · exact hn _ ((intOr_iff _ _ _).1 hx)
      · exact hn _ (stop _ hy)
  · have hsp : splitOn ':' (ta ++ ':' :: (tb ++ ':' :: ts)) = [ta, tb, ts] := by
      rw [splitOn_append_sep ha.2, splitOn_append_sep hb.2, splitOn_of_not_mem hs.2]
    refine fails _ [ta, tb, ts] (by simp) ?_ ?_
    · rw [hparts _ (by simp [ha.1, hb.1, hs.1]) (by rw [hsp]; simp), hsp]
    · intro a b s h
      simp only [sliceArgs] at h
      obtain ⟨x, hx, h⟩ := Except.bind_eq_ok'.1 h
      obtain ⟨y, hy, h⟩ := Except.bind_eq_ok'.1 h
      obtain ⟨z, hz, h⟩ := Except.bind_eq_ok'.1 h
      cases h
      rcases hn with hn | hn | hn
      · exact hn _ ((intOr_iff _ _ _).1 hx)
      · exact hn _ (stop _ hy)
      · exact hn _ ((intOr_iff _ _ _).1 hz)

/-- ` +1_0` is ten, `1__0` and `1x` are no numbers. -/
example : Numeral (p! " +1_0") 10 ∧ (∀ i, ¬ Numeral (p! "1__0") i) ∧ (∀ i, ¬ Numeral (p! "1x") i) ∧
    ∃ l, asList ⟨[p! "a.:1_0:-3"], false⟩ = .ok l ∧ l = [] := by
  refine ⟨(pyInt_iff _ _).1 (by decide), fun i h => ?_, fun i h => ?_, _, ?_, rfl⟩
  · rw [← pyInt_iff] at h
    exact absurd h (by rw [show pyInt (p! "1__0") = .error .valueError by decide]; simp)
  · rw [← pyInt_iff] at h
    exact absurd h (by rw [show pyInt (p! "1x") = .error .valueError by decide]; simp)
  · decide

example : asList ⟨[p! "a: +0_2: 1_0 :4"], false⟩ = .ok [p! "a.2", p! "a.6"] ∧
    asList ⟨[p! "a:2x"], false⟩ = .error .valueError := by decide

end Verif.Props
