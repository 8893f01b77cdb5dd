/-
Lemmas about the sensor / channel grammar: printing a parsed spec and parsing it again.
-/
import Verif.SensorChan
import Verif.ConciseLemmas
import Verif.ChanLemmas

set_option linter.unusedSimpArgs false
set_option linter.unusedVariables false

namespace Verif
namespace SC
open Fused Chan

/-! ### characters -/

/-- The characters with a meaning in the grammar. -/
def special (c : Char) : Prop :=
  c = ',' ∨ c = '(' ∨ c = ')' ∨ c = ':' ∨ c = '.' ∨ c = '|'

theorem idenChar_not_special {c : Char} (h : idenChar c = true) : ¬ special c := by
  rintro (rfl | rfl | rfl | rfl | rfl | rfl) <;> exact absurd h (by decide)

theorem idenStart_idenChar {c : Char} (h : idenStart c = true) : idenChar c = true := by
  simp only [idenStart, idenChar, Bool.or_eq_true] at *
  rcases h with (h | h) | h <;> simp [h]

theorem isDigit_not_special {c : Char} (h : isDigit c = true) : ¬ special c := by
  rintro (rfl | rfl | rfl | rfl | rfl | rfl) <;> exact absurd h (by decide)

theorem idenStart_not_digit {c : Char} (h : idenStart c = true) : isDigit c = false := by
  cases hd : isDigit c with
  | false => rfl
  | true =>
    simp only [isDigit, decide_eq_true_eq] at hd
    simp only [idenStart, isLetter, Bool.or_eq_true, decide_eq_true_eq] at h
    rcases h with (h | h) | h
    · subst h; exact absurd hd (by decide)
    · subst h; exact absurd hd (by decide)
    · omega

theorem isIden_chars {s : Str} (h : isIden s = true) : ∀ c ∈ s, idenChar c = true := by
  cases s with
  | nil => cases h
  | cons x xs =>
    simp only [isIden, Bool.and_eq_true, List.all_eq_true] at h
    intro c hc
    rcases List.mem_cons.1 hc with rfl | hc
    · exact idenStart_idenChar h.1
    · exact h.2 c hc

theorem isIden_not_mem {s : Str} (h : isIden s = true) {c : Char} (hc : special c) : c ∉ s :=
  fun hm => idenChar_not_special (isIden_chars h c hm) hc

theorem isInt_not_mem {s : Str} (h : isInt s = true) {c : Char} (hc : special c) : c ∉ s := by
  intro hm
  simp only [isInt, Bool.and_eq_true, List.all_eq_true] at h
  exact isDigit_not_special (h.2 c hm) hc

theorem isIden_cons {s : Str} (h : isIden s = true) : ∃ c cs, s = c :: cs ∧ idenStart c = true := by
  cases s with
  | nil => cases h
  | cons x xs =>
    simp only [isIden, Bool.and_eq_true] at h
    exact ⟨x, xs, rfl, h.1⟩

theorem digitChar_isDigit {d : Nat} (h : d < 10) : isDigit (digitChar d) = true := by
  have : ∀ d : Fin 10, isDigit (digitChar d) = true := by decide
  exact this ⟨d, h⟩

theorem isInt_natStr (n : Nat) : isInt (natStr n) = true := by
  simp only [isInt, Bool.and_eq_true, List.all_eq_true, decide_eq_true_eq]
  refine ⟨natStr_ne_nil n, ?_⟩
  intro c hc
  obtain ⟨d, hd, rfl⟩ := natStr_digit hc
  exact digitChar_isDigit hd

theorem isInt_intStr {i : Int} (h : 0 ≤ i) : isInt (intStr i) = true := by
  cases i with
  | ofNat n => exact isInt_natStr n
  | negSucc n => exact absurd h (by omega)

theorem intStr_isInt_nonneg {i : Int} (h : isInt (intStr i) = true) : 0 ≤ i := by
  cases i with
  | ofNat n => exact Int.natCast_nonneg n
  | negSucc n =>
    exfalso
    simp only [isInt, intStr, Bool.and_eq_true, List.all_eq_true] at h
    exact absurd (h.2 '-' (by simp)) (by decide)

/-! ### single channel codes -/

/-- A channel code produced by the parser. -/
def CodeOk (c : Str) : Prop :=
  isIden c = true ∨ ∃ r a, isIden r = true ∧ isInt a = true ∧ c = r ++ '.' :: a

theorem codeOk_dotted {r : Str} (hr : isIden r = true) {i : Int} (hi : 0 ≤ i) : CodeOk (dotted r i) :=
  .inr ⟨r, intStr i, hr, isInt_intStr hi, rfl⟩

theorem rangeUp_nonneg {f : Nat} {a b : Int} (ha : 0 ≤ a) : ∀ i ∈ rangeUp f a b 1, 0 ≤ i := by
  induction f generalizing a with
  | zero => intro i hi; cases hi
  | succ f ih =>
    intro i hi
    unfold rangeUp at hi
    split at hi
    · rcases List.mem_cons.1 hi with rfl | hi
      · exact ha
      · exact ih (by omega) i hi
    · cases hi

theorem goDigits_no_underscore {s : Str} (hs : ∀ c ∈ s, isDigit c = true) (acc : Nat) :
    ∃ n, goDigits acc s = some n := by
  induction s generalizing acc with
  | nil => exact ⟨acc, rfl⟩
  | cons c cs ih =>
    have h := hs c (by simp)
    simp only [isDigit, decide_eq_true_eq] at h
    have hd : digitVal? c = some (c.toNat - 48) := by simp [digitVal?, h]
    unfold goDigits
    rw [hd]
    exact ih (fun x hx => hs x (by simp [hx])) _

theorem isDigit_not_ws {c : Char} (h : isDigit c = true) : isWs c = false := by
  simp only [isDigit, decide_eq_true_eq] at h
  cases hw : isWs c with
  | false => rfl
  | true =>
    exfalso
    simp only [isWs, Bool.or_eq_true, decide_eq_true_eq] at hw
    rcases hw with ((((hw | hw) | hw) | hw) | hw) | hw
    · subst hw; exact absurd h (by decide)
    · subst hw; exact absurd h (by decide)
    · subst hw; exact absurd h (by decide)
    · subst hw; exact absurd h (by decide)
    · omega
    · omega

/-- `int` of a digit string is a natural number. -/
theorem pyInt_isInt {s : Str} (h : isInt s = true) : ∃ n : Nat, pyInt s = .ok n := by
  simp only [isInt, Bool.and_eq_true, List.all_eq_true, decide_eq_true_eq] at h
  unfold pyInt
  rw [strip_of_no_ws (fun c hc => isDigit_not_ws (h.2 c hc))]
  cases s with
  | nil => exact absurd rfl h.1
  | cons c cs =>
    have hc := h.2 c (by simp)
    have h1 : c ≠ '-' := by rintro rfl; exact absurd hc (by decide)
    have h2 : c ≠ '+' := by rintro rfl; exact absurd hc (by decide)
    have hd : digitVal? c = some (c.toNat - 48) := by
      simp only [isDigit, decide_eq_true_eq] at hc; simp [digitVal?, hc]
    obtain ⟨n, hn⟩ := goDigits_no_underscore (s := cs) (fun x hx => h.2 x (by simp [hx])) (c.toNat - 48)
    have hp : parseNat? (c :: cs) = some n := by simp only [parseNat?, hd, hn]
    refine ⟨n, ?_⟩
    split
    · next h' => simp only [List.cons.injEq] at h'; exact absurd h'.1 h1
    · next h' => simp only [List.cons.injEq] at h'; exact absurd h'.1 h2
    · rw [hp]

theorem sliceCodes_ok {r : Str} (hr : isIden r = true) {a b : Int} (ha : 0 ≤ a) :
    ∀ c ∈ sliceCodes r a b, CodeOk c := by
  intro c hc
  obtain ⟨i, hi, rfl⟩ := List.mem_map.1 hc
  exact codeOk_dotted hr (rangeUp_nonneg ha i hi)

/-- The parser of one code only produces well formed codes, from text without comma or parens. -/
theorem codeOf_ok {s : Str} {l : List Str} (h : codeOf s = .ok l) :
    (∀ c ∈ l, CodeOk c) ∧ ',' ∉ s ∧ '(' ∉ s ∧ ')' ∉ s := by
  have chars : ∀ x : Char, (x = ',' ∨ x = '(' ∨ x = ')') → special x := by
    rintro x (rfl | rfl | rfl) <;> simp [special]
  have chars2 : ∀ x : Char, (x = ',' ∨ x = '(' ∨ x = ')') → x ≠ '.' ∧ x ≠ ':' := by
    rintro x (rfl | rfl | rfl) <;> decide
  suffices hs : (∀ c ∈ l, CodeOk c) ∧ ∀ x : Char, (x = ',' ∨ x = '(' ∨ x = ')') → x ∉ s from
    ⟨hs.1, hs.2 _ (by simp), hs.2 _ (by simp), hs.2 _ (by simp)⟩
  unfold codeOf at h
  split at h
  · next r suf hsp =>
    obtain ⟨rfl, hr⟩ := splitOnce_eq_some hsp
    have hj := join_splitOn ':' suf
    split at h
    · next hir =>
      split at h
      · next a hs =>
        rw [hs] at hj
        simp only [joinWith] at hj
        subst hj
        split at h
        · next hia =>
          cases h
          refine ⟨fun c hc => ?_, ?_⟩
          · rw [List.mem_singleton] at hc; subst hc; exact .inr ⟨r, a, hir, hia, rfl⟩
          · intro x hx hm
            simp only [List.mem_append, List.mem_cons] at hm
            rcases hm with hm | hm | hm
            · exact isIden_not_mem hir (chars x hx) hm
            · exact (chars2 x hx).1 hm
            · exact isInt_not_mem hia (chars x hx) hm
        · cases h
      · next a b hs =>
        rw [hs] at hj
        simp only [joinWith] at hj
        subst hj
        split at h
        · next hi =>
          rw [Bool.and_eq_true] at hi
          obtain ⟨n, hn⟩ := pyInt_isInt hi.1
          obtain ⟨m, hm⟩ := pyInt_isInt hi.2
          rw [hn, hm] at h
          cases h
          refine ⟨sliceCodes_ok hir (by omega), ?_⟩
          intro x hx hm
          simp only [List.mem_append, List.mem_cons] at hm
          rcases hm with hm | hm | hm | hm | hm
          · exact isIden_not_mem hir (chars x hx) hm
          · exact (chars2 x hx).1 hm
          · exact isInt_not_mem hi.1 (chars x hx) hm
          · exact (chars2 x hx).2 hm
          · exact isInt_not_mem hi.2 (chars x hx) hm
        · cases h
      · cases h
    · cases h
  · next hsp =>
    have hj := join_splitOn ':' s
    split at h
    · next r hs =>
      rw [hs] at hj
      simp only [joinWith] at hj
      subst hj
      split at h
      · next hir =>
        cases h
        refine ⟨fun c hc => ?_, ?_⟩
        · rw [List.mem_singleton] at hc; subst hc; exact .inl hir
        · intro x hx hm
          exact isIden_not_mem hir (chars x hx) hm
      · cases h
    · next r b hs =>
      rw [hs] at hj
      simp only [joinWith] at hj
      subst hj
      split at h
      · next hi =>
        rw [Bool.and_eq_true] at hi
        obtain ⟨m, hm⟩ := pyInt_isInt hi.2
        rw [hm] at h
        cases h
        refine ⟨sliceCodes_ok hi.1 (by omega), ?_⟩
        intro x hx hm
        simp only [List.mem_append, List.mem_cons] at hm
        rcases hm with hm | hm | hm
        · exact isIden_not_mem hi.1 (chars x hx) hm
        · exact (chars2 x hx).2 hm
        · exact isInt_not_mem hi.2 (chars x hx) hm
      · cases h
    · next r a b hs =>
      rw [hs] at hj
      simp only [joinWith] at hj
      subst hj
      split at h
      · next hi =>
        rw [Bool.and_eq_true, Bool.and_eq_true] at hi
        obtain ⟨n, hn⟩ := pyInt_isInt hi.1.2
        obtain ⟨m, hm⟩ := pyInt_isInt hi.2
        rw [hn, hm] at h
        cases h
        refine ⟨sliceCodes_ok hi.1.1 (by omega), ?_⟩
        intro x hx hm
        simp only [List.mem_append, List.mem_cons] at hm
        rcases hm with hm | hm | hm | hm | hm
        · exact isIden_not_mem hi.1.1 (chars x hx) hm
        · exact (chars2 x hx).2 hm
        · exact isInt_not_mem hi.1.2 (chars x hx) hm
        · exact (chars2 x hx).2 hm
        · exact isInt_not_mem hi.2 (chars x hx) hm
      · cases h
    · cases h

theorem splitOnce_none {c : Char} {s : Str} (h : c ∉ s) : splitOnce c s = none := by
  cases hs : splitOnce c s with
  | none => rfl
  | some p => exact absurd (splitOnce_isSome_iff.1 (by rw [hs]; rfl)) h

theorem codeOf_iden {c : Str} (h : isIden c = true) : codeOf c = .ok [c] := by
  unfold codeOf
  rw [splitOnce_none (isIden_not_mem h (by simp [special]))]
  simp only
  rw [splitOn_of_not_mem (isIden_not_mem h (by simp [special]))]
  simp [h]

theorem codeOf_item {r a : Str} (hr : isIden r = true) (ha : isInt a = true) :
    codeOf (r ++ '.' :: a) = .ok [r ++ '.' :: a] := by
  unfold codeOf
  rw [splitOnce_append (isIden_not_mem hr (by simp [special]))]
  simp only [hr, if_true]
  rw [splitOn_of_not_mem (isInt_not_mem ha (by simp [special]))]
  simp [ha]

theorem codeOf_codeOk {c : Str} (h : CodeOk c) : codeOf c = .ok [c] := by
  rcases h with h | ⟨r, a, hr, ha, rfl⟩
  · exact codeOf_iden h
  · exact codeOf_item hr ha

theorem sliceCodes_eq (r : Str) (a b : Int) : sliceCodes r a b = runCodes r a b := by
  unfold sliceCodes runCodes
  rw [rangeUp_one (Nat.le_refl _), List.map_map]
  rfl

/-- Parsing the text of a run gives the run. -/
theorem codeOf_formatReady {r : Str} (hr : isIden r = true) {a b : Int} (ha : 0 ≤ a) (hab : a < b) :
    codeOf (formatReady r a b) = .ok (runCodes r a b) := by
  have hd : '.' ∉ r := isIden_not_mem hr (by simp [special])
  have hc : ':' ∉ r := isIden_not_mem hr (by simp [special])
  unfold formatReady
  split
  · next h =>
    subst h
    rw [codeOf_item hr (isInt_intStr ha), runCodes_one]; rfl
  · split
    · next h1 h =>
      subst h
      unfold codeOf
      have : '.' ∉ r ++ ':' :: intStr b := by
        simp only [List.mem_append, List.mem_cons, not_or]
        exact ⟨hd, by decide, intStr_not_mem (by simp)⟩
      rw [splitOnce_none this]
      simp only
      rw [splitOn_append_sep hc, splitOn_of_not_mem (intStr_not_mem (by simp))]
      simp [hr, isInt_intStr (show 0 ≤ b by omega), pyInt_intStr, sliceCodes_eq]
    · unfold codeOf
      rw [splitOnce_append hd]
      simp only [hr, if_true]
      rw [splitOn_append_sep (intStr_not_mem (by simp)), splitOn_of_not_mem (intStr_not_mem (by simp))]
      simp [isInt_intStr ha, isInt_intStr (show 0 ≤ b by omega), pyInt_intStr, sliceCodes_eq]

/-! ### lists of codes -/

theorem flatMapM_append {α β} (f : α → Py (List β)) (a b : List α) :
    flatMapM f (a ++ b) = (do let x ← flatMapM f a; let y ← flatMapM f b; .ok (x ++ y)) := by
  induction a with
  | nil => simp [flatMapM]; cases flatMapM f b <;> simp
  | cons x xs ih =>
    simp only [List.cons_append, flatMapM, ih]
    cases f x <;> simp

theorem flatMapM_ok_mem {α β} {f : α → Py (List β)} {l : List α} {r : List β}
    (h : flatMapM f l = .ok r) : ∀ x ∈ l, ∃ y, f x = .ok y ∧ ∀ z ∈ y, z ∈ r := by
  induction l generalizing r with
  | nil => intro x hx; cases hx
  | cons a as ih =>
    simp only [flatMapM] at h
    rw [Except.bind_eq_ok'] at h
    obtain ⟨u, hu, h⟩ := h
    rw [Except.bind_eq_ok'] at h
    obtain ⟨v, hv, h⟩ := h
    cases h
    intro x hx
    rcases List.mem_cons.1 hx with rfl | hx
    · exact ⟨u, hu, fun z hz => by simp [hz]⟩
    · obtain ⟨y, hy, hz⟩ := ih hv x hx
      exact ⟨y, hy, fun z hz' => by simp [hz z hz']⟩

theorem flatMapM_mem_ok {α β} {f : α → Py (List β)} {l : List α} {r : List β}
    (h : flatMapM f l = .ok r) : ∀ z ∈ r, ∃ x ∈ l, ∃ y, f x = .ok y ∧ z ∈ y := by
  induction l generalizing r with
  | nil => cases h; intro z hz; cases hz
  | cons a as ih =>
    simp only [flatMapM] at h
    rw [Except.bind_eq_ok'] at h
    obtain ⟨u, hu, h⟩ := h
    rw [Except.bind_eq_ok'] at h
    obtain ⟨v, hv, h⟩ := h
    cases h
    intro z hz
    rcases List.mem_append.1 hz with hz | hz
    · exact ⟨a, by simp, u, hu, hz⟩
    · obtain ⟨x, hx, y, hy, hz⟩ := ih hv z hz
      exact ⟨x, by simp [hx], y, hy, hz⟩

theorem flatMapM_ok_of {α β} {f : α → Py (List β)} {g : α → List β} {l : List α}
    (h : ∀ x ∈ l, f x = .ok (g x)) : flatMapM f l = .ok (l.flatMap g) := by
  induction l with
  | nil => rfl
  | cons a as ih =>
    simp only [flatMapM, h a (by simp), ih (fun x hx => h x (by simp [hx])), Except.ok_bind',
      List.flatMap_cons]

theorem mapAll_ok_mem {α β} {f : α → Py β} {l : List α} {r : List β} (h : mapAll f l = .ok r) :
    (∀ x ∈ l, ∃ y ∈ r, f x = .ok y) ∧ (∀ y ∈ r, ∃ x ∈ l, f x = .ok y) := by
  induction l generalizing r with
  | nil =>
    cases h
    constructor
    · intro x hx; cases hx
    · intro y hy; cases hy
  | cons a as ih =>
    simp only [mapAll] at h
    rw [Except.bind_eq_ok'] at h
    obtain ⟨u, hu, h⟩ := h
    rw [Except.bind_eq_ok'] at h
    obtain ⟨v, hv, h⟩ := h
    cases h
    have ih := ih hv
    constructor
    · intro x hx
      rcases List.mem_cons.1 hx with rfl | hx
      · exact ⟨u, by simp, hu⟩
      · obtain ⟨y, hy, e⟩ := ih.1 x hx; exact ⟨y, by simp [hy], e⟩
    · intro y hy
      rcases List.mem_cons.1 hy with rfl | hy
      · exact ⟨a, by simp, hu⟩
      · obtain ⟨x, hx, e⟩ := ih.2 y hy; exact ⟨x, by simp [hx], e⟩

theorem mapAll_exists {α β} {f : α → Py β} {l : List α} (h : ∀ x ∈ l, ∃ y, f x = .ok y) :
    ∃ r, mapAll f l = .ok r := by
  induction l with
  | nil => exact ⟨[], rfl⟩
  | cons a as ih =>
    obtain ⟨y, hy⟩ := h a (by simp)
    obtain ⟨r, hr⟩ := ih (fun x hx => h x (by simp [hx]))
    exact ⟨y :: r, by simp [mapAll, hy, hr]⟩

/-- The text of one channel group: starts like an identifier, no comma, no parenthesis. -/
def TextOk (t : Str) : Prop :=
  (∃ c cs, t = c :: cs ∧ idenStart c = true) ∧ ',' ∉ t ∧ '(' ∉ t ∧ ')' ∉ t

/-- The characters of an accepted channel group. -/
theorem fusedOf_ok {s : Str} {l : List Str} (h : fusedOf s = .ok l) :
    (∀ c ∈ l, CodeOk c) ∧ ',' ∉ s ∧ '(' ∉ s ∧ ')' ∉ s := by
  unfold fusedOf at h
  constructor
  · intro c hc
    obtain ⟨x, _, y, hy, hcy⟩ := flatMapM_mem_ok h c hc
    exact (codeOf_ok hy).1 c hcy
  · have key : ∀ x : Char, x = ',' ∨ x = '(' ∨ x = ')' → x ∉ s := by
      intro x hx hm
      rw [← join_splitOn '|' s] at hm
      rcases mem_joinWith hm with rfl | ⟨w, hw, hxw⟩
      · rcases hx with hx | hx | hx <;> exact absurd hx (by decide)
      · obtain ⟨y, hy, _⟩ := flatMapM_ok_mem h w hw
        have := (codeOf_ok hy).2
        rcases hx with rfl | rfl | rfl
        · exact this.1 hxw
        · exact this.2.1 hxw
        · exact this.2.2 hxw
    exact ⟨key _ (by simp), key _ (by simp), key _ (by simp)⟩

theorem codeOk_start {c : Str} (h : CodeOk c) : ∃ x xs, c = x :: xs ∧ idenStart x = true := by
  rcases h with h | ⟨r, a, hr, ha, rfl⟩
  · exact isIden_cons h
  · obtain ⟨x, xs, rfl, hx⟩ := isIden_cons hr
    exact ⟨x, xs ++ '.' :: a, rfl, hx⟩

theorem codeOk_not_mem {c : Str} (h : CodeOk c) {x : Char} (hx : special x) (hd : x ≠ '.') : x ∉ c := by
  rcases h with h | ⟨r, a, hr, ha, rfl⟩
  · exact isIden_not_mem h hx
  · simp only [List.mem_append, List.mem_cons, not_or]
    exact ⟨isIden_not_mem hr hx, hd, isInt_not_mem ha hx⟩

theorem joinWith_start {s : Char} {ws : List Str} (hne : ws ≠ [])
    (h : ∀ w ∈ ws, ∃ x xs, w = x :: xs ∧ idenStart x = true) :
    ∃ x xs, joinWith s ws = x :: xs ∧ idenStart x = true := by
  cases ws with
  | nil => exact absurd rfl hne
  | cons w ws =>
    obtain ⟨x, xs, rfl, hx⟩ := h w (by simp)
    cases ws with
    | nil => exact ⟨x, xs, rfl, hx⟩
    | cons w' ws => exact ⟨x, xs ++ s :: joinWith s (w' :: ws), rfl, hx⟩

/-- Printing well formed codes and parsing them again. -/
theorem fusedOf_join {cs : List Str} (hne : cs ≠ []) (h : ∀ c ∈ cs, CodeOk c) :
    fusedOf (joinWith '|' cs) = .ok cs ∧ TextOk (joinWith '|' cs) := by
  have hp : ∀ c ∈ cs, '|' ∉ c := fun c hc => codeOk_not_mem (h c hc) (by simp [special]) (by decide)
  have hf : fusedOf (joinWith '|' cs) = .ok cs := by
    unfold fusedOf
    rw [splitOn_join hne hp, flatMapM_ok_of (g := fun c => [c]) (fun c hc => codeOf_codeOk (h c hc))]
    simp
  exact ⟨hf, joinWith_start hne (fun c hc => codeOk_start (h c hc)), (fusedOf_ok hf).2⟩

/-! ### items -/

/-- The sensors written on the left of an item. -/
def senses (p : Str) : List Str :=
  match p with
  | '(' :: rest => splitOn ',' rest.dropLast
  | _ => [p]

/-- A left hand side: one identifier, or a parenthesised list of identifiers. -/
def SenseOk (p : Str) : Prop :=
  isIden p = true ∨ ∃ ss : List Str, ss ≠ [] ∧ (∀ s ∈ ss, isIden s = true) ∧ p = '(' :: (joinWith ',' ss ++ [')'])

theorem senses_iden {p : Str} (h : isIden p = true) : senses p = [p] := by
  obtain ⟨c, cs, rfl, hc⟩ := isIden_cons h
  have : c ≠ '(' := by rintro rfl; exact absurd hc (by decide)
  unfold senses
  split
  · next h' => simp only [List.cons.injEq] at h'; exact absurd h'.1 this
  · rfl

theorem senses_paren {ss : List Str} (hne : ss ≠ []) (h : ∀ s ∈ ss, isIden s = true) :
    senses ('(' :: (joinWith ',' ss ++ [')'])) = ss := by
  simp only [senses, List.dropLast_concat]
  exact splitOn_join hne (fun s hs => isIden_not_mem (h s hs) (by simp [special]))

theorem parseItem_sense {p rhs : Str} {r : List (List Str)} (hp : SenseOk p)
    (hr : parseRhsOpt rhs = .ok r) (hd : startsDigit rhs = false) :
    parseItem (p ++ ':' :: rhs) = .ok (product (senses p) r) := by
  rcases hp with hp | ⟨ss, hne, hs, rfl⟩
  · rw [senses_iden hp]
    have hcol := isIden_not_mem hp (c := ':') (by simp [special])
    obtain ⟨c, cs, rfl, hc⟩ := isIden_cons hp
    have h1 : c ≠ '(' := by rintro rfl; exact absurd hc (by decide)
    unfold parseItem
    split
    · next h' => simp only [List.cons_append, List.cons.injEq] at h'; exact absurd h'.1 h1
    · rw [splitOnce_append hcol]
      simp [hp, hd, hr]
  · rw [senses_paren hne hs]
    have hnp : ')' ∉ joinWith ',' ss := by
      intro hm
      rcases mem_joinWith hm with h' | ⟨w, hw, hx⟩
      · exact absurd h' (by decide)
      · exact isIden_not_mem (hs w hw) (by simp [special]) hx
    have e : '(' :: (joinWith ',' ss ++ [')']) ++ ':' :: rhs =
        '(' :: (joinWith ',' ss ++ ')' :: ':' :: rhs) := by simp
    rw [e]
    simp only [parseItem]
    rw [splitOnce_append hnp]
    simp only
    rw [splitOn_join hne (fun s h' => isIden_not_mem (hs s h') (by simp [special])), if_pos]
    · simp [hr]
    · rw [List.all_eq_true]; exact hs

theorem parseRhs_text {t : Str} {f : List Str} (ht : TextOk t) (hf : fusedOf t = .ok f) :
    parseRhsOpt t = .ok [f] ∧ startsDigit t = false := by
  obtain ⟨⟨c, cs, rfl, hc⟩, _⟩ := ht
  have h1 : c ≠ '(' := by rintro rfl; exact absurd hc (by decide)
  refine ⟨?_, idenStart_not_digit hc⟩
  unfold parseRhsOpt parseRhs
  rw [if_neg (by simp)]
  split
  · next h' => simp only [List.cons.injEq] at h'; exact absurd h'.1 h1
  · simp [hf]

theorem unparen_snoc {s : Str} (h : ')' ∉ s) : unparen (s ++ [')']) = .ok s := by
  unfold unparen
  rw [splitOnce_append h]

theorem parseRhs_seq {ts : List Str} (hne : ts ≠ []) (ht : ∀ t ∈ ts, TextOk t) {r : List (List Str)}
    (hr : mapAll fusedOf ts = .ok r) :
    parseRhsOpt ('(' :: (joinWith ',' ts ++ [')'])) = .ok r := by
  have hnp : ')' ∉ joinWith ',' ts := by
    intro hm
    rcases mem_joinWith hm with h' | ⟨w, hw, hx⟩
    · exact absurd h' (by decide)
    · exact (ht w hw).2.2.2 hx
  unfold parseRhsOpt parseRhs
  rw [if_neg (by simp)]
  simp only [unparen_snoc hnp, Except.ok_bind']
  rw [splitOn_join hne (fun t h' => (ht t h').2.1)]
  exact hr

/-! ### splitting at the top level commas -/

/-- Prefix the first piece. -/
def prep (w : Str) : List Str → List Str
  | [] => [w]
  | h :: t => (w ++ h) :: t

theorem splitTop_ne_nil (d : Nat) (s : Str) : splitTop d s ≠ [] := by
  cases s with
  | nil => simp [splitTop]
  | cons c cs =>
    unfold splitTop
    split
    · simp
    · simp only
      split <;> simp

theorem prep_prep (a b : Str) (l : List Str) : prep a (prep b l) = prep (a ++ b) l := by
  cases l <;> simp [prep]

/-- Text that starts and ends outside parentheses and has no comma outside them. -/
def Bal (w : Str) : Prop := ∀ t, splitTop 0 (w ++ t) = prep w (splitTop 0 t)

theorem splitTop_cons {d d' : Nat} {c : Char} {cs : Str} (h : ¬ (c = ',' ∧ d = 0))
    (hd : d' = if c = '(' then d + 1 else if c = ')' then d - 1 else d) :
    splitTop d (c :: cs) = prep [c] (splitTop d' cs) := by
  conv => lhs; unfold splitTop
  rw [if_neg h, hd]
  simp only
  split
  · next e => rw [e]; rfl
  · next e => rw [e]; rfl

theorem splitTop_flat {w : Str} (d : Nat) (h1 : '(' ∉ w) (h2 : ')' ∉ w) (h3 : ',' ∈ w → d ≠ 0) (t : Str) :
    splitTop d (w ++ t) = prep w (splitTop d t) := by
  induction w with
  | nil =>
    cases h : splitTop d t with
    | nil => exact absurd h (splitTop_ne_nil d t)
    | cons a b => simp [prep, h]
  | cons c cs ih =>
    simp only [List.mem_cons, not_or] at h1 h2
    rw [List.cons_append, splitTop_cons (d' := d) (by
      rintro ⟨rfl, rfl⟩; exact h3 (by simp) rfl) (by
      rw [if_neg (Ne.symm h1.1), if_neg (Ne.symm h2.1)]), ih h1.2 h2.2 (fun h => h3 (by simp [h])), prep_prep]
    rfl

theorem bal_flat {w : Str} (h1 : '(' ∉ w) (h2 : ')' ∉ w) (h3 : ',' ∉ w) : Bal w :=
  fun t => splitTop_flat 0 h1 h2 (fun h => absurd h h3) t

theorem bal_paren {w : Str} (h1 : '(' ∉ w) (h2 : ')' ∉ w) : Bal ('(' :: (w ++ [')'])) := by
  intro t
  have e : '(' :: (w ++ [')']) ++ t = '(' :: (w ++ ')' :: t) := by simp
  rw [e, splitTop_cons (d' := 1) (by simp) (by simp), splitTop_flat 1 h1 h2 (by simp),
    splitTop_cons (d' := 0) (by simp) (by simp), prep_prep, prep_prep]
  simp

theorem bal_append {a b : Str} (ha : Bal a) (hb : Bal b) : Bal (a ++ b) := by
  intro t
  rw [List.append_assoc, ha, hb, prep_prep]

theorem splitTop_append {w t : Str} (h : Bal w) : splitTop 0 (w ++ ',' :: t) = w :: splitTop 0 t := by
  rw [h]
  conv => lhs; rw [show splitTop 0 (',' :: t) = [] :: splitTop 0 t by simp [splitTop]]
  simp [prep]

theorem splitTop_self {w : Str} (h : Bal w) : splitTop 0 w = [w] := by
  have := h []
  simpa [prep, splitTop] using this

theorem splitTop_join {ws : List Str} (hne : ws ≠ []) (h : ∀ w ∈ ws, Bal w) :
    splitTop 0 (joinWith ',' ws) = ws := by
  induction ws with
  | nil => exact absurd rfl hne
  | cons w ws ih =>
    cases ws with
    | nil => exact splitTop_self (h w (by simp))
    | cons w' ws =>
      simp only [joinWith]
      rw [splitTop_append (h w (by simp)), ih (by simp) (fun x hx => h x (by simp [hx]))]

theorem splitTop_join_append {ws : List Str} (hne : ws ≠ []) (h : ∀ w ∈ ws, Bal w) (t : Str) :
    splitTop 0 (joinWith ',' ws ++ ',' :: t) = ws ++ splitTop 0 t := by
  induction ws with
  | nil => exact absurd rfl hne
  | cons w ws ih =>
    cases ws with
    | nil => exact splitTop_append (h w (by simp))
    | cons w' ws =>
      have e : joinWith ',' (w :: w' :: ws) ++ ',' :: t = w ++ ',' :: (joinWith ',' (w' :: ws) ++ ',' :: t) := by
        simp [joinWith]
      rw [e, splitTop_append (h w (by simp)), ih (by simp) (fun x hx => h x (by simp [hx]))]
      rfl

theorem join_splitTop (d : Nat) (s : Str) : joinWith ',' (splitTop d s) = s := by
  induction s generalizing d with
  | nil => simp [splitTop, joinWith]
  | cons c cs ih =>
    unfold splitTop
    split
    · next h =>
      obtain ⟨rfl, rfl⟩ := h
      cases hs : splitTop 0 cs with
      | nil => exact absurd hs (splitTop_ne_nil 0 cs)
      | cons a b =>
        have := ih 0
        rw [hs] at this
        simp [joinWith, this]
    · simp only
      generalize (if c = '(' then d + 1 else if c = ')' then d - 1 else d) = d'
      have := ih d'
      cases hs : splitTop d' cs with
      | nil => exact absurd hs (splitTop_ne_nil d' cs)
      | cons a b =>
        rw [hs] at this
        cases b with
        | nil => simpa [joinWith] using this
        | cons b bs => simpa [joinWith] using this

theorem bal_colon : Bal [':'] := bal_flat (by decide) (by decide) (by decide)

theorem bal_sense {p : Str} (h : SenseOk p) : Bal p := by
  rcases h with h | ⟨ss, hne, hs, rfl⟩
  · exact bal_flat (isIden_not_mem h (by simp [special])) (isIden_not_mem h (by simp [special]))
      (isIden_not_mem h (by simp [special]))
  · have key : ∀ x, x = '(' ∨ x = ')' → x ∉ joinWith ',' ss := by
      intro x hx hm
      rcases mem_joinWith hm with rfl | ⟨w, hw, hxw⟩
      · rcases hx with hx | hx <;> exact absurd hx (by decide)
      · exact isIden_not_mem (hs w hw) (by rcases hx with rfl | rfl <;> simp [special]) hxw
    exact bal_paren (key _ (by simp)) (key _ (by simp))

theorem bal_seq {ts : List Str} (h : ∀ t ∈ ts, '(' ∉ t ∧ ')' ∉ t) :
    Bal ('(' :: (joinWith ',' ts ++ [')'])) := by
  have key : ∀ x, x = '(' ∨ x = ')' → x ∉ joinWith ',' ts := by
    intro x hx hm
    rcases mem_joinWith hm with rfl | ⟨w, hw, hxw⟩
    · rcases hx with hx | hx <;> exact absurd hx (by decide)
    · rcases hx with rfl | rfl
      · exact (h w hw).1 hxw
      · exact (h w hw).2 hxw
  exact bal_paren (key _ (by simp)) (key _ (by simp))

/-! ### accepted items -/

/-- A node produced by the parser. -/
def NodeOk (n : Str × List Str) : Prop := isIden n.1 = true ∧ ∀ c ∈ n.2, CodeOk c

theorem star_iden : isIden (p! "*") = true := by decide

theorem product_ok {lhs : List Str} {r : List (List Str)} (hl : ∀ s ∈ lhs, isIden s = true)
    (hr : ∀ f ∈ r, ∀ c ∈ f, CodeOk c) : ∀ n ∈ product lhs r, NodeOk n := by
  intro n hn
  unfold product at hn
  obtain ⟨a, ha, hn⟩ := List.mem_flatMap.1 hn
  obtain ⟨b, hb, rfl⟩ := List.mem_map.1 hn
  exact ⟨hl a ha, hr b hb⟩

theorem mapAll_fused_ok {ts : List Str} {r : List (List Str)} (h : mapAll fusedOf ts = .ok r) :
    (∀ f ∈ r, ∀ c ∈ f, CodeOk c) ∧ ∀ t ∈ ts, '(' ∉ t ∧ ')' ∉ t := by
  have := mapAll_ok_mem h
  constructor
  · intro f hf
    obtain ⟨x, _, hx⟩ := this.2 f hf
    exact (fusedOf_ok hx).1
  · intro t ht
    obtain ⟨y, _, hy⟩ := this.1 t ht
    exact ⟨(fusedOf_ok hy).2.2.1, (fusedOf_ok hy).2.2.2⟩

theorem parseRhs_ok {s : Str} {r : List (List Str)} (h : parseRhsOpt s = .ok r) :
    (∀ f ∈ r, ∀ c ∈ f, CodeOk c) ∧ Bal s := by
  unfold parseRhsOpt at h
  split at h
  · next e =>
    subst e
    cases h
    refine ⟨fun f hf c hc => ?_, bal_flat (by simp) (by simp) (by simp)⟩
    rw [List.mem_singleton] at hf; subst hf; cases hc
  · unfold parseRhs at h
    split at h
    · next rest =>
      rw [Except.bind_eq_ok'] at h
      obtain ⟨inner, hi, h⟩ := h
      unfold unparen at hi
      split at hi
      · next inner' hs =>
        cases hi
        obtain ⟨rfl, hnp⟩ := splitOnce_eq_some hs
        have := mapAll_fused_ok h
        refine ⟨this.1, ?_⟩
        have hb := bal_seq this.2
        rwa [join_splitOn] at hb
      · cases hi
    · rw [Except.bind_eq_ok'] at h
      obtain ⟨f, hf, h⟩ := h
      cases h
      have := fusedOf_ok hf
      refine ⟨?_, bal_flat this.2.2.1 this.2.2.2 this.2.1⟩
      intro g hg
      rw [List.mem_singleton] at hg; subst hg; exact this.1

theorem fused_item_ok {s : Str} {f : List Str} (hf : fusedOf s = .ok f) :
    (∀ n ∈ product [p! "*"] [f], NodeOk n) ∧ Bal s := by
  have := fusedOf_ok hf
  refine ⟨product_ok ?_ ?_, bal_flat this.2.2.1 this.2.2.2 this.2.1⟩
  · intro a ha; rw [List.mem_singleton] at ha; subst ha; exact star_iden
  · intro a ha; rw [List.mem_singleton] at ha; subst ha; exact this.1

/-- Every accepted item is balanced text and produces well formed nodes. -/
theorem parseItem_ok {s : Str} {ns : List (Str × List Str)} (h : parseItem s = .ok ns) :
    (∀ n ∈ ns, NodeOk n) ∧ Bal s := by
  unfold parseItem at h
  split at h
  · next rest =>
    split at h
    · cases h
    · next inner after hs =>
      obtain ⟨rfl, hnp⟩ := splitOnce_eq_some hs
      split at h
      · next rhs _ =>
        split at h
        · next hall =>
          rw [Except.bind_eq_ok'] at h
          obtain ⟨r, hr, h⟩ := h
          cases h
          rw [List.all_eq_true] at hall
          have := parseRhs_ok hr
          refine ⟨product_ok hall this.1, ?_⟩
          have hb : Bal ('(' :: (inner ++ [')'])) := by
            have hb := bal_seq (ts := splitOn ',' inner) (fun t ht =>
              ⟨isIden_not_mem (hall t ht) (by simp [special]), isIden_not_mem (hall t ht) (by simp [special])⟩)
            rwa [join_splitOn] at hb
          have := bal_append hb (bal_append bal_colon this.2)
          simpa using this
        · cases h
      · split at h
        · cases h
        · rw [Except.bind_eq_ok'] at h
          obtain ⟨r, hr, h⟩ := h
          cases h
          have := mapAll_fused_ok hr
          refine ⟨product_ok ?_ this.1, ?_⟩
          · intro a ha; rw [List.mem_singleton] at ha; subst ha; exact star_iden
          · have hb := bal_seq this.2
            rwa [join_splitOn] at hb
      · cases h
  · split at h
    · next a rhs hs =>
      split at h
      · next hc =>
        rw [Bool.and_eq_true] at hc
        obtain ⟨rfl, _⟩ := splitOnce_eq_some hs
        rw [Except.bind_eq_ok'] at h
        obtain ⟨r, hr, h⟩ := h
        cases h
        have := parseRhs_ok hr
        refine ⟨product_ok ?_ this.1, ?_⟩
        · intro x hx; rw [List.mem_singleton] at hx; subst hx; exact hc.1
        · have := bal_append (bal_sense (.inl hc.1)) (bal_append bal_colon this.2)
          simpa using this
      · rw [Except.bind_eq_ok'] at h
        obtain ⟨f, hf, h⟩ := h
        cases h
        exact fused_item_ok hf
    · rw [Except.bind_eq_ok'] at h
      obtain ⟨f, hf, h⟩ := h
      cases h
      exact fused_item_ok hf

theorem nodes_ok {s : Str} {ns : List (Str × List Str)} (h : nodes s = .ok ns) :
    (∀ n ∈ ns, NodeOk n) ∧ ∀ w ∈ splitTop 0 s, Bal w := by
  unfold nodes at h
  constructor
  · intro n hn
    obtain ⟨x, _, y, hy, hny⟩ := flatMapM_mem_ok h n hn
    exact (parseItem_ok hy).1 n hny
  · intro w hw
    obtain ⟨y, hy, _⟩ := flatMapM_ok_mem h w hw
    exact (parseItem_ok hy).2

/-- Late fused text is parsed as the concatenation. -/
theorem nodes_append {a b : Str} {na : List (Str × List Str)} (ha : nodes a = .ok na) :
    nodes (a ++ ',' :: b) = (nodes b).map (fun nb => na ++ nb) := by
  have hb := (nodes_ok ha).2
  have e := splitTop_join_append (splitTop_ne_nil 0 a) hb b
  rw [join_splitTop] at e
  unfold nodes at ha ⊢
  rw [e, flatMapM_append, ha]
  simp only [Except.ok_bind']
  cases flatMapM parseItem (splitTop 0 b) <;> simp

/-- Printing one node and parsing it again. -/
theorem parseItem_node {n : Str × List Str} (h : NodeOk n) :
    parseItem (nodeSpec n) = .ok [n] ∧ Bal (nodeSpec n) := by
  have hp : parseItem (nodeSpec n) = .ok [n] := by
    unfold nodeSpec
    by_cases hn : n.2 = []
    · rw [hn]
      have := parseItem_sense (p := n.1) (rhs := []) (r := [[]]) (.inl h.1) rfl rfl
      rw [senses_iden h.1] at this
      rw [show joinWith '|' [] = [] from rfl, this]
      have e : n = (n.1, []) := by rw [← hn]
      rw [e]; rfl
    · obtain ⟨hf, ht⟩ := fusedOf_join hn h.2
      obtain ⟨hr, hd⟩ := parseRhs_text ht hf
      rw [parseItem_sense (.inl h.1) hr hd, senses_iden h.1]
      simp [product]
  exact ⟨hp, (parseItem_ok hp).2⟩

/-- Printing nodes and parsing them again. -/
theorem nodes_print {ns : List (Str × List Str)} (hne : ns ≠ []) (h : ∀ n ∈ ns, NodeOk n) :
    nodes (joinWith ',' (ns.map nodeSpec)) = .ok ns := by
  unfold nodes
  rw [splitTop_join (by simpa using hne) (by
    intro w hw
    obtain ⟨n, hn, rfl⟩ := List.mem_map.1 hw
    exact (parseItem_node (h n hn)).2)]
  clear hne
  induction ns with
  | nil => rfl
  | cons n ns ih =>
    simp only [List.map_cons, flatMapM, (parseItem_node (h n (by simp))).1,
      ih (fun x hx => h x (by simp [hx])), Except.ok_bind']
    rfl

theorem nodes_nonempty {s : Str} {ns : List (Str × List Str)} (h : nodes s = .ok ns) : ns ≠ [] := by
  unfold nodes at h
  cases hs : splitTop 0 s with
  | nil => exact absurd hs (splitTop_ne_nil 0 s)
  | cons w ws =>
    obtain ⟨y, hy, hz⟩ := flatMapM_ok_mem h w (by rw [hs]; simp)
    have hy' : y ≠ [] := by
      have prod : ∀ (l : List Str) (r : List (List Str)), l ≠ [] → r ≠ [] → product l r ≠ [] := by
        intro l r hl hr
        cases l with
        | nil => exact absurd rfl hl
        | cons a l =>
          cases r with
          | nil => exact absurd rfl hr
          | cons b r => simp [product]
      have mapne : ∀ {t : Str} {r : List (List Str)}, mapAll fusedOf (splitOn ',' t) = .ok r → r ≠ [] := by
        intro t r hr
        cases ht : splitOn ',' t with
        | nil => exact absurd ht (splitOn_ne_nil ',' t)
        | cons x xs =>
          obtain ⟨z, hz, _⟩ := (mapAll_ok_mem hr).1 x (by rw [ht]; simp)
          intro e; rw [e] at hz; cases hz
      have rhsne : ∀ {t : Str} {r : List (List Str)}, parseRhsOpt t = .ok r → r ≠ [] := by
        intro t r hr
        unfold parseRhsOpt at hr
        split at hr
        · cases hr; simp
        · unfold parseRhs at hr
          split at hr
          · rw [Except.bind_eq_ok'] at hr
            obtain ⟨inner, hi, hr⟩ := hr
            exact mapne hr
          · rw [Except.bind_eq_ok'] at hr
            obtain ⟨f, hf, hr⟩ := hr
            cases hr; simp
      unfold parseItem at hy
      split at hy
      · split at hy
        · cases hy
        · split at hy
          · split at hy
            · rw [Except.bind_eq_ok'] at hy
              obtain ⟨r, hr, hy⟩ := hy
              cases hy
              exact prod _ _ (splitOn_ne_nil _ _) (rhsne hr)
            · cases hy
          · split at hy
            · cases hy
            · rw [Except.bind_eq_ok'] at hy
              obtain ⟨r, hr, hy⟩ := hy
              cases hy
              exact prod _ _ (by simp) (mapne hr)
          · cases hy
      · split at hy
        · split at hy
          · rw [Except.bind_eq_ok'] at hy
            obtain ⟨r, hr, hy⟩ := hy
            cases hy
            exact prod _ _ (by simp) (rhsne hr)
          · rw [Except.bind_eq_ok'] at hy
            obtain ⟨r, hr, hy⟩ := hy
            cases hy
            exact prod _ _ (by simp) (by simp)
        · rw [Except.bind_eq_ok'] at hy
          obtain ⟨r, hr, hy⟩ := hy
          cases hy
          exact prod _ _ (by simp) (by simp)
    intro e
    subst e
    cases y with
    | nil => exact hy' rfl
    | cons a as => exact absurd (hz a (by simp)) (by simp)

end SC
end Verif
