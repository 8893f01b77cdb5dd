/-
Helper lemmas about the Python vocabulary of `Verif.Py`.
-/
import Verif.Py

set_option linter.unusedSimpArgs false
set_option linter.unusedVariables false

namespace Verif

/-! ### split and join -/

theorem splitOn_ne_nil (c : Char) (s : Str) : splitOn c s ≠ [] := by
  cases s with
  | nil => simp [splitOn]
  | cons x xs =>
    simp only [splitOn]
    split
    · simp
    · split <;> simp

theorem join_splitOn (c : Char) (s : Str) : joinWith c (splitOn c s) = s := by
  induction s with
  | nil => rfl
  | cons x xs ih =>
    simp only [splitOn]
    split
    · next h =>
      subst h
      cases hs : splitOn x xs with
      | nil => exact absurd hs (splitOn_ne_nil _ _)
      | cons w ws => rw [hs] at ih; simp [joinWith, ih]
    · cases hs : splitOn c xs with
      | nil => exact absurd hs (splitOn_ne_nil _ _)
      | cons w ws =>
        rw [hs] at ih
        cases ws with
        | nil => simpa [joinWith] using ih
        | cons w' ws => simpa [joinWith] using ih

theorem splitOn_of_not_mem {c : Char} {s : Str} (h : c ∉ s) : splitOn c s = [s] := by
  induction s with
  | nil => rfl
  | cons x xs ih =>
    simp only [List.mem_cons, not_or] at h
    simp [splitOn, Ne.symm h.1, ih h.2]

theorem splitOn_append_sep {c : Char} {s t : Str} (h : c ∉ s) :
    splitOn c (s ++ c :: t) = s :: splitOn c t := by
  induction s with
  | nil => simp [splitOn]
  | cons x xs ih =>
    simp only [List.mem_cons, not_or] at h
    simp [splitOn, Ne.symm h.1, ih h.2]

theorem splitOn_join {c : Char} {ws : List Str} (hne : ws ≠ []) (h : ∀ w ∈ ws, c ∉ w) :
    splitOn c (joinWith c ws) = ws := by
  induction ws with
  | nil => exact absurd rfl hne
  | cons w ws ih =>
    cases ws with
    | nil => simpa [joinWith] using splitOn_of_not_mem (h w (by simp))
    | cons w' ws =>
      simp only [joinWith]
      rw [splitOn_append_sep (h w (by simp)), ih (by simp) (fun x hx => h x (by simp [hx]))]

theorem not_mem_of_mem_splitOn {c : Char} {s w : Str} (h : w ∈ splitOn c s) : c ∉ w := by
  induction s generalizing w with
  | nil => simp [splitOn] at h; simp [h]
  | cons x xs ih =>
    simp only [splitOn] at h
    split at h
    · rcases List.mem_cons.1 h with h | h
      · simp [h]
      · exact ih h
    · next hx =>
      cases hs : splitOn c xs with
      | nil => exact absurd hs (splitOn_ne_nil _ _)
      | cons v vs =>
        rw [hs] at h ih
        rcases List.mem_cons.1 h with h | h
        · subst h
          have := ih (w := v) (by simp)
          simp [Ne.symm hx, this]
        · exact ih (by simp [h])

theorem mem_joinWith {c x : Char} {ws : List Str} (h : x ∈ joinWith c ws) :
    x = c ∨ ∃ w ∈ ws, x ∈ w := by
  induction ws with
  | nil => simp [joinWith] at h
  | cons w ws ih =>
    cases ws with
    | nil => exact .inr ⟨w, by simp, by simpa [joinWith] using h⟩
    | cons w' ws =>
      simp only [joinWith, List.mem_append, List.mem_cons] at h
      rcases h with h | h | h
      · exact .inr ⟨w, by simp, h⟩
      · exact .inl h
      · rcases ih h with h | ⟨v, hv, hx⟩
        · exact .inl h
        · exact .inr ⟨v, List.mem_cons_of_mem _ hv, hx⟩

theorem splitOnce_append {c : Char} {s t : Str} (h : c ∉ s) :
    splitOnce c (s ++ c :: t) = some (s, t) := by
  induction s with
  | nil => simp [splitOnce]
  | cons x xs ih =>
    simp only [List.mem_cons, not_or] at h
    simp [splitOnce, Ne.symm h.1, ih h.2]

theorem splitOnce_eq_some {c : Char} {s a b : Str} (h : splitOnce c s = some (a, b)) :
    s = a ++ c :: b ∧ c ∉ a := by
  induction s generalizing a b with
  | nil => simp [splitOnce] at h
  | cons x xs ih =>
    simp only [splitOnce] at h
    split at h
    · next hx => simp at h; obtain ⟨rfl, rfl⟩ := h; simp [hx]
    · next hx =>
      split at h
      · simp at h
      · next a' b' heq =>
        simp at h
        obtain ⟨rfl, rfl⟩ := h
        obtain ⟨h1, h2⟩ := ih heq
        refine ⟨by simp [h1], ?_⟩
        simp [h2, Ne.symm hx]

theorem splitOnce_isSome_iff {c : Char} {s : Str} : (splitOnce c s).isSome ↔ c ∈ s := by
  induction s with
  | nil => simp [splitOnce]
  | cons x xs ih =>
    simp only [splitOnce]
    split
    · next h => simp [h]
    · next h =>
      split
      · next heq => simp [heq] at ih; simp [ih, Ne.symm h]
      · next heq => simp [heq] at ih; simp [ih]

/-! ### decimal integers -/

theorem digitVal_digitChar {d : Nat} (h : d < 10) : digitVal? (digitChar d) = some d := by
  have : ∀ d : Fin 10, digitVal? (digitChar d) = some d.val := by decide
  exact this ⟨d, h⟩

theorem digitChar_props {d : Nat} (h : d < 10) :
    digitChar d ≠ '.' ∧ digitChar d ≠ ':' ∧ digitChar d ≠ '|' ∧ digitChar d ≠ ',' ∧
    digitChar d ≠ '-' ∧ digitChar d ≠ '+' ∧ isWs (digitChar d) = false := by
  have : ∀ d : Fin 10, digitChar d ≠ '.' ∧ digitChar d ≠ ':' ∧ digitChar d ≠ '|' ∧
      digitChar d ≠ ',' ∧
      digitChar d ≠ '-' ∧ digitChar d ≠ '+' ∧ isWs (digitChar d) = false := by decide
  exact this ⟨d, h⟩

theorem natStrF_eq {f g n : Nat} (hf : n < f) (hg : n < g) : natStrF f n = natStrF g n := by
  induction f generalizing g n with
  | zero => omega
  | succ f ih =>
    cases g with
    | zero => omega
    | succ g =>
      simp only [natStrF]
      split
      · rfl
      · rw [ih (g := g) (n := n / 10) (by omega) (by omega)]

theorem natStr_lt {n : Nat} (h : n < 10) : natStr n = [digitChar n] := by
  simp [natStr, natStrF, h]

theorem natStr_ge {n : Nat} (h : 10 ≤ n) :
    natStr n = natStr (n / 10) ++ [digitChar (n % 10)] := by
  have h' : ¬ n < 10 := by omega
  simp only [natStr, natStrF, h', if_false]
  rw [natStrF_eq (f := n) (g := n / 10 + 1) (by omega) (by omega)]
  rfl

/-- Every character of `str(n)` is a digit. -/
theorem natStr_digit {n : Nat} {c : Char} (h : c ∈ natStr n) : ∃ d < 10, c = digitChar d := by
  induction n using Nat.strongRecOn with
  | _ n ih =>
    by_cases hn : n < 10
    · rw [natStr_lt hn] at h
      exact ⟨n, hn, by simpa using h⟩
    · rw [natStr_ge (by omega)] at h
      rcases List.mem_append.1 h with h | h
      · exact ih (n / 10) (by omega) h
      · exact ⟨n % 10, by omega, by simpa using h⟩

theorem natStr_ne_nil (n : Nat) : natStr n ≠ [] := by
  by_cases hn : n < 10
  · simp [natStr_lt hn]
  · simp [natStr_ge (show 10 ≤ n by omega)]

theorem goDigits_natStr (n acc : Nat) (rest : Str) :
    ∃ k, goDigits acc (natStr n ++ rest) = goDigits (acc * k + n) rest := by
  induction n using Nat.strongRecOn generalizing acc rest with
  | _ n ih =>
    by_cases hn : n < 10
    · refine ⟨10, ?_⟩
      rw [natStr_lt hn]
      simp only [List.cons_append, List.nil_append]
      conv => lhs; unfold goDigits
      simp [digitVal_digitChar hn]
    · rw [natStr_ge (by omega), List.append_assoc]
      obtain ⟨k, hk⟩ := ih (n / 10) (by omega) acc ([digitChar (n % 10)] ++ rest)
      refine ⟨k * 10, ?_⟩
      rw [hk]
      simp only [List.cons_append, List.nil_append]
      conv => lhs; unfold goDigits
      simp only [digitVal_digitChar (show n % 10 < 10 by omega)]
      congr 1
      rw [Nat.add_mul, Nat.mul_assoc]
      omega

theorem parseNat_natStr (n : Nat) : parseNat? (natStr n) = some n := by
  obtain ⟨k, hk⟩ := goDigits_natStr n 0 []
  rw [List.append_nil] at hk
  cases hs : natStr n with
  | nil => exact absurd hs (natStr_ne_nil n)
  | cons c cs =>
    obtain ⟨d, hd, rfl⟩ := natStr_digit (n := n) (c := c) (by simp [hs])
    rw [hs] at hk
    unfold goDigits at hk
    simp only [digitVal_digitChar hd] at hk
    simp only [parseNat?, digitVal_digitChar hd]
    simpa [goDigits] using hk

theorem strip_of_no_ws {s : Str} (h : ∀ c ∈ s, isWs c = false) : strip s = s := by
  have dw : ∀ t : Str, (∀ c ∈ t, isWs c = false) → t.dropWhile isWs = t := by
    intro t ht
    cases t with
    | nil => rfl
    | cons x xs => simp [List.dropWhile, ht x (by simp)]
  unfold strip
  rw [dw s h, dw s.reverse (by simpa using h), List.reverse_reverse]

theorem pyInt_intStr (i : Int) : pyInt (intStr i) = .ok i := by
  cases i with
  | ofNat n =>
    have hstrip : strip (natStr n) = natStr n := by
      apply strip_of_no_ws
      intro c hc
      obtain ⟨d, hd, rfl⟩ := natStr_digit hc
      exact (digitChar_props hd).2.2.2.2.2.2
    have hp := parseNat_natStr n
    simp only [intStr, pyInt, hstrip]
    cases hs : natStr n with
    | nil => exact absurd hs (natStr_ne_nil n)
    | cons c cs =>
      obtain ⟨d, hd, rfl⟩ := natStr_digit (n := n) (c := c) (by simp [hs])
      have hne := digitChar_props hd
      rw [hs] at hp
      split
      · next heq => simp at heq; exact absurd heq.1 hne.2.2.2.2.1
      · next heq => simp at heq; exact absurd heq.1 hne.2.2.2.2.2.1
      · rw [hp]; rfl
  | negSucc n =>
    have hstrip : strip ('-' :: natStr (n + 1)) = '-' :: natStr (n + 1) := by
      apply strip_of_no_ws
      intro c hc
      rcases List.mem_cons.1 hc with rfl | hc
      · decide
      obtain ⟨d, hd, rfl⟩ := natStr_digit hc
      exact (digitChar_props hd).2.2.2.2.2.2
    simp only [intStr, pyInt, hstrip, parseNat_natStr]
    rfl

theorem intStr_injective {i j : Int} (h : intStr i = intStr j) : i = j := by
  have := pyInt_intStr i
  rw [h, pyInt_intStr] at this
  simpa using this.symm

theorem intStr_ne_nil (i : Int) : intStr i ≠ [] := by
  cases i with
  | ofNat n => exact natStr_ne_nil n
  | negSucc n => simp [intStr]

theorem natStr_not_mem {n : Nat} {c : Char} (hc : c = '.' ∨ c = ':' ∨ c = '|' ∨ c = ',') :
    c ∉ natStr n := by
  intro h
  obtain ⟨d, hd, he⟩ := natStr_digit h
  have := digitChar_props hd
  rw [← he] at this
  rcases hc with rfl | rfl | rfl | rfl <;> simp at this

theorem intStr_not_mem {i : Int} {c : Char} (hc : c = '.' ∨ c = ':' ∨ c = '|' ∨ c = ',') :
    c ∉ intStr i := by
  cases i with
  | ofNat n => exact natStr_not_mem hc
  | negSucc n =>
    simp only [intStr, List.mem_cons, not_or]
    refine ⟨?_, natStr_not_mem hc⟩
    rcases hc with rfl | rfl | rfl | rfl <;> decide

/-! ### range -/

theorem rangeUp_length {f : Nat} {a b s : Int} (hs : 0 < s) (hf : (b - a).toNat ≤ f) :
    (rangeUp f a b s).length = if a < b then ((b - a - 1) / s + 1).toNat else 0 := by
  induction f generalizing a with
  | zero =>
    have : ¬ a < b := by omega
    simp [rangeUp, this]
  | succ f ih =>
    simp only [rangeUp]
    split
    · next h =>
      rw [List.length_cons, ih (by omega)]
      split
      · next h2 =>
        have e : b - a - 1 = (b - (a + s) - 1) + s := by omega
        rw [e, Int.add_ediv_of_dvd_right (Int.dvd_refl s), Int.ediv_self (by omega)]
        have : 0 ≤ (b - (a + s) - 1) / s := Int.ediv_nonneg (by omega) (by omega)
        omega
      · next h2 =>
        have : (b - a - 1) / s = 0 := Int.ediv_eq_zero_of_lt (by omega) (by omega)
        rw [this]; rfl
    · rfl

theorem rangeDown_length {f : Nat} {a b s : Int} (hs : s < 0) (hf : (a - b).toNat ≤ f) :
    (rangeDown f a b s).length = if b < a then ((a - b - 1) / (-s) + 1).toNat else 0 := by
  induction f generalizing a with
  | zero =>
    have : ¬ b < a := by omega
    simp [rangeDown, this]
  | succ f ih =>
    simp only [rangeDown]
    split
    · next h =>
      rw [List.length_cons, ih (by omega)]
      split
      · next h2 =>
        have e : a - b - 1 = (a + s - b - 1) + (-s) := by omega
        rw [e, Int.add_ediv_of_dvd_right (Int.dvd_refl _), Int.ediv_self (by omega)]
        have : 0 ≤ (a + s - b - 1) / (-s) := Int.ediv_nonneg (by omega) (by omega)
        omega
      · next h2 =>
        have : (a - b - 1) / (-s) = 0 := Int.ediv_eq_zero_of_lt (by omega) (by omega)
        rw [this]; rfl
    · rfl

/-- Iterating a range yields as many values as CPython's length formula says. -/
theorem pyRange_length (a b s : Int) :
    (pyRange a b s).map List.length = pyRangeLen a b s := by
  unfold pyRange pyRangeLen
  split
  · rfl
  · split
    · next h => simp [Except.map, rangeUp_length h (Nat.le_refl _)]
    · next h0 h => simp [Except.map, rangeDown_length (show s < 0 by omega) (Nat.le_refl _)]

/-- With step one a range lists the consecutive integers. -/
theorem rangeUp_one {f : Nat} {a b : Int} (hf : (b - a).toNat ≤ f) :
    rangeUp f a b 1 = (List.range (b - a).toNat).map (fun i : Nat => a + i) := by
  induction f generalizing a with
  | zero =>
    have : (b - a).toNat = 0 := by omega
    simp [rangeUp, this]
  | succ f ih =>
    simp only [rangeUp]
    split
    · next h =>
      rw [ih (by omega)]
      have : (b - a).toNat = (b - (a + 1)).toNat + 1 := by omega
      rw [this, List.range_succ_eq_map]
      simp
      intro x hx
      omega
    · next h =>
      have : (b - a).toNat = 0 := by omega
      simp [this]

end Verif
