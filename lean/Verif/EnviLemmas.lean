/-
Facts about stripping and splitting, and reading one item of an ENVI header.
-/
import Verif.Envi
import Verif.ChanLemmas

namespace Verif
namespace Envi

/-! ### white space -/

def Blank (s : Str) : Prop := ∀ c ∈ s, isWs c = true

theorem dropWhile_blank {a : Str} (h : Blank a) (s : Str) : (a ++ s).dropWhile isWs = s.dropWhile isWs := by
  induction a with
  | nil => rfl
  | cons c a ih =>
    rw [List.cons_append, List.dropWhile_cons, if_pos (h c (by simp))]
    exact ih fun x hx => h x (by simp [hx])

theorem strip_blank_append {a : Str} (h : Blank a) (s : Str) : strip (a ++ s) = strip s := by
  unfold strip; rw [dropWhile_blank h]

theorem blank_reverse {a : Str} (h : Blank a) : Blank a.reverse := fun c hc => h c (by simpa using hc)

theorem dropWhile_all {a : Str} (h : Blank a) : a.dropWhile isWs = [] := by
  have := dropWhile_blank h []
  simpa using this

/-- `s.lstrip()` is `s` without blank characters in front. -/
theorem lstrip_decomp (s : Str) : ∃ a, Blank a ∧ s = a ++ s.dropWhile isWs := by
  refine ⟨s.takeWhile isWs, ?_, (List.takeWhile_append_dropWhile).symm⟩
  induction s with
  | nil => intro c hc; cases hc
  | cons x s ih =>
    intro c hc
    rw [List.takeWhile_cons] at hc
    split at hc
    · rename_i hx
      rcases List.mem_cons.1 hc with rfl | hc
      · exact hx
      · exact ih c hc
    · cases hc

/-- `s.rstrip()`. -/
def rtrim (s : Str) : Str := (s.reverse.dropWhile isWs).reverse

theorem rstrip_decomp (s : Str) : ∃ b, Blank b ∧ s = rtrim s ++ b := by
  obtain ⟨a, ha, e⟩ := lstrip_decomp s.reverse
  refine ⟨a.reverse, blank_reverse ha, ?_⟩
  have := congrArg List.reverse e
  rw [List.reverse_reverse, List.reverse_append] at this
  exact this

theorem strip_append_blank {b : Str} (h : Blank b) (s : Str) : strip (s ++ b) = strip s := by
  unfold strip
  rcases Classical.em (Blank s) with hs | hs
  · rw [dropWhile_all hs, dropWhile_blank hs, dropWhile_all h]
  · have : (s ++ b).dropWhile isWs = s.dropWhile isWs ++ b := by
      rw [List.dropWhile_append]
      split
      · rename_i e
        exfalso
        apply hs
        obtain ⟨a, ha, e'⟩ := lstrip_decomp s
        rw [List.isEmpty_iff.1 e, List.append_nil] at e'
        rw [e']; exact ha
      · rfl
    rw [this, List.reverse_append, dropWhile_blank (blank_reverse h)]

theorem strip_blank {s : Str} (h : Blank s) : strip s = [] := by
  unfold strip; rw [dropWhile_all h]; rfl

theorem strip_decomp (s : Str) : ∃ a b, Blank a ∧ Blank b ∧ s = a ++ strip s ++ b := by
  obtain ⟨a, ha, e⟩ := lstrip_decomp s
  obtain ⟨b, hb, e'⟩ := rstrip_decomp (s.dropWhile isWs)
  refine ⟨a, b, ha, hb, ?_⟩
  rw [List.append_assoc]
  exact e.trans (by rw [e']; rfl)

theorem rstrip_shield (s : Str) {c : Char} (hc : isWs c = false) {b : Str} (hb : Blank b) :
    rtrim (s ++ c :: b) = s ++ [c] := by
  unfold rtrim
  rw [List.reverse_append, List.reverse_cons, List.append_assoc, dropWhile_blank (blank_reverse hb)]
  simp [hc]

theorem comma_not_blank {w : Str} (h : Blank w) : ',' ∉ w := fun hc => by
  have := h _ hc
  simp [isWs] at this

/-! ### the values between commas -/

/-- The stripped pieces between commas. -/
def values (s : Str) : List Str := (splitOn ',' s).map strip

theorem values_blank_append {w : Str} (h : Blank w) (s : Str) : values (w ++ s) = values s := by
  unfold values
  induction w with
  | nil => rfl
  | cons c w ih =>
    have hw : Blank w := fun x hx => h x (by simp [hx])
    have hc : c ≠ ',' := fun e => comma_not_blank h (by simp [e])
    rw [List.cons_append, splitOn, if_neg hc, ← ih hw]
    cases e : splitOn ',' (w ++ s) with
    | nil => exact absurd e (splitOn_ne_nil _ _)
    | cons a as =>
      simp only [List.map_cons, List.cons.injEq, and_true]
      exact strip_blank_append (a := [c]) (by intro x hx; rw [List.mem_singleton.1 hx]; exact h c (by simp)) a

theorem splitOn_blank_end {w : Str} (h : Blank w) : ∀ s : Str, ∃ init last,
    splitOn ',' s = init ++ [last] ∧ splitOn ',' (s ++ w) = init ++ [last ++ w]
  | [] => ⟨[], [], rfl, by
      rw [List.nil_append, splitOn_of_not_mem (comma_not_blank h)]; rfl⟩
  | c :: s => by
    obtain ⟨init, last, e1, e2⟩ := splitOn_blank_end h s
    by_cases hc : c = ','
    · refine ⟨[] :: init, last, ?_, ?_⟩
      · rw [splitOn, if_pos hc, e1]; rfl
      · rw [List.cons_append, splitOn, if_pos hc, e2]; rfl
    · cases init with
      | nil =>
        refine ⟨[], c :: last, ?_, ?_⟩
        · rw [splitOn, if_neg hc, e1]; rfl
        · rw [List.cons_append, splitOn, if_neg hc, e2]; rfl
      | cons a init =>
        refine ⟨(c :: a) :: init, last, ?_, ?_⟩
        · rw [splitOn, if_neg hc, e1]; rfl
        · rw [List.cons_append, splitOn, if_neg hc, e2]; rfl

theorem values_append_blank {w : Str} (h : Blank w) (s : Str) : values (s ++ w) = values s := by
  obtain ⟨init, last, e1, e2⟩ := splitOn_blank_end h s
  unfold values
  rw [e1, e2, List.map_append, List.map_append, List.map_singleton, List.map_singleton, strip_append_blank h]

theorem values_comma (s t : Str) : values (s ++ ',' :: t) = values s ++ values t := by
  unfold values
  rw [splitOn_append, List.map_append]

theorem values_join {r : List Str} (hne : r ≠ []) (h : ∀ c ∈ r, ',' ∉ c) : values (joinWith ',' r) = r.map strip := by
  unfold values
  rw [splitOn_join hne h]

/-- Stripping the text before something does not change values if it ends with a comma. -/
theorem values_strip_comma (y : Str) {w : Str} (hw : Blank w) (t : Str) :
    values (strip (y ++ ',' :: w) ++ t) = values y ++ values t := by
  have hr : rtrim (y ++ ',' :: w) = y ++ [','] := rstrip_shield y (by decide) hw
  obtain ⟨b, hb, e⟩ := rstrip_decomp (y ++ ',' :: w)
  have h1 : strip (y ++ ',' :: w) = strip (y ++ [',']) := by
    rw [e, hr, strip_append_blank hb]
  have h2 : strip (y ++ [',']) = (y ++ [',']).dropWhile isWs := by
    show rtrim ((y ++ [',']).dropWhile isWs) = _
    obtain ⟨a, ha, e⟩ := lstrip_decomp (y ++ [','])
    have : (y ++ [',']).dropWhile isWs = y.dropWhile isWs ++ [','] := by
      rw [List.dropWhile_append]
      split
      · rename_i e'; rw [List.isEmpty_iff.1 e']; decide
      · rfl
    rw [this]
    exact rstrip_shield _ (by decide) (fun _ h => by cases h)
  obtain ⟨a, ha, e'⟩ := lstrip_decomp (y ++ [','])
  rw [h1, h2, ← values_blank_append ha, ← List.append_assoc, ← e', List.append_assoc]
  exact values_comma y t

theorem rtrim_decomp' (s : Str) : ∃ a, Blank a ∧ rtrim s = a ++ strip s := by
  obtain ⟨b, hb, e⟩ := rstrip_decomp s
  obtain ⟨a, c, ha, hc, e'⟩ := strip_decomp (rtrim s)
  have hs : strip (rtrim s) = strip s := by
    have := congrArg strip e
    rw [strip_append_blank hb] at this
    exact this.symm
  rcases Classical.em (strip s = []) with h0 | h0
  · refine ⟨rtrim s, ?_, by rw [h0, List.append_nil]⟩
    rw [e', hs, h0, List.append_nil]
    intro x hx
    rcases List.mem_append.1 hx with h | h
    · exact ha x h
    · exact hc x h
  · refine ⟨a, ha, ?_⟩
    have hc0 : c = [] := by
      cases hcc : c.reverse with
      | nil => simpa using hcc
      | cons x xs =>
        exfalso
        have hx : isWs x = true := hc x (by rw [← List.mem_reverse, hcc]; simp)
        have hrev : s.reverse.dropWhile isWs = x :: (xs ++ (a ++ strip (rtrim s)).reverse) := by
          have := congrArg List.reverse e'
          rw [rtrim, List.reverse_reverse, List.reverse_append, hcc] at this
          exact this
        have := List.head?_dropWhile_not isWs s.reverse
        rw [hrev] at this
        simp [hx] at this
    rw [hs, hc0, List.append_nil] at e'
    exact e'

theorem strip_strip (s : Str) : strip (strip s) = strip s := by
  obtain ⟨a, b, ha, hb, e⟩ := strip_decomp s
  have := congrArg strip e
  rw [strip_append_blank hb, strip_blank_append ha] at this
  exact this.symm

theorem values_strip (s : Str) : values (strip s) = values s := by
  obtain ⟨a, b, ha, hb, e⟩ := strip_decomp s
  have := congrArg values e
  rw [values_append_blank hb, values_blank_append ha] at this
  exact this.symm

theorem values_rtrim (s : Str) : values (rtrim s) = values s := by
  obtain ⟨b, hb, e⟩ := rstrip_decomp s
  have := congrArg values e
  rw [values_append_blank hb] at this
  exact this.symm

/-- Stripping in front of something that is not blank. -/
theorem strip_shield (l : Str) {c : Char} (hc : isWs c = false) : strip (l ++ [c]) = l.dropWhile isWs ++ [c] := by
  have : (l ++ [c]).dropWhile isWs = l.dropWhile isWs ++ [c] := by
    rw [List.dropWhile_append]
    split
    · rename_i e; rw [List.isEmpty_iff.1 e]; simp [hc]
    · rfl
  show rtrim _ = _
  rw [this]
  exact rstrip_shield _ hc (fun _ h => by cases h)

theorem strip_cons {c : Char} (hc : isWs c = false) (l : Str) : strip (c :: l) = c :: rtrim l := by
  unfold strip rtrim
  rw [List.dropWhile_cons, if_neg (by simp [hc]), List.reverse_cons, List.dropWhile_append]
  split
  · rename_i e
    rw [List.isEmpty_iff.1 e, List.dropWhile_cons, if_neg (by simp [hc])]
    rfl
  · rw [List.reverse_append]
    rfl

/-! ### braced values -/

/-- The lines of a braced value, with the closing brace. -/
def braced : List Str → List Str
  | [] => [['}']]
  | [l] => [l ++ ['}']]
  | l :: l' :: ls => l :: braced (l' :: ls)

/-- What is appended for continuation lines. -/
def cont (ls : List Str) : Str := ls.flatMap (fun l => '\n' :: strip l)

/-- The text between the braces that continuation lines contribute. -/
def tailText : List Str → Str
  | [] => []
  | [l] => '\n' :: l.dropWhile isWs
  | l :: l' :: ls => '\n' :: strip l ++ tailText (l' :: ls)

theorem cont_braced : ∀ {ls : List Str}, ls ≠ [] → cont (braced ls) = tailText ls ++ ['}']
  | [], h => (h rfl).elim
  | [l], _ => by
    rw [braced, cont, List.flatMap_cons, List.flatMap_nil, List.append_nil, strip_shield l (by decide), tailText]
    rfl
  | l :: l' :: ls, _ => by
    have := cont_braced (ls := l' :: ls) (by simp)
    rw [braced, cont, List.flatMap_cons]
    rw [cont] at this
    rw [this, tailText, List.append_assoc]

/-- A line that neither is a comment nor closes a value. -/
def Inner (l : Str) : Prop := l.head? ≠ some ';' ∧ (strip l).getLast? ≠ some '}'

theorem last_append (s l : Str) : (s ++ '\n' :: l).getLast? = some ((l.getLast?).getD '\n') := by
  cases l with
  | nil => simp
  | cons c l => simp [List.getLast?_append, List.getLast?_cons]

theorem read_open {key : Str} {d : Header} {rest : List Str} : ∀ (ls : List Str) (s : Str), ls ≠ [] →
    (∀ l ∈ ls.dropLast, Inner l) → (∀ l, ls.getLast? = some l → (l ++ ['}']).head? ≠ some ';') →
    readLines (some (key, s)) d (braced ls ++ rest) = readLines none (store d key (s ++ cont (braced ls))) rest
  | [], _, h, _, _ => (h rfl).elim
  | [l], s, _, _, h2 => by
    have h := h2 l rfl
    rw [braced, List.cons_append, readLines, if_neg h]
    simp only [List.nil_append]
    rw [if_pos]
    · rw [cont, List.flatMap_cons, List.flatMap_nil, List.append_nil]
    · rw [last_append, strip_shield l (by decide)]; simp
  | l :: l' :: ls, s, _, h1, h2 => by
    have hl := h1 l (by simp)
    have ih := read_open (key := key) (d := d) (rest := rest) (l' :: ls) (s ++ '\n' :: strip l) (by simp)
      (fun x hx => h1 x (by rw [List.dropLast_cons_of_ne_nil (by simp)]; exact List.mem_cons_of_mem _ hx))
      (fun x hx => h2 x (by rw [← hx, List.getLast?_cons_cons]))
    rw [braced, List.cons_append, readLines, if_neg hl.1]
    simp only
    rw [if_neg, ih, cont, cont, List.flatMap_cons, List.append_assoc]
    rw [last_append]
    cases e : (strip l).getLast? with
    | none => simp
    | some c => have := hl.2; rw [e] at this; simpa using this

/-- The text between the braces. -/
def between : List Str → Str
  | [] => []
  | [l] => l
  | l :: l' :: ls => rtrim l ++ tailText (l' :: ls)

/-- The lines of a braced field. -/
def fieldLines (k gap : Str) (R : List Str) : List Str :=
  match braced R with
  | [] => []
  | l :: ls => (k ++ '=' :: (gap ++ '{' :: l)) :: ls

/-- Reading a braced field. -/
theorem read_braced {k gap : Str} {d : Header} {rest : List Str} (hk : '=' ∉ k) (hkc : k.head? ≠ some ';')
    (hg : Blank gap) : ∀ (R : List Str), R ≠ [] → (∀ l ∈ R.dropLast, (strip l).getLast? ≠ some '}') →
    (∀ l ∈ R.tail, (l ++ ['}']).head? ≠ some ';') →
    readLines none d (fieldLines k gap R ++ rest) =
      readLines none (store d (lower (strip k)) ('{' :: (between R ++ ['}']))) rest
  | [], h, _, _ => (h rfl).elim
  | [l], _, _, _ => by
    have hh : (k ++ '=' :: (gap ++ '{' :: (l ++ ['}']))).head? ≠ some ';' := by
      cases k with
      | nil => simp
      | cons c k => simpa using hkc
    have hv : strip (gap ++ '{' :: (l ++ ['}'])) = '{' :: (l ++ ['}']) := by
      rw [strip_blank_append hg, strip_cons (by decide)]
      show '{' :: rtrim (l ++ '}' :: []) = _
      rw [rstrip_shield l (by decide) (fun _ h => by cases h)]
    rw [fieldLines, braced]
    simp only [List.cons_append, List.nil_append]
    rw [readLines, splitOnce_append hk]
    simp only
    rw [if_neg hh, hv, if_pos (List.head?_cons), if_pos (by simp [List.getLast?_cons])]
    rfl
  | l :: l' :: ls, _, h1, h2 => by
    have hh : (k ++ '=' :: (gap ++ '{' :: l)).head? ≠ some ';' := by
      cases k with
      | nil => simp
      | cons c k => simpa using hkc
    have hv : strip (gap ++ '{' :: l) = '{' :: rtrim l := by
      rw [strip_blank_append hg, strip_cons (by decide)]
    rw [fieldLines, braced]
    simp only [List.cons_append]
    rw [readLines, splitOnce_append hk]
    simp only
    rw [if_neg hh, hv, if_pos (List.head?_cons), if_neg, read_open (l' :: ls) _ (by simp)]
    · rw [cont_braced (by simp), between, List.cons_append, List.append_assoc]
    · intro x hx
      have hx' : x ∈ (l' :: ls).dropLast := hx
      have hm : x ∈ l' :: ls := List.dropLast_subset _ hx'
      refine ⟨?_, h1 x (by rw [List.dropLast_cons_of_ne_nil (by simp)]; exact List.mem_cons_of_mem _ hx')⟩
      intro e
      have := h2 x hm
      cases x with
      | nil => cases e
      | cons c x => exact this e
    · intro x hx
      exact h2 x (List.mem_of_getLast? hx)
    · have := h1 l (by simp)
      obtain ⟨a, ha, e⟩ := rtrim_decomp' l
      rw [e]
      intro hl
      cases es : strip l with
      | nil =>
        rw [es, List.append_nil] at hl
        rcases List.eq_nil_or_concat a with h0 | ⟨a', c, h0⟩
        · rw [h0] at hl; simp at hl
        · rw [h0, List.concat_eq_append, ← List.cons_append, List.getLast?_append] at hl
          simp only [List.getLast?_singleton, Option.some_or, Option.some.injEq] at hl
          have := ha c (by rw [h0]; simp)
          rw [hl] at this
          simp [isWs] at this
      | cons c t =>
        rw [es] at hl this
        rw [← List.cons_append, List.getLast?_append] at hl
        apply this
        cases hq : (c :: t).getLast? with
        | none => simp at hq
        | some q => rw [hq] at hl; simpa using hl

end Envi
end Verif
