/-
C58: ENVI headers are read field by field.
-/
import Verif.EnviLemmas

namespace Verif.Props

open Envi

/-- What a line or a group of lines of a header can be. -/
inductive Item where
  /-- a comment or a line without `=` -/
  | other (line : Str)
  /-- `key = value` -/
  | field (key val : Str)
  /-- `key = {a, b, ...}`.  Rows end with a comma and blanks, or are blank; the last row is closed by a
  brace, which may stand on a later line. -/
  | list (key gap : Str) (rows : List (List Str × Str)) (last : List Str) (pad : Str) (closers : List Str)
  /-- `description = {...}`, a text of several lines -/
  | note (key gap : Str) (lines : List Str)

/-- A row of cells. -/
def rowText (r : List Str × Str) : Str := if r.1 = [] then r.2 else joinWith ',' r.1 ++ ',' :: r.2

/-- Keys are read without surrounding blanks and without case. -/
def plainKey (key : Str) : Str :=
  (strip key).map fun c => if 'A'.toNat ≤ c.toNat ∧ c.toNat ≤ 'Z'.toNat then Char.ofNat (c.toNat + 32) else c

/-- How an item is written. -/
def Item.lines : Item → List Str
  | .other line => [line]
  | .field key val => [key ++ '=' :: val]
  | .list key gap rows last pad closers =>
    fieldLines key gap (rows.map rowText ++ (joinWith ',' last ++ pad) :: closers)
  | .note key gap lines => fieldLines key gap lines

/-- What an item means. -/
def Item.means : Item → List (Str × Value)
  | .other _ => []
  | .field key val => [(plainKey key, .text (strip val))]
  | .list key _ rows last _ _ => [(plainKey key, .list (((rows.flatMap (·.1)) ++ last).map strip))]
  | .note key _ lines => [(plainKey key, .text (strip (joinWith '\n' (lines.map strip))))]

/-- Continuation lines do not look like comments. -/
def NoComment (ls : List Str) : Prop := ∀ l ∈ ls, (l ++ ['}']).head? ≠ some ';'

/-- Which items are written correctly. -/
def Item.Ok : Item → Prop
  | .other line => '=' ∉ line ∨ line.head? = some ';'
  | .field key val => '=' ∉ key ∧ key.head? ≠ some ';' ∧ (strip val).head? ≠ some '{'
  | .list key gap rows last pad closers =>
    '=' ∉ key ∧ key.head? ≠ some ';' ∧ plainKey key ≠ p! "description" ∧ Blank gap ∧
    (∀ r ∈ rows, (∀ c ∈ r.1, ',' ∉ c) ∧ Blank r.2) ∧ last ≠ [] ∧ (∀ c ∈ last, ',' ∉ c ∧ '}' ∉ c) ∧ Blank pad ∧
    (∀ c ∈ closers, Blank c) ∧ NoComment (rows.map rowText ++ (joinWith ',' last ++ pad) :: closers).tail
  | .note key gap lines =>
    '=' ∉ key ∧ key.head? ≠ some ';' ∧ plainKey key = p! "description" ∧ Blank gap ∧ lines ≠ [] ∧
    (∀ l ∈ lines, '{' ∉ l ∧ '}' ∉ l) ∧ NoComment lines.tail

theorem lower_plain (key : Str) : lower (strip key) = plainKey key := by
  unfold lower plainKey
  apply List.map_congr_left
  intro c _
  unfold Char.toLower
  have h : ∀ a b : Char, a.val ≤ b.val ↔ a.toNat ≤ b.toNat := fun a b => Iff.rfl
  simp only [h]
  split <;> rename_i h1
  · have hA : 'A'.toNat = 65 := rfl
    have hZ : 'Z'.toNat = 90 := rfl
    have hv : (c.toNat + 32).isValidChar := .inl (by omega)
    have hc : c.val.toNat = c.toNat := rfl
    have ho : (Char.ofNat (c.toNat + 32)).toNat = c.toNat + 32 := by
      simp only [Char.ofNat, dif_pos hv]
      rfl
    apply Char.ext
    apply UInt32.toNat_inj.1
    show (c.val + ('a'.val - 'A'.val)).toNat = (Char.ofNat (c.toNat + 32)).toNat
    rw [ho, UInt32.toNat_add, hc, show ('a'.val - 'A'.val).toNat = 32 by decide]
    omega
  · rfl

/-! ### lists -/

theorem tail_closers : ∀ {ls : List Str}, (∀ c ∈ ls, Blank c) → Blank (tailText ls)
  | [], _ => fun _ h => by cases h
  | [l], h => by
    rw [tailText]
    intro c hc
    rcases List.mem_cons.1 hc with rfl | hc
    · decide
    · rw [dropWhile_all (h l (by simp))] at hc; cases hc
  | l :: l' :: ls, h => by
    have ih := tail_closers (ls := l' :: ls) (fun c hc => h c (by simp [hc]))
    rw [tailText, strip_blank (h l (by simp))]
    intro c hc
    rcases List.mem_cons.1 hc with rfl | hc
    · decide
    · exact ih c hc

theorem values_newline (s : Str) : values ('\n' :: s) = values s :=
  values_blank_append (w := ['\n']) (by intro c hc; rw [List.mem_singleton.1 hc]; decide) s

theorem values_lstrip (s : Str) : values (s.dropWhile isWs) = values s := by
  obtain ⟨a, ha, e⟩ := lstrip_decomp s
  have := congrArg values e
  rw [values_blank_append ha] at this
  exact this.symm

theorem tail_rows (fin : Str) (closers : List Str) (hc : ∀ c ∈ closers, Blank c) :
    ∀ rows : List (List Str × Str), (∀ r ∈ rows, (∀ c ∈ r.1, ',' ∉ c) ∧ Blank r.2) →
    values (tailText (rows.map rowText ++ fin :: closers)) = (rows.flatMap (·.1)).map strip ++ values fin
  | [], _ => by
    rw [List.map_nil, List.nil_append, List.flatMap_nil, List.map_nil, List.nil_append]
    cases closers with
    | nil => rw [tailText, values_newline, values_lstrip]
    | cons c cs =>
      rw [tailText, List.cons_append, values_newline, values_append_blank (tail_closers hc), values_strip]
  | r :: rows, h => by
    have ih := tail_rows fin closers hc rows (fun x hx => h x (by simp [hx]))
    obtain ⟨h1, h2⟩ := h r (by simp)
    have step : tailText ((r :: rows).map rowText ++ fin :: closers) =
        '\n' :: strip (rowText r) ++ tailText (rows.map rowText ++ fin :: closers) := by
      cases rows <;> rfl
    rw [step, List.cons_append, values_newline, List.flatMap_cons, List.map_append, List.append_assoc, ← ih]
    unfold rowText
    by_cases hr : r.1 = []
    · rw [if_pos hr, strip_blank h2, hr]; rfl
    · rw [if_neg hr, values_strip_comma _ h2, values_join hr h1]

/-- The cells of a braced list. -/
theorem list_values (rows : List (List Str × Str)) (fin : Str) (closers : List Str)
    (hr : ∀ r ∈ rows, (∀ c ∈ r.1, ',' ∉ c) ∧ Blank r.2) (hc : ∀ c ∈ closers, Blank c) :
    values (between (rows.map rowText ++ fin :: closers)) = (rows.flatMap (·.1)).map strip ++ values fin := by
  cases rows with
  | nil =>
    rw [List.map_nil, List.nil_append, List.flatMap_nil, List.map_nil, List.nil_append]
    cases closers with
    | nil => rfl
    | cons c cs => rw [between, values_append_blank (tail_closers hc), values_rtrim]
  | cons r rows =>
    obtain ⟨h1, h2⟩ := hr r (by simp)
    have ih := tail_rows fin closers hc rows (fun x hx => hr x (by simp [hx]))
    have step : between ((r :: rows).map rowText ++ fin :: closers) =
        rtrim (rowText r) ++ tailText (rows.map rowText ++ fin :: closers) := by
      cases rows <;> rfl
    rw [step, List.flatMap_cons, List.map_append, List.append_assoc, ← ih]
    unfold rowText
    by_cases h0 : r.1 = []
    · rw [if_pos h0, h0]
      have : rtrim r.2 = [] := by
        unfold rtrim; rw [dropWhile_all (blank_reverse h2)]; rfl
      rw [this]; rfl
    · rw [if_neg h0, rstrip_shield _ (by decide) h2, List.append_assoc]
      show values (joinWith ',' r.1 ++ ',' :: _) = _
      rw [values_comma, values_join h0 h1]
      rfl

theorem strip_last_mem {l : Str} {c : Char} (h : (strip l).getLast? = some c) : c ∈ l := by
  obtain ⟨a, b, _, _, e⟩ := strip_decomp l
  rw [e]
  simp [List.mem_of_getLast? h]

theorem drop_braces (s : Str) : (('{' :: (s ++ ['}'])).drop 1).dropLast = s := by simp

theorem read_list {d : Header} {rest : List Str} {key gap : Str} {rows : List (List Str × Str)} {last : List Str}
    {pad : Str} {closers : List Str} (h : (Item.list key gap rows last pad closers).Ok) :
    readLines none d ((Item.list key gap rows last pad closers).lines ++ rest) =
      readLines none (dictOf d (Item.list key gap rows last pad closers).means) rest := by
  obtain ⟨h1, h2, h3, h4, h5, h6, h7, h8, h9, h10⟩ := h
  rw [Item.lines, read_braced h1 h2 h4 _ (by simp) ?_ h10, lower_plain, store, if_neg h3, drop_braces]
  · have := list_values rows (joinWith ',' last ++ pad) closers h5 h9
    rw [values_append_blank h8, values_join h6 (fun c hc => (h7 c hc).1)] at this
    unfold values at this
    rw [this, ← List.map_append]
    rfl
  · intro l hl e
    have hm : l ∈ rows.map rowText ∨ l = joinWith ',' last ++ pad ∨ l ∈ closers := by
      have := List.dropLast_subset _ hl
      simpa using this
    rcases hm with hm | rfl | hm
    · obtain ⟨r, hr, rfl⟩ := List.mem_map.1 hm
      unfold rowText at e
      split at e
      · rw [strip_blank (h5 r hr).2] at e; cases e
      · obtain ⟨a, ha, e'⟩ := rtrim_decomp' (joinWith ',' r.1 ++ ',' :: r.2)
        rw [rstrip_shield _ (by decide) (h5 r hr).2] at e'
        have hl := congrArg List.getLast? e'
        rw [List.getLast?_append, List.getLast?_append, e] at hl
        simp at hl
    · have := strip_last_mem e
      rcases List.mem_append.1 this with h | h
      · rcases mem_joinWith h with h | ⟨w, hw, hc⟩
        · cases h
        · exact (h7 w hw).2 hc
      · exact absurd (h8 _ h) (by decide)
    · rw [strip_blank (h9 l hm)] at e; cases e

/-! ### descriptions -/

theorem tail_join : ∀ {ls : List Str}, ls ≠ [] → ∃ b, Blank b ∧
    tailText ls = '\n' :: joinWith '\n' (ls.map strip) ++ b
  | [], h => (h rfl).elim
  | [l], _ => by
    obtain ⟨b, hb, e⟩ := rstrip_decomp (l.dropWhile isWs)
    refine ⟨b, hb, ?_⟩
    rw [tailText, e]
    rfl
  | l :: l' :: ls, _ => by
    obtain ⟨b, hb, e⟩ := tail_join (ls := l' :: ls) (by simp)
    refine ⟨b, hb, ?_⟩
    rw [tailText, e]
    simp [joinWith]

theorem strip_between : ∀ (ls : List Str), strip (between ls) = strip (joinWith '\n' (ls.map strip))
  | [] => rfl
  | [l] => by rw [between, List.map_singleton, joinWith, strip_strip]
  | l :: l' :: ls => by
    obtain ⟨b, hb, e⟩ := tail_join (ls := l' :: ls) (by simp)
    obtain ⟨a, ha, e'⟩ := rtrim_decomp' l
    rw [between, e, e', List.append_assoc, strip_blank_append ha, ← List.append_assoc, strip_append_blank hb]
    rfl

theorem stripBraces_of {s : Str} (h1 : '{' ∉ s) (h2 : '}' ∉ s) : stripBraces ('{' :: (s ++ ['}'])) = s := by
  have hn : ∀ (t : Str), '{' ∉ t → '}' ∉ t → t.dropWhile isBrace = t := by
    intro t a b
    cases t with
    | nil => rfl
    | cons c t =>
      rw [List.dropWhile_cons, if_neg]
      simp only [List.mem_cons, not_or] at a b
      simp only [isBrace, Bool.or_eq_true, decide_eq_true_eq, not_or]
      exact ⟨Ne.symm a.1, Ne.symm b.1⟩
  unfold stripBraces
  rw [List.dropWhile_cons, if_pos (by decide)]
  cases s with
  | nil => decide
  | cons c s =>
    rw [List.cons_append, List.dropWhile_cons, if_neg, ← List.cons_append, List.reverse_append, List.reverse_singleton,
      List.singleton_append, List.dropWhile_cons, if_pos (by decide), hn _ (by simpa [and_comm] using h1) (by simpa [and_comm] using h2),
      List.reverse_reverse]
    simp only [List.mem_cons, not_or] at h1 h2
    simp only [isBrace, Bool.or_eq_true, decide_eq_true_eq, not_or]
    exact ⟨Ne.symm h1.1, Ne.symm h2.1⟩

theorem mem_tailText {c : Char} (hc : isWs c = false) : ∀ {ls : List Str}, c ∈ tailText ls → ∃ l ∈ ls, c ∈ l
  | [], h => by cases h
  | [l], h => by
    rw [tailText] at h
    rcases List.mem_cons.1 h with rfl | h
    · cases hc
    · exact ⟨l, by simp, (List.dropWhile_sublist isWs).subset h⟩
  | l :: l' :: ls, h => by
    rw [tailText, List.cons_append] at h
    rcases List.mem_cons.1 h with rfl | h
    · cases hc
    · rcases List.mem_append.1 h with h | h
      · obtain ⟨a, b, _, _, e⟩ := strip_decomp l
        exact ⟨l, by simp, by rw [e]; simp [h]⟩
      · obtain ⟨x, hx, hxc⟩ := mem_tailText hc (ls := l' :: ls) h
        exact ⟨x, by simp [hx], hxc⟩

theorem mem_between {c : Char} (hc : isWs c = false) : ∀ {ls : List Str}, c ∈ between ls → ∃ l ∈ ls, c ∈ l
  | [], h => by cases h
  | [l], h => ⟨l, by simp, h⟩
  | l :: l' :: ls, h => by
    rw [between] at h
    rcases List.mem_append.1 h with h | h
    · obtain ⟨b, _, e⟩ := rstrip_decomp l
      exact ⟨l, by simp, by rw [e]; simp [h]⟩
    · obtain ⟨x, hx, hxc⟩ := mem_tailText hc h
      exact ⟨x, by simp [hx], hxc⟩

theorem read_note {d : Header} {rest : List Str} {key gap : Str} {lines : List Str} (h : (Item.note key gap lines).Ok) :
    readLines none d ((Item.note key gap lines).lines ++ rest) =
      readLines none (dictOf d (Item.note key gap lines).means) rest := by
  obtain ⟨h1, h2, h3, h4, h5, h6, h7⟩ := h
  have b1 : '{' ∉ between lines := fun h => by
    obtain ⟨l, hl, hc⟩ := mem_between (by decide) h; exact (h6 l hl).1 hc
  have b2 : '}' ∉ between lines := fun h => by
    obtain ⟨l, hl, hc⟩ := mem_between (by decide) h; exact (h6 l hl).2 hc
  rw [Item.lines, read_braced h1 h2 h4 _ h5 ?_ h7, lower_plain, store, if_pos h3, stripBraces_of b1 b2, strip_between]
  · rfl
  · intro l hl e
    exact (h6 l (List.dropLast_subset _ hl)).2 (strip_last_mem e)

/-! ### C58 -/

theorem read_item {d : Header} {rest : List Str} (i : Item) (h : i.Ok) :
    readLines none d (i.lines ++ rest) = readLines none (dictOf d i.means) rest := by
  cases i with
  | other line =>
    rw [Item.lines, List.singleton_append, readLines]
    rcases h with h | h
    · cases e : splitOnce '=' line with
      | none => rfl
      | some p => exact absurd (splitOnce_isSome_iff.1 (by rw [e]; rfl)) h
    · cases e : splitOnce '=' line with
      | none => rfl
      | some p => simp only; rw [if_pos h]; rfl
  | field key val =>
    obtain ⟨h1, h2, h3⟩ := h
    have hh : (key ++ '=' :: val).head? ≠ some ';' := by
      cases key with
      | nil => simp
      | cons c k => simpa using h2
    rw [Item.lines, List.singleton_append, readLines, splitOnce_append h1]
    simp only
    rw [if_neg hh, if_neg h3, lower_plain]
    rfl
  | list key gap rows last pad closers => exact read_list h
  | note key gap lines => exact read_note h

theorem read_items : ∀ (is : List Item) (d : Header), (∀ i ∈ is, i.Ok) →
    readLines none d (is.flatMap Item.lines) = .ok (dictOf d (is.flatMap Item.means))
  | [], d, _ => by rw [List.flatMap_nil, readLines]; rfl
  | i :: is, d, h => by
    rw [List.flatMap_cons, List.flatMap_cons, read_item i (h i (by simp)), read_items is _ fun j hj => h j (by simp [hj]),
      dictOf_append]

/-- C58: for every header that is written correctly, in whatever layout, the fields that are read are those
that are written: keys without case, values without surrounding white space, lists cell by cell also over
several lines, descriptions line by line; the last of several fields with one key counts. -/
theorem C58_fields (first : Str) (items : List Item) (hf : (p! "ENVI").isPrefixOf (strip first) = true)
    (ho : ∀ i ∈ items, i.Ok) (hn : ∀ l ∈ first :: items.flatMap Item.lines, '\n' ∉ l) :
    readHeader (joinWith '\n' (first :: items.flatMap Item.lines)) = .ok (dictOf [] (items.flatMap Item.means)) := by
  rw [readHeader, splitOn_join (by simp) hn]
  simp only
  rw [if_pos hf, read_items items [] ho]

theorem readLines_comments : ∀ (ls : List Str) (o : Option (Str × Str)) (d : Header),
    readLines o d ls = readLines o d (ls.filter (fun l => decide (l.head? ≠ some ';')))
  | [], _, _ => rfl
  | l :: ls, o, d => by
    by_cases h : l.head? = some ';'
    · rw [List.filter_cons_of_neg (by simp [h]), ← readLines_comments ls]
      cases o with
      | none =>
        rw [readLines]
        split
        · rfl
        · rw [if_pos h]
      | some p => rw [readLines, if_pos h]
    · rw [List.filter_cons_of_pos (by simpa using h)]
      cases o with
      | none =>
        rw [readLines, readLines]
        simp only [← readLines_comments ls]
      | some p =>
        rw [readLines, readLines]
        simp only [← readLines_comments ls]

/-- C58: comment lines can stand anywhere, also inside of braces. -/
theorem C58_comments (first : Str) (lines : List Str) (hn : ∀ l ∈ first :: lines, '\n' ∉ l) :
    readHeader (joinWith '\n' (first :: lines)) =
      readHeader (joinWith '\n' (first :: lines.filter (fun l => decide (l.head? ≠ some ';')))) := by
  rw [readHeader, readHeader, splitOn_join (by simp) hn, splitOn_join (by simp) (by
    intro l hl
    apply hn l
    rcases List.mem_cons.1 hl with rfl | hl
    · simp
    · exact List.mem_cons_of_mem _ (List.mem_filter.1 hl).1)]
  simp only
  rw [readLines_comments lines]

/-- C58: a file that does not begin with `ENVI` is refused. -/
theorem C58_refused (first : Str) (lines : List Str) (hn : ∀ l ∈ first :: lines, '\n' ∉ l)
    (hf : (p! "ENVI").isPrefixOf (strip first) = false) :
    readHeader (joinWith '\n' (first :: lines)) = .error .generic := by
  rw [readHeader, splitOn_join (by simp) hn]
  simp only
  rw [if_neg (by simp [hf])]

theorem read_unclosed {key : Str} {d : Header} : ∀ (ls : List Str) (s : Str),
    (∀ l ∈ ls, (strip l).getLast? ≠ some '}') → readLines (some (key, s)) d ls = .error .indexError
  | [], _, _ => rfl
  | l :: ls, s, h => by
    rw [readLines]
    split
    · exact read_unclosed ls s fun x hx => h x (by simp [hx])
    · simp only
      rw [if_neg]
      · exact read_unclosed ls _ fun x hx => h x (by simp [hx])
      · rw [last_append]
        have := h l (by simp)
        cases e : (strip l).getLast? with
        | none => simp
        | some c => rw [e] at this; simpa using this

/-- C58: a value whose brace is never closed is an error, whatever comes before; no field is made up. -/
theorem C58_unclosed (first : Str) (items : List Item) (key gap val : Str) (lines : List Str)
    (hf : (p! "ENVI").isPrefixOf (strip first) = true) (ho : ∀ i ∈ items, i.Ok)
    (hk : '=' ∉ key) (hkc : key.head? ≠ some ';') (hg : Blank gap)
    (hv : (strip ('{' :: val)).getLast? ≠ some '}') (hl : ∀ l ∈ lines, (strip l).getLast? ≠ some '}')
    (hn : ∀ l ∈ first :: (items.flatMap Item.lines ++ (key ++ '=' :: (gap ++ '{' :: val)) :: lines), '\n' ∉ l) :
    readHeader (joinWith '\n' (first :: (items.flatMap Item.lines ++ (key ++ '=' :: (gap ++ '{' :: val)) :: lines))) =
      .error .indexError := by
  rw [readHeader, splitOn_join (by simp) hn]
  simp only
  rw [if_pos hf]
  have hh : (key ++ '=' :: (gap ++ '{' :: val)).head? ≠ some ';' := by
    cases key with
    | nil => simp
    | cons c k => simpa using hkc
  have key' : ∀ (is : List Item) (d : Header), (∀ i ∈ is, i.Ok) →
      readLines none d (is.flatMap Item.lines ++ (key ++ '=' :: (gap ++ '{' :: val)) :: lines) = .error .indexError := by
    intro is
    induction is with
    | nil =>
      intro d _
      rw [List.flatMap_nil, List.nil_append, readLines, splitOnce_append hk]
      simp only
      rw [if_neg hh, strip_blank_append hg, if_pos (by rw [strip_cons (by decide)]; rfl), if_neg hv]
      exact read_unclosed lines _ hl
    | cons i is ih =>
      intro d h
      rw [List.flatMap_cons, List.append_assoc, read_item i (h i (by simp))]
      exact ih _ fun j hj => h j (by simp [hj])
  exact key' items [] ho

/-- A header as GDAL and spectral write it. -/
def sampleItems : List Item :=
  [.note (p! "description ") (p! " ") [[], p! "  a test,", p! "  of two lines"],
   .other (p! "; made by hand"),
   .field (p! "Samples ") (p! " 5"),
   .list (p! "band names ") (p! " ") [([], []), ([p! " red", p! " green"], p! " ")] [p! "  blue "] [] [[]],
   .list (p! "wavelength ") (p! " ") [] [p! " 1.5", p! " 2"] [] [],
   .field (p! "interleave ") (p! " bsq")]

example : (∀ i ∈ sampleItems, i.Ok) ∧ (∀ l ∈ p! "ENVI" :: sampleItems.flatMap Item.lines, '\n' ∉ l) ∧
    dictOf [] (sampleItems.flatMap Item.means) =
      [(p! "description", .text (p! "a test,\nof two lines")), (p! "samples", .text (p! "5")),
       (p! "band names", .list [p! "red", p! "green", p! "blue"]), (p! "wavelength", .list [p! "1.5", p! "2"]),
       (p! "interleave", .text (p! "bsq"))] := by
  refine ⟨?_, ?_, ?_⟩
  · intro i hi
    simp only [sampleItems, List.mem_cons, List.not_mem_nil, or_false] at hi
    rcases hi with rfl | rfl | rfl | rfl | rfl | rfl <;>
      simp only [Item.Ok, NoComment, Blank] <;> decide +kernel
  · decide +kernel
  · decide +kernel

/-- C58: the data file of a header has the extension that its last `interleave` field names, as it is written
there; a header without this field is a KeyError, and a header where it is a list in braces a TypeError. -/
theorem C58_data_file (first : Str) (items : List Item) (hf : (p! "ENVI").isPrefixOf (strip first) = true)
    (ho : ∀ i ∈ items, i.Ok) (hn : ∀ l ∈ first :: items.flatMap Item.lines, '\n' ∉ l) :
    (∀ pre key val post, items = pre ++ Item.field key val :: post → plainKey key = p! "interleave" →
      p! "interleave" ∉ (post.flatMap Item.means).map Prod.fst →
      dataExt (joinWith '\n' (first :: items.flatMap Item.lines)) = .ok ('.' :: strip val)) ∧
    (∀ pre i cells post, items = pre ++ i :: post → i.means = [(p! "interleave", .list cells)] →
      p! "interleave" ∉ (post.flatMap Item.means).map Prod.fst →
      dataExt (joinWith '\n' (first :: items.flatMap Item.lines)) = .error .typeError) ∧
    (p! "interleave" ∉ (items.flatMap Item.means).map Prod.fst →
      dataExt (joinWith '\n' (first :: items.flatMap Item.lines)) = .error .keyError) := by
  have h := C58_fields first items hf ho hn
  have last : ∀ pre i post v, items = pre ++ i :: post → Item.means i = [(p! "interleave", v)] →
      p! "interleave" ∉ (post.flatMap Item.means).map Prod.fst →
      dictGet (dictOf [] (items.flatMap Item.means)) (p! "interleave") = some v := by
    intro pre i post v hi hk hp
    rw [hi, List.flatMap_append, List.flatMap_cons, dictOf_append, dictOf_append]
    have e : dictOf (dictOf [] (pre.flatMap Item.means)) (Item.means i) =
        dictSet (dictOf [] (pre.flatMap Item.means)) (p! "interleave") v := by
      rw [hk]; rfl
    rw [e]
    have keep : ∀ (l d : List (Str × Value)), p! "interleave" ∉ l.map Prod.fst →
        dictGet (dictOf d l) (p! "interleave") = dictGet d (p! "interleave") := by
      intro l
      induction l with
      | nil => intro d _; rfl
      | cons x l ih =>
        intro d hx
        simp only [List.map_cons, List.mem_cons, not_or] at hx
        have : dictOf d (x :: l) = dictOf (dictSet d x.1 x.2) l := rfl
        rw [this, ih _ hx.2, dictGet_dictSet, if_neg (Ne.symm hx.1)]
    rw [keep _ _ hp, dictGet_dictSet, if_pos rfl]
  refine ⟨?_, ?_, ?_⟩
  · intro pre key val post hi hk hp
    have := last pre (.field key val) post (.text (strip val)) hi (by rw [← hk]; rfl) hp
    unfold dataExt
    rw [h]
    simp only [this]
  · intro pre i cells post hi hk hp
    have := last pre i post _ hi hk hp
    unfold dataExt
    rw [h]
    simp only [this]
  · intro hn
    have : dictGet (dictOf [] (items.flatMap Item.means)) (p! "interleave") = none := by
      cases e : dictGet (dictOf [] (items.flatMap Item.means)) (p! "interleave") with
      | none => rfl
      | some v =>
        rcases dictGet_dictOf e with h | h
        · cases h
        · exact absurd (List.mem_map_of_mem (f := Prod.fst) h) hn
    unfold dataExt
    rw [h]
    simp only [this]

example : dataExt (joinWith '\n' (p! "ENVI" :: sampleItems.flatMap Item.lines)) = .ok (p! ".bsq") := by decide +kernel
example : (Item.list (p! "interleave ") (p! " ") [] [p! "bsq", p! " bil"] [] []).means =
      [(p! "interleave", .list [p! "bsq", p! "bil"])] ∧
    dataExt (p! "ENVI\ninterleave = {bsq, bil}") = .error .typeError := by decide +kernel

/-- C58, what fails: an empty list is read as a list of one empty string. -/
theorem C58_empty_list_violated :
    readHeader (p! "ENVI\nband names = {}") = .ok [(p! "band names", .list [[]])] := by decide +kernel

/-- C58, what fails: blank text after the last comma is read as a further, empty cell. -/
theorem C58_last_comma_violated :
    readHeader (p! "ENVI\nbands = {a, b,\n}") = .ok [(p! "bands", .list [p! "a", p! "b", []])] := by decide +kernel

/-- C58, what fails: a cell that ends with a brace at the end of a line closes the value. -/
theorem C58_brace_violated :
    readHeader (p! "ENVI\nbands = {a{1}\n, b}") = .ok [(p! "bands", .list [p! "a{1"])] := by decide +kernel

end Verif.Props
