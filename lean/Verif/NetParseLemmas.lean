/-
What `parse_network_text` reads on the lines that `generate_network_text` writes.
-/
import Verif.NetParse
import Verif.NetTextLemmas
import Verif.PyLemmas
import Mathlib.Tactic.IntervalCases

namespace Verif
namespace NetText

variable {V : Type} [DecidableEq V]

/-! ### Text that does not contain a separator -/

/-- No occurrence of `sep` begins in `s` when `s` is followed by `t`. -/
def Clean (sep s t : Str) : Prop := ∀ i < s.length, ¬ sep <+: s.drop i ++ t

theorem Clean.append {sep a b t : Str} (h1 : Clean sep a (b ++ t)) (h2 : Clean sep b t) : Clean sep (a ++ b) t := by
  intro i hi
  by_cases h : i < a.length
  · rw [List.drop_append_of_le_length (by omega), List.append_assoc]
    exact h1 i h
  · rw [List.length_append] at hi
    rw [List.drop_append, List.drop_eq_nil_of_le (by omega), List.nil_append]
    exact h2 _ (by omega)

theorem Clean.nil (sep t : Str) : Clean sep [] t := fun i hi => by simp at hi

theorem Clean.tail {sep s t : Str} {c : Char} (h : Clean sep (c :: s) t) : Clean sep s t := by
  intro i hi
  have := h (i + 1) (by simpa using hi)
  simpa using this

theorem Clean.head {sep s t : Str} {c : Char} (h : Clean sep (c :: s) t) : ¬ sep <+: c :: (s ++ t) := by
  have := h 0 (by simp)
  simpa using this

theorem clean_first {c : Char} {sep s t : Str} (h : c ∉ s) : Clean (c :: sep) s t := by
  intro i hi hp
  rw [List.drop_eq_getElem_cons hi, List.cons_append, List.cons_prefix_cons] at hp
  exact h (hp.1 ▸ List.getElem_mem hi)

theorem clean_second {a b : Char} {sep s t : Str} (h : b ∉ s) (ht : t.head? ≠ some b) :
    Clean (a :: b :: sep) s t := by
  intro i hi hp
  rw [List.drop_eq_getElem_cons hi, List.cons_append, List.cons_prefix_cons] at hp
  have hp := hp.2
  by_cases hj : i + 1 < s.length
  · rw [List.drop_eq_getElem_cons hj, List.cons_append, List.cons_prefix_cons] at hp
    exact h (hp.1 ▸ List.getElem_mem hj)
  · rw [List.drop_eq_nil_of_le (by omega), List.nil_append] at hp
    cases t with
    | nil => simp at hp
    | cons x t =>
      rw [List.cons_prefix_cons] at hp
      exact ht (by rw [hp.1]; rfl)

theorem cut_clean {sep : Str} (hs : sep ≠ []) {s t : Str} (h : Clean sep s (sep ++ t)) :
    cut sep (s ++ (sep ++ t)) = some (s, t) := by
  induction s with
  | nil =>
    cases sep with
    | nil => exact absurd rfl hs
    | cons c sep => simp [cut]
  | cons c s ih =>
    rw [List.cons_append, cut, if_neg, ih h.tail]
    · rfl
    · rw [List.isPrefixOf_iff_prefix]; exact h.head

theorem cut_none {sep : Str} (hs : sep ≠ []) {s : Str} (h : Clean sep s []) : cut sep s = none := by
  induction s with
  | nil =>
    cases sep with
    | nil => exact absurd rfl hs
    | cons c sep => simp [cut]
  | cons c s ih =>
    rw [cut, if_neg, ih h.tail]
    · rfl
    · rw [List.isPrefixOf_iff_prefix]; simpa using h.head

theorem isSub_iff {a s : Str} : isSub a s = true ↔ a <:+: s := by
  induction s with
  | nil => cases a <;> simp [isSub]
  | cons c s ih =>
    rw [isSub, Bool.or_eq_true, ih, List.isPrefixOf_iff_prefix, List.infix_cons_iff]

theorem isSub_clean {sep : Str} (hs : sep ≠ []) {s : Str} (h : Clean sep s []) : isSub sep s = false := by
  induction s with
  | nil =>
    cases sep with
    | nil => exact absurd rfl hs
    | cons c sep => simp [isSub]
  | cons c s ih =>
    rw [isSub, ih h.tail, Bool.or_false]
    have := h.head
    rw [List.append_nil, ← List.isPrefixOf_iff_prefix] at this
    exact Bool.eq_false_iff.2 this

theorem isSub_not_mem {a s : Str} {c : Char} (h1 : c ∈ a) (h2 : c ∉ s) : isSub a s = false := by
  by_contra h
  have h : isSub a s = true := by simpa using h
  exact h2 ((isSub_iff.1 h).subset h1)

theorem rsplitSpace_last {a b : Str} (h : ' ' ∉ b) : rsplitSpace (a ++ ' ' :: b) = .ok (a, b) := by
  have hb : ∀ b : Str, ' ' ∉ b → rsplitSpace b = .error .valueError := by
    intro b
    induction b with
    | nil => intro _; rfl
    | cons c b ih =>
      intro h
      simp only [List.mem_cons, not_or] at h
      rw [rsplitSpace, ih h.2]
      simp only
      rw [if_neg (fun h' => h.1 h'.symm)]
  induction a with
  | nil => rw [List.nil_append, rsplitSpace, hb b h]; rfl
  | cons c a ih => rw [List.cons_append, rsplitSpace, ih]

theorem rstrip_append {a b : Str} (hb : b ≠ []) (h : ∀ c ∈ b, isWs c = false) : rstrip (a ++ b) = a ++ b := by
  unfold rstrip
  rw [List.reverse_append]
  obtain ⟨c, r, hc⟩ : ∃ c r, b.reverse = c :: r := by
    cases hr : b.reverse with
    | nil => exact absurd (List.reverse_eq_nil_iff.1 hr) hb
    | cons c r => exact ⟨c, r, rfl⟩
  have : isWs c = false := h c (by rw [← List.mem_reverse, hc]; exact List.mem_cons_self)
  rw [hc, List.cons_append, List.dropWhile_cons_of_neg (by simp [this])]
  rw [← List.cons_append, ← hc, List.reverse_append, List.reverse_reverse, List.reverse_reverse]

/-! ### Labels and glyphs -/

/-- Characters of glyphs that labels must not contain. -/
def badChars (ascii : Bool) : List Char :=
  if ascii then ['-', '>', '<', '!', '|'] else ['─', '╼', '╾', '╽', '│']

/-- Labels that can be told from the rest of the line. -/
structure LabelOk (ascii : Bool) (w : Str) : Prop where
  ne : w ≠ []
  ws : ∀ c ∈ w, isWs c = false
  dots : w ≠ p! "..."
  plain : ∀ c ∈ w, c ∉ badChars ascii

theorem LabelOk.space {ascii : Bool} {w : Str} (h : LabelOk ascii w) : ' ' ∉ w :=
  fun hm => by have := h.ws _ hm; revert this; decide

theorem LabelOk.not_mem {ascii : Bool} {w : Str} (h : LabelOk ascii w) {c : Char} (hc : c ∈ badChars ascii) :
    c ∉ w := fun hm => h.plain c hm hc

/-- `' ' + glyphs['backedge'] + ' '`. -/
abbrev Glyphs.sep (gl : Glyphs) : Str := p! " " ++ gl.backedge ++ p! " "

theorem sep_ne (gl : Glyphs) : gl.sep ≠ [] := by simp [Glyphs.sep]

theorem text_length (a d : Bool) (G : Glyph) : ((glyphsFor a d).text G).length = 4 := by
  cases a <;> cases d <;> cases G <;> rfl

theorem text_space (a d : Bool) (G : Glyph) : ∃ t, (glyphsFor a d).text G = t ++ [' '] ∧ t.length = 3 := by
  refine ⟨((glyphsFor a d).text G).dropLast, ?_, ?_⟩ <;> cases a <;> cases d <;> cases G <;> rfl

theorem pre_length (a d : Bool) (pre : List Glyph) :
    (pre.flatMap (glyphsFor a d).text).length = 4 * pre.length := by
  induction pre with
  | nil => rfl
  | cons G pre ih => rw [List.flatMap_cons, List.length_append, ih, text_length, List.length_cons]; omega

theorem pre_space (a d : Bool) {pre : List Glyph} (h : pre ≠ []) :
    ∃ t, pre.flatMap (glyphsFor a d).text = t ++ [' '] ∧ t.length = 4 * pre.length - 1 := by
  obtain ⟨q, G, rfl⟩ := List.eq_nil_or_concat pre |>.resolve_left h
  obtain ⟨t, h1, h2⟩ := text_space a d G
  refine ⟨q.flatMap (glyphsFor a d).text ++ t, ?_, ?_⟩
  · simp [h1]
  · rw [List.length_append, pre_length, h2]; simp; omega

/-- A backedge symbol does not begin with a glyph. -/
theorem text_head (a d : Bool) (G : Glyph) (u : Str) :
    ¬ (glyphsFor a d).backedge ++ p! " " <+: (glyphsFor a d).text G ++ u := by
  cases a <;> cases d <;> cases G <;>
    simp [glyphsFor, asciiDirected, asciiUndirected, utfDirected, utfUndirected, Glyphs.text]

theorem text_clean (a d : Bool) (G : Glyph) {u : Str} (hu : ¬ (glyphsFor a d).backedge ++ p! " " <+: u) :
    Clean (glyphsFor a d).sep ((glyphsFor a d).text G) u := by
  intro i hi
  rw [text_length] at hi
  revert hu
  interval_cases i <;> cases a <;> cases d <;> cases G <;>
    simp [glyphsFor, asciiDirected, asciiUndirected, utfDirected, utfUndirected, Glyphs.text, Glyphs.sep]

theorem pre_clean (a d : Bool) (pre : List Glyph) {u : Str} (hu : ¬ (glyphsFor a d).backedge ++ p! " " <+: u) :
    Clean (glyphsFor a d).sep (pre.flatMap (glyphsFor a d).text) u := by
  induction pre with
  | nil => exact Clean.nil _ _
  | cons G pre ih =>
    rw [List.flatMap_cons]
    refine Clean.append (text_clean a d G ?_) ih
    cases pre with
    | nil => exact hu
    | cons G' pre => rw [List.flatMap_cons, List.append_assoc]; exact text_head a d G' _

/-! ### The parts of a line -/

/-- A line that ends after `t`. -/
theorem lineParts_plain (a d : Bool) {pre : List Glyph} (hp : pre ≠ []) {m t : Str} (hm : m = [] ∨ m = p! " ")
    (ht : ' ' ∉ t) (hws : strip t = t) (hu : ¬ (glyphsFor a d).backedge ++ p! " " <+: m ++ t)
    (hu' : ¬ (glyphsFor a d).backedge ++ p! " " <+: t) :
    ∃ b, lineParts (glyphsFor a d) (pre.flatMap (glyphsFor a d).text ++ m ++ t) = .ok (b, t, []) ∧
      b.length + 1 = 4 * pre.length + m.length := by
  have hc : Clean (glyphsFor a d).sep (pre.flatMap (glyphsFor a d).text ++ m ++ t) [] := by
    rw [List.append_assoc]
    refine Clean.append (pre_clean a d pre (by simpa using hu)) (Clean.append ?_ ?_)
    · rcases hm with rfl | rfl
      · exact Clean.nil _ _
      · intro i hi
        have : i = 0 := by simpa using hi
        subst this
        simp only [List.drop_zero, Glyphs.sep, List.append_assoc, List.cons_append, List.nil_append,
          List.cons_prefix_cons, true_and, List.append_nil]
        exact hu'
    · refine clean_first (sep := (glyphsFor a d).backedge ++ p! " ") ht
  unfold lineParts
  rw [cut_none (sep_ne _) hc]
  obtain ⟨b, hb, hl⟩ : ∃ b, pre.flatMap (glyphsFor a d).text ++ m = b ++ [' '] ∧
      b.length + 1 = 4 * pre.length + m.length := by
    have h0 : 0 < pre.length := List.length_pos_of_ne_nil hp
    rcases hm with rfl | rfl
    · obtain ⟨b, h1, h2⟩ := pre_space a d hp
      exact ⟨b, by rw [List.append_nil, h1], by rw [h2]; simp; omega⟩
    · exact ⟨_, rfl, by rw [pre_length]; simp⟩
  refine ⟨b, ?_, hl⟩
  have e : b ++ [' '] ++ t = b ++ ' ' :: t := by simp
  rw [hb, e, rsplitSpace_last ht]
  simp only [hws]

theorem backedge_head (a d : Bool) : ∃ x r, (glyphsFor a d).backedge = x :: r ∧ x ∈ badChars a ∧ x ≠ ' ' ∧ x ≠ ',' := by
  cases a <;> cases d <;> exact ⟨_, _, rfl, by decide, by decide, by decide⟩

theorem label_head (a d : Bool) {w : Str} (h : LabelOk a w) (u : Str) :
    ¬ (glyphsFor a d).backedge ++ p! " " <+: w ++ u := by
  obtain ⟨x, r, h1, h2, -⟩ := backedge_head a d
  rw [h1]
  cases w with
  | nil => exact absurd rfl h.ne
  | cons c w =>
    rw [List.cons_append, List.cons_append, List.cons_prefix_cons]
    rintro ⟨rfl, -⟩
    exact h.plain _ List.mem_cons_self h2

theorem join_clean (a d : Bool) {ws : List Str} (h : ∀ w ∈ ws, LabelOk a w) :
    Clean (glyphsFor a d).sep (joinStr (p! ", ") ws) [] := by
  obtain ⟨x, r, h1, h2, h3, h4⟩ := backedge_head a d
  induction ws with
  | nil => exact Clean.nil _ _
  | cons w ws ih =>
    have hw := h w List.mem_cons_self
    cases ws with
    | nil => exact clean_first (sep := (glyphsFor a d).backedge ++ p! " ") hw.space
    | cons w' ws =>
      have ih := ih (fun v hv => h v (List.mem_cons_of_mem _ hv))
      have hw' := h w' (by simp)
      rw [joinStr]
      · refine Clean.append (Clean.append ?_ ?_) ih
        · exact clean_first (sep := (glyphsFor a d).backedge ++ p! " ") hw.space
        · have e : ∃ u, joinStr (p! ", ") (w' :: ws) = w' ++ u := by
            cases ws with
            | nil => exact ⟨[], by simp [joinStr]⟩
            | cons v vs => exact ⟨_, by rw [joinStr, List.append_assoc]; simp⟩
          obtain ⟨u, hu⟩ := e
          intro i hi
          have hi' : i < 2 := hi
          interval_cases i
          · simp [Glyphs.sep]
          · rw [hu]
            simp only [List.drop_succ_cons, List.drop_zero, Glyphs.sep, List.append_assoc, List.cons_append,
              List.nil_append, List.cons_prefix_cons, true_and, List.append_nil]
            exact label_head a d hw' u
      · simp

theorem split_join {a : Bool} : ∀ {ws : List Str}, ws ≠ [] → (∀ w ∈ ws, LabelOk a w) →
    splitStr (p! ", ") (by decide) (joinStr (p! ", ") ws) = ws
  | [], h, _ => absurd rfl h
  | [w], _, h => by
    have hw := h w List.mem_cons_self
    have hc : Clean (p! ", ") w [] := clean_second hw.space (by simp)
    rw [joinStr, splitStr]
    split
    · rfl
    · rename_i heq; rw [cut_none (by decide) hc] at heq; cases heq
  | w :: w' :: ws, _, h => by
    have hw := h w List.mem_cons_self
    have ih := split_join (ws := w' :: ws) (by simp) (fun v hv => h v (List.mem_cons_of_mem _ hv))
    have hc : Clean (p! ", ") w (p! ", " ++ joinStr (p! ", ") (w' :: ws)) :=
      clean_second hw.space (by simp)
    have e : joinStr (p! ", ") (w :: w' :: ws) = w ++ (p! ", " ++ joinStr (p! ", ") (w' :: ws)) := by
      rw [joinStr, List.append_assoc]; simp
    rw [e, splitStr]
    split
    · rename_i heq; rw [cut_clean (by decide) hc] at heq; cases heq
    · rename_i heq
      rw [cut_clean (by decide) hc] at heq
      cases heq
      rw [ih]

theorem strip_all {a : Bool} {ws : List Str} (h : ∀ w ∈ ws, LabelOk a w) : ws.map strip = ws := by
  induction ws with
  | nil => rfl
  | cons w ws ih =>
    rw [List.map_cons, strip_of_no_ws (h w List.mem_cons_self).ws, ih (fun v hv => h v (List.mem_cons_of_mem _ hv))]

/-- The line of a node. -/
theorem lineParts_node (a d : Bool) {pre : List Glyph} (hp : pre ≠ []) {w : Str} (hw : LabelOk a w)
    {ws : List Str} (h : ∀ v ∈ ws, LabelOk a v) :
    ∃ b, lineParts (glyphsFor a d) (pre.flatMap (glyphsFor a d).text ++ w ++ suffixText (glyphsFor a d) ws) =
      .ok (b, w, ws) ∧ b.length + 1 = 4 * pre.length := by
  by_cases hws : ws = []
  · subst hws
    obtain ⟨b, h1, h2⟩ := lineParts_plain a d hp (m := []) (.inl rfl) hw.space (strip_of_no_ws hw.ws)
      (by have := label_head a d hw []; rw [List.append_nil] at this; rwa [List.nil_append])
      (by have := label_head a d hw []; rwa [List.append_nil] at this)
    rw [List.append_nil] at h1
    exact ⟨b, by simpa [suffixText] using h1, by simpa using h2⟩
  · have e : suffixText (glyphsFor a d) ws = (glyphsFor a d).sep ++ joinStr (p! ", ") ws := by
      rw [suffixText, if_neg (by simpa using hws)]
    have hc : Clean (glyphsFor a d).sep (pre.flatMap (glyphsFor a d).text ++ w)
        ((glyphsFor a d).sep ++ joinStr (p! ", ") ws) :=
      Clean.append (pre_clean a d pre (label_head a d hw _))
        (clean_first (sep := (glyphsFor a d).backedge ++ p! " ") hw.space)
    rw [e]
    unfold lineParts
    rw [cut_clean (sep_ne _) hc]
    simp only
    have hsub := isSub_clean (sep_ne _) (join_clean a d h)
    rw [if_neg (by rw [hsub]; simp), rstrip_append hw.ne hw.ws]
    obtain ⟨b, h1, h2⟩ := pre_space a d hp
    have h0 : 0 < pre.length := List.length_pos_of_ne_nil hp
    refine ⟨b, ?_, by omega⟩
    rw [h1, List.append_assoc, List.singleton_append, rsplitSpace_last hw.space]
    simp only [strip_of_no_ws hw.ws, split_join hws h, strip_all h]

/-- The line of an ellipsis. -/
theorem lineParts_dots (a d : Bool) {pre : List Glyph} (hp : pre ≠ []) :
    ∃ b, lineParts (glyphsFor a d) (pre.flatMap (glyphsFor a d).text ++ p! " ...") = .ok (b, p! "...", []) ∧
      b.length = 4 * pre.length := by
  obtain ⟨b, h1, h2⟩ := lineParts_plain a d hp (m := p! " ") (t := p! "...") (.inr rfl) (by decide) (by decide)
    (by cases a <;> cases d <;> decide) (by cases a <;> cases d <;> decide)
  rw [List.append_assoc] at h1
  exact ⟨b, h1, by simpa using h2⟩

/-- A vertical edge. -/
theorem lineParts_edge (a d : Bool) {pre : List Glyph} (hp : pre ≠ []) :
    ∃ b, lineParts (glyphsFor a d) (pre.flatMap (glyphsFor a d).text ++ (glyphsFor a d).verticalEdge) =
      .ok (b, (glyphsFor a d).verticalEdge, []) := by
  obtain ⟨b, h1, h2⟩ := lineParts_plain a d hp (m := []) (t := (glyphsFor a d).verticalEdge) (.inl rfl)
    (by cases a <;> cases d <;> decide) (by cases a <;> cases d <;> decide)
    (by cases a <;> cases d <;> decide) (by cases a <;> cases d <;> decide)
  rw [List.append_nil] at h1
  exact ⟨b, h1⟩

/-! ### The stack of the parser -/

theorem popUntil_find {ind : Int} {fr : PFrame} : ∀ {prev : PFrame} {stack : List PFrame},
    (prev :: stack).find? (fun p => decide (p.indent < ind)) = some fr →
    ∃ skipped rest, prev :: stack = skipped ++ fr :: rest ∧ (∀ p ∈ skipped, ind ≤ p.indent) ∧
      fr.indent < ind ∧ popUntil ind prev stack = .ok (fr, rest)
  | prev, stack, h => by
    rw [List.find?_cons] at h
    split at h
    · rename_i hd
      have hf : prev = fr := Option.some.inj h
      subst hf
      have hd : prev.indent < ind := by simpa using hd
      refine ⟨[], stack, rfl, by simp, hd, ?_⟩
      cases stack <;> rw [popUntil, if_neg (by omega)]
    · rename_i hd
      have hd : ind ≤ prev.indent := by simpa using hd
      cases stack with
      | nil => cases h
      | cons p stack =>
        obtain ⟨sk, rest, h1, h2, h3, h4⟩ := popUntil_find h
        refine ⟨prev :: sk, rest, by rw [h1]; rfl, ?_, h3, ?_⟩
        · intro q hq
          rcases List.mem_cons.1 hq with rfl | hq
          · exact hd
          · exact h2 q hq
        · rw [popUntil, if_pos hd, h4]

theorem find_skip {k : Int} {sk l : List PFrame} (h : ∀ p ∈ sk, k ≤ p.indent) :
    (sk ++ l).find? (fun p => decide (p.indent < k)) = l.find? (fun p => decide (p.indent < k)) := by
  rw [List.find?_append]
  have : sk.find? (fun p => decide (p.indent < k)) = none := by
    rw [List.find?_eq_none]
    intro p hp
    simpa using h p hp
  rw [this]; rfl

/-- Frames that are going to be drawn below a vertical edge. -/
def Frame.falls (f : Frame V) : Prop := f.vertical = true ∧ f.islast = true ∧ ∃ v, f.item = .node v

/-- The stack of the parser and the path of the reader. -/
structure Stacks (label : V → Str) (path : List V) (stack : List (Frame V)) (ps : List PFrame) (B : Nat) :
    Prop where
  form : ∀ p ∈ ps, ∃ j : Nat, p.indent = 4 * j - 1
  look : ∀ m : Nat, ∃ p, ps.find? (fun p => decide (p.indent < 4 * (m : Int))) = some p ∧ p.vert = false ∧
    (m ≤ B → p.node = (if m = 0 then none else path[m - 1]?).map label)
  bound : ∀ f ∈ stack, f.indents.length ≤ B
  below : ∀ f ∈ stack.tail, ¬ f.falls
  top : ∀ f ∈ stack.head?, f.falls → f.indents.length = B ∧ ∃ p rest, ps = p :: rest ∧ p.indent = 4 * B - 1
  long : B ≤ path.length

theorem Stacks.first {label : V → Str} {path : List V} {stack : List (Frame V)} {ps : List PFrame} {B : Nat}
    (h : Stacks label path stack ps B) : ∃ p rest, ps = p :: rest ∧ p.vert = false := by
  cases ps with
  | nil => obtain ⟨p, h1, -⟩ := h.look 0; cases h1
  | cons p rest =>
    refine ⟨p, rest, rfl, ?_⟩
    obtain ⟨j, hj⟩ := h.form p List.mem_cons_self
    obtain ⟨q, h1, h2, -⟩ := h.look j
    rw [List.find?_cons_of_pos (by simp [hj])] at h1
    cases h1
    exact h2

/-- The edges that the reader sees. -/
def edgesOf (label : V → Str) (es : List (Entry V)) : List (Str × Str) :=
  es.flatMap fun e =>
    match e.item with
    | .dots => []
    | .node v => e.others.map (fun u => (label u, label v)) ++ e.parent.toList.map (fun p => (label p, label v))

structure Says (label : V → Str) (out : List (Entry V)) (st : PState) : Prop where
  nodes : st.nodes = (nodesOf out).reverse.map label
  edges : st.edges = edgesOf label out.reverse
  full : st.isEmpty = false

theorem line_ne_empty (a d : Bool) {pre : List Glyph} (hp : pre ≠ []) (t : Str) :
    pre.flatMap (glyphsFor a d).text ++ t ≠ (glyphsFor a d).empty := by
  intro h
  have := congrArg List.length h
  have h0 : 0 < pre.length := List.length_pos_of_ne_nil hp
  rw [List.length_append, pre_length] at this
  have h1 : (glyphsFor a d).empty.length = 1 := by cases a <;> cases d <;> rfl
  omega

theorem vertical_char (a d : Bool) : ∃ c, (glyphsFor a d).verticalEdge = [c] ∧ c ∈ badChars a := by
  cases a <;> cases d <;> exact ⟨_, rfl, by decide⟩

theorem label_not_vertical (a d : Bool) {w : Str} (h : LabelOk a w) :
    isSub w (glyphsFor a d).verticalEdge = false := by
  obtain ⟨c, h1, h2⟩ := vertical_char a d
  cases w with
  | nil => exact absurd rfl h.ne
  | cons x w =>
    refine isSub_not_mem (c := x) List.mem_cons_self ?_
    rw [h1, List.mem_singleton]
    rintro rfl
    exact h.plain _ List.mem_cons_self h2

theorem parseLine_node (a d : Bool) {pre : List Glyph} (hp : pre ≠ []) {w : Str} (hw : LabelOk a w)
    {ws : List Str} (h : ∀ v ∈ ws, LabelOk a v) {st : PState} {prev : PFrame} {stack : List PFrame}
    (hst : st.stack = prev :: stack) {fr : PFrame} {rest : List PFrame}
    (hpop : (if prev.vert then .ok (prev, stack) else popUntil (4 * pre.length - 1) prev stack) =
      (.ok (fr, rest) : Py (PFrame × List PFrame))) :
    parseLine (glyphsFor a d) st (pre.flatMap (glyphsFor a d).text ++ w ++ suffixText (glyphsFor a d) ws) =
      .ok { st with
        stack := ⟨some w, 4 * pre.length - 1, false⟩ :: fr :: rest
        nodes := st.nodes ++ [w]
        edges := st.edges ++ ws.map (fun u => (u, w)) ++ fr.node.toList.map (fun p => (p, w)) } := by
  obtain ⟨b, h1, h2⟩ := lineParts_node a d hp hw h
  have hb : (b.length : Int) = 4 * pre.length - 1 := by omega
  unfold parseLine
  rw [if_neg (by rw [List.append_assoc]; exact line_ne_empty a d hp _), h1]
  simp only [hst, label_not_vertical a d hw, hb]
  rw [if_neg (by simp), hpop]
  simp only
  rw [if_neg hw.dots]
  cases fr.node <;> simp

theorem parseLine_dots (a d : Bool) {pre : List Glyph} (hp : pre ≠ []) {st : PState} {prev : PFrame}
    {stack : List PFrame} (hst : st.stack = prev :: stack) {fr : PFrame} {rest : List PFrame}
    (hpop : (if prev.vert then .ok (prev, stack) else popUntil (4 * pre.length) prev stack) =
      (.ok (fr, rest) : Py (PFrame × List PFrame))) :
    parseLine (glyphsFor a d) st (pre.flatMap (glyphsFor a d).text ++ p! " ...") =
      .ok { st with stack := fr :: rest } := by
  obtain ⟨b, h1, h2⟩ := lineParts_dots a d hp
  have hb : (b.length : Int) = 4 * pre.length := by omega
  have hv : isSub (p! "...") (glyphsFor a d).verticalEdge = false := by cases a <;> cases d <;> decide
  unfold parseLine
  rw [if_neg (line_ne_empty a d hp _), h1]
  simp only [hst, hv, hb]
  rw [if_neg (by simp), hpop]
  simp

theorem parseLine_edge (a d : Bool) {pre : List Glyph} (hp : pre ≠ []) {st : PState} {prev : PFrame}
    {stack : List PFrame} (hst : st.stack = prev :: stack) :
    parseLine (glyphsFor a d) st (pre.flatMap (glyphsFor a d).text ++ (glyphsFor a d).verticalEdge) =
      .ok { st with stack := { prev with vert := true } :: stack } := by
  obtain ⟨b, h1⟩ := lineParts_edge a d hp
  have hv : isSub (glyphsFor a d).verticalEdge (glyphsFor a d).verticalEdge = true :=
    isSub_iff.2 (List.infix_refl _)
  unfold parseLine
  rw [if_neg (line_ne_empty a d hp _), h1]
  simp only [hst, hv]
  simp

end NetText
end Verif
