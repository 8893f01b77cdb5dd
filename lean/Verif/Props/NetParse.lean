/-
C46: reading back the text of a graph.
-/
import Verif.NetParseSim
import Verif.Props.NetText

namespace Verif
namespace Props

open NetText

variable {V : Type} [DecidableEq V]

/-! ### Kinds of lines -/

/-- A line that shows whether the graph is directed. -/
def Marked : Line V → Prop
  | .edge pre => pre ≠ []
  | .entry pre _ _ => ∃ q G, pre = q ++ [G] ∧ (G = .last ∨ G = .mid)

/-- The line of a source. -/
def RootLine : Line V → Prop
  | .edge _ => False
  | .entry pre item _ => (pre = [.newtreeLast] ∨ pre = [.newtreeMid]) ∧ ∃ v, item = .node v

/-- The nodes on a line satisfy `P`. -/
def LineAll (P : V → Prop) : Line V → Prop
  | .edge _ => True
  | .entry _ .dots others => ∀ u ∈ others, P u
  | .entry _ (.node v) others => P v ∧ ∀ u ∈ others, P u

theorem emit_kind {f : Frame V} {others : List V} (hv : f.indents = [] → f.vertical = false)
    (hd : f.item = .dots → f.indents ≠ []) :
    (∃ l ∈ emit f others, Marked l) ∨ ∀ l ∈ emit f others, RootLine l := by
  obtain ⟨par, item, ind, lst, ver⟩ := f
  by_cases hi : ind = []
  · subst hi
    have : ver = false := hv rfl
    subst this
    right
    intro l hl
    cases item with
    | dots => exact absurd rfl (hd rfl)
    | node v =>
      cases lst <;> simp [emit, prefixes] at hl <;> subst hl
      · exact ⟨.inr rfl, v, rfl⟩
      · exact ⟨.inl rfl, v, rfl⟩
  · left
    cases ver with
    | true => exact ⟨.edge ind, by simp [emit, prefixes, hi], hi⟩
    | false =>
      cases lst with
      | true => exact ⟨.entry (ind ++ [.last]) item others, by simp [emit, prefixes, hi], ind, _, rfl, .inl rfl⟩
      | false => exact ⟨.entry (ind ++ [.mid]) item others, by simp [emit, prefixes, hi], ind, _, rfl, .inr rfl⟩

theorem kinds_append {a b : List (Line V)} (ha : (∃ l ∈ a, Marked l) ∨ ∀ l ∈ a, RootLine l)
    (hb : (∃ l ∈ b, Marked l) ∨ ∀ l ∈ b, RootLine l) :
    (∃ l ∈ a ++ b, Marked l) ∨ ∀ l ∈ a ++ b, RootLine l := by
  rcases ha with ⟨l, hl, h⟩ | ha
  · exact .inl ⟨l, List.mem_append_left _ hl, h⟩
  · rcases hb with ⟨l, hl, h⟩ | hb
    · exact .inl ⟨l, List.mem_append_right _ hl, h⟩
    · refine .inr fun l hl => ?_
      rcases List.mem_append.1 hl with hl | hl
      · exact ha l hl
      · exact hb l hl

theorem step_kind {g : Graph V} {src : List V} {o : Options} (hg : Valid g) (ho : o.maxDepth = none)
    (hcol : ∀ v, g.collapse v = false) {r : Reader V} {s s' : State V} {ls : List (Line V)}
    (hI : Inv g src r s) (h : step g o s = .ok (some (ls, s'))) :
    ((∃ l ∈ ls, Marked l) ∨ ∀ l ∈ ls, RootLine l) ∧ ∀ l ∈ ls, LineAll (· ∈ g.nodes) l := by
  unfold step at h
  split at h
  · cases h
  · rename_i f rest hst
    have hF := hI.frame f (by rw [hst]; exact List.mem_cons_self)
    split at h
    · rename_i hi
      cases h
      have := emit_kind (others := []) hF.vert (fun h => (hF.dots h).1)
      unfold emit at this
      rw [hi] at this
      refine ⟨this, ?_⟩
      intro l hl
      rcases List.mem_append.1 hl with hl | hl
      · split at hl
        · rw [List.mem_singleton] at hl; subst hl; trivial
        · cases hl
      · rw [List.mem_singleton] at hl; subst hl
        intro u hu; cases hu
    · rename_i v hi
      simp only at h
      split at h
      · cases h; exact ⟨.inr (fun l hl => by cases hl), fun l hl => by cases hl⟩
      · split at h
        · cases h; exact ⟨.inr (fun l hl => by cases hl), fun l hl => by cases hl⟩
        · split at h
          · cases h
          · rename_i hn
            cases h
            have := emit_kind (others := (expand g o (v :: s.seen) f v).2) hF.vert (fun h => (hF.dots h).1)
            unfold emit at this
            rw [hi] at this
            refine ⟨this, ?_⟩
            intro l hl
            rcases List.mem_append.1 hl with hl | hl
            · split at hl
              · rw [List.mem_singleton] at hl; subst hl; trivial
              · cases hl
            · rw [List.mem_singleton] at hl; subst hl
              refine ⟨by simpa using hn, ?_⟩
              intro u hu
              rw [expand_free ho hcol] at hu
              exact hg.memPred u v (List.mem_filter.1 hu).1

theorem loop_kind {g : Graph V} {src : List V} {o : Options} (hg : Valid g) (ho : o.maxDepth = none)
    (hcol : ∀ v, g.collapse v = false) :
    ∀ (s : State V) (r : Reader V) (ls : List (Line V)), Inv g src r s → loop g o s = .ok ls →
    ((∃ l ∈ ls, Marked l) ∨ ∀ l ∈ ls, RootLine l) ∧ ∀ l ∈ ls, LineAll (· ∈ g.nodes) l := by
  intro s
  induction s using loop.induct (g := g) (o := o) with
  | case1 s e he =>
    intro r ls hI h
    rw [loop] at h
    split at h <;> simp_all
  | case2 s he =>
    intro r ls hI h
    rw [loop] at h
    split at h
    · simp_all
    · cases h; exact ⟨.inr (fun l hl => by cases hl), fun l hl => by cases hl⟩
    · simp_all
  | case3 s ls s' he e he' ih =>
    intro r ls hI h
    rw [loop] at h
    split at h <;> simp_all
  | case4 s ls s' he l' he' ih =>
    intro r ls' hI h
    have hl : ls' = ls ++ l' := by
      rw [loop] at h
      split at h <;> simp_all
    subst hl
    obtain ⟨h1, h2⟩ := step_kind hg ho hcol hI he
    obtain ⟨h3, h4⟩ := ih _ l' (step_inv hg ho hcol hI he) he'
    refine ⟨kinds_append h1 h3, ?_⟩
    intro l hl
    rcases List.mem_append.1 hl with hl | hl
    · exact h2 l hl
    · exact h4 l hl

/-- The text begins with the line of a source. -/
theorem loop_head {g : Graph V} {o : Options} {v : V} {vs : List V} (hv : v ∈ g.nodes) {ls : List (Line V)}
    (h : loop g o ⟨start (v :: vs), [], []⟩ = .ok ls) : ∃ l rest, ls = l :: rest ∧ RootLine l := by
  have hs : step g o ⟨start (v :: vs), [], []⟩ = .ok (some ([.entry [if vs.isEmpty then .newtreeLast else .newtreeMid]
      (.node v) (expand g o [v] ⟨none, .node v, [], vs.isEmpty, false⟩ v).2],
      ⟨frames (some v) [if vs.isEmpty then .endofForest else .withinForest]
        (nextVertical g o none (expand g o [v] ⟨none, .node v, [], vs.isEmpty, false⟩ v).1)
        (expand g o [v] ⟨none, .node v, [], vs.isEmpty, false⟩ v).1 ++ start vs, [], [v]⟩)) := by
    unfold step
    simp only [start, skipsAfter, List.not_mem_nil, if_false]
    rw [if_neg (by simp), if_neg (by simpa using hv)]
    cases hvs : vs.isEmpty <;> simp [prefixes]
  rw [loop] at h
  split at h
  · rename_i h1; rw [hs] at h1; cases h1
  · rename_i h1; rw [hs] at h1; cases h1
  · rename_i l s' h1
    rw [hs] at h1
    cases h1
    split at h
    · cases h
    · cases h
      refine ⟨_, _, rfl, ?_, v, rfl⟩
      split
      · exact .inl rfl
      · exact .inr rfl

/-! ### Telling directed from undirected -/

theorem unambiguous_directed (a : Bool) : unambiguous (glyphsFor a true) (glyphsFor a false) =
    [(glyphsFor a true).backedge, (glyphsFor a true).last, (glyphsFor a true).mid,
      (glyphsFor a true).verticalEdge] := by
  cases a <;> decide

theorem unambiguous_undirected (a : Bool) : unambiguous (glyphsFor a false) (glyphsFor a true) =
    [(glyphsFor a false).last, (glyphsFor a false).mid] := by
  cases a <;> decide

def arrows (a : Bool) : List Char := if a then ['>', '<', '!'] else ['╼', '╾', '╽']

theorem arrows_bad {a : Bool} {c : Char} (h : c ∈ arrows a) : c ∈ badChars a := by
  cases a <;> simp [arrows, badChars] at h ⊢ <;> tauto

theorem not_mem_join {a : Bool} {ws : List Str} {c : Char} (h : ∀ w ∈ ws, c ∉ w) (h1 : c ≠ ',') (h2 : c ≠ ' ') :
    c ∉ joinStr (p! ", ") ws := by
  induction ws with
  | nil => simp [joinStr]
  | cons w ws ih =>
    have ih := ih (fun v hv => h v (List.mem_cons_of_mem _ hv))
    cases ws with
    | nil => exact h w List.mem_cons_self
    | cons w' ws =>
      have e : joinStr (p! ", ") (w :: w' :: ws) = w ++ p! ", " ++ joinStr (p! ", ") (w' :: ws) := by
        rw [joinStr]; simp
      rw [e]
      simp only [List.mem_append, List.mem_cons, List.not_mem_nil, or_false, not_or]
      exact ⟨⟨h w List.mem_cons_self, h1, h2⟩, ih⟩

/-- No arrow in the text of an undirected graph. -/
theorem no_arrow {a : Bool} {label : V → Str} {l : Line V} (hl : LineAll (fun v => LabelOk a (label v)) l)
    {c : Char} (hc : c ∈ arrows a) : c ∉ render (glyphsFor a false) label l := by
  have htext : ∀ pre : List Glyph, c ∉ pre.flatMap (glyphsFor a false).text := by
    intro pre hm
    obtain ⟨G, -, hG⟩ := List.mem_flatMap.1 hm
    revert hG
    cases a <;> cases G <;> simp [arrows] at hc <;> rcases hc with rfl | rfl | rfl <;> decide
  have hb : c ∉ (glyphsFor a false).backedge := by
    cases a <;> simp [arrows] at hc <;> rcases hc with rfl | rfl | rfl <;> decide
  have hv : c ∉ (glyphsFor a false).verticalEdge := by
    cases a <;> simp [arrows] at hc <;> rcases hc with rfl | rfl | rfl <;> decide
  have hd : c ∉ p! " ..." := by
    cases a <;> simp [arrows] at hc <;> rcases hc with rfl | rfl | rfl <;> decide
  have h1 : c ≠ ',' := by
    cases a <;> simp [arrows] at hc <;> rcases hc with rfl | rfl | rfl <;> decide
  have h2 : c ≠ ' ' := by
    cases a <;> simp [arrows] at hc <;> rcases hc with rfl | rfl | rfl <;> decide
  cases l with
  | edge pre => simp only [render, List.mem_append, not_or]; exact ⟨htext pre, hv⟩
  | entry pre item others =>
    cases item with
    | dots => simp only [render, List.mem_append, not_or]; exact ⟨htext pre, hd⟩
    | node v =>
      obtain ⟨hl1, hl2⟩ := hl
      simp only [render, List.mem_append, not_or]
      refine ⟨⟨htext pre, hl1.not_mem (arrows_bad hc)⟩, ?_⟩
      unfold suffixText
      split
      · simp
      · simp only [List.mem_append, not_or, List.mem_cons, List.not_mem_nil, or_false]
        refine ⟨⟨⟨h2, hb⟩, h2⟩, not_mem_join (a := a) ?_ h1 h2⟩
        intro w hw
        obtain ⟨u, hu, rfl⟩ := List.mem_map.1 hw
        exact (hl2 u hu).not_mem (arrows_bad hc)

theorem detect_undirected {a : Bool} {label : V → Str} {ls : List (Line V)} {und : List Str}
    (h : ∀ l ∈ ls, LineAll (fun v => LabelOk a (label v)) l) :
    detect (unambiguous (glyphsFor a true) (glyphsFor a false)) und (ls.map (render (glyphsFor a false) label)) =
      false := by
  induction ls with
  | nil => rfl
  | cons l ls ih =>
    rw [List.map_cons, detect, ih (fun l hl => h l (List.mem_cons_of_mem _ hl))]
    split
    · rfl
    · rw [if_neg]
      rw [unambiguous_directed]
      have hl := h l List.mem_cons_self
      have key : ∀ item c, c ∈ item → c ∈ arrows a → isSub item (render (glyphsFor a false) label l) = false :=
        fun item c h1 h2 => isSub_not_mem h1 (no_arrow hl h2)
      cases a
      · simp [key _ '╾' (by decide : '╾' ∈ (glyphsFor false true).backedge) (by decide),
          key _ '╼' (by decide : '╼' ∈ (glyphsFor false true).last) (by decide),
          key _ '╼' (by decide : '╼' ∈ (glyphsFor false true).mid) (by decide),
          key _ '╽' (by decide : '╽' ∈ (glyphsFor false true).verticalEdge) (by decide)]
      · simp [key _ '<' (by decide : '<' ∈ (glyphsFor true true).backedge) (by decide),
          key _ '>' (by decide : '>' ∈ (glyphsFor true true).last) (by decide),
          key _ '>' (by decide : '>' ∈ (glyphsFor true true).mid) (by decide),
          key _ '!' (by decide : '!' ∈ (glyphsFor true true).verticalEdge) (by decide)]

/-- The stroke of the undirected branches. -/
def stroke (a : Bool) : Char := if a then '-' else '─'

/-- No branch of an undirected graph in the text of a directed graph. -/
theorem no_branch {a : Bool} {label : V → Str} {l : Line V} (hl : LineAll (fun v => LabelOk a (label v)) l)
    (x : Char) (hx : x = (if a then 'L' else '└') ∨ x = (if a then '|' else '├')) :
    isSub [x, stroke a, stroke a, ' '] (render (glyphsFor a true) label l) = false := by
  refine isSub_clean (by simp) ?_
  have htext : ∀ (G : Glyph) (u : Str), Clean [x, stroke a, stroke a, ' '] ((glyphsFor a true).text G) u := by
    intro G u i hi
    rw [text_length] at hi
    rcases hx with rfl | rfl <;> interval_cases i <;> cases a <;> cases G <;>
      simp [glyphsFor, asciiDirected, utfDirected, Glyphs.text, stroke]
  have hpre : ∀ (pre : List Glyph) (u : Str),
      Clean [x, stroke a, stroke a, ' '] (pre.flatMap (glyphsFor a true).text) u := by
    intro pre
    induction pre with
    | nil => exact fun u => Clean.nil _ _
    | cons G pre ih => exact fun u => by rw [List.flatMap_cons]; exact Clean.append (htext G _) (ih u)
  have hbad : stroke a ∈ badChars a := by cases a <;> decide
  cases l with
  | edge pre =>
    refine Clean.append (hpre pre _) (clean_first ?_)
    rcases hx with rfl | rfl <;> cases a <;> decide
  | entry pre item others =>
    cases item with
    | dots =>
      refine Clean.append (hpre pre _) (clean_first ?_)
      rcases hx with rfl | rfl <;> cases a <;> decide
    | node v =>
      obtain ⟨hl1, hl2⟩ := hl
      rw [render, List.append_assoc]
      refine Clean.append (hpre pre _) ?_
      unfold suffixText
      split
      · rw [List.append_nil]
        exact clean_second (hl1.not_mem hbad) (by simp)
      · rw [List.append_assoc]
        refine Clean.append (clean_second (hl1.not_mem hbad) ?_) (Clean.append (clean_first ?_)
          (Clean.append (clean_first ?_) (clean_second ?_ (by simp))))
        · cases a <;> simp [stroke]
        · rcases hx with rfl | rfl <;> cases a <;> decide
        · rcases hx with rfl | rfl <;> cases a <;> decide
        · refine not_mem_join (a := a) ?_ (by cases a <;> decide) (by cases a <;> decide)
          intro w hw
          obtain ⟨u, hu, rfl⟩ := List.mem_map.1 hw
          exact (hl2 u hu).not_mem hbad

theorem marked_arrow {a : Bool} {label : V → Str} {l : Line V} (h : Marked l) :
    ∃ item ∈ unambiguous (glyphsFor a true) (glyphsFor a false),
      isSub item (render (glyphsFor a true) label l) = true := by
  rw [unambiguous_directed]
  cases l with
  | edge pre =>
    refine ⟨(glyphsFor a true).verticalEdge, by simp, isSub_iff.2 ?_⟩
    exact (List.suffix_append _ _).isInfix
  | entry pre item others =>
    obtain ⟨q, G, rfl, hG⟩ := h
    have : ∃ t, render (glyphsFor a true) label (.entry (q ++ [G]) item others) =
        q.flatMap (glyphsFor a true).text ++ (glyphsFor a true).text G ++ t := by
      cases item with
      | dots => exact ⟨p! " ...", by simp [render]⟩
      | node v => exact ⟨label v ++ suffixText (glyphsFor a true) (others.map label), by simp [render]⟩
    obtain ⟨t, ht⟩ := this
    rcases hG with rfl | rfl
    · exact ⟨(glyphsFor a true).last, by simp, by rw [ht]; exact isSub_iff.2 ⟨_, _, rfl⟩⟩
    · exact ⟨(glyphsFor a true).mid, by simp, by rw [ht]; exact isSub_iff.2 ⟨_, _, rfl⟩⟩

theorem detect_directed {a : Bool} {label : V → Str} {ls : List (Line V)}
    (h : ∀ l ∈ ls, LineAll (fun v => LabelOk a (label v)) l) (hm : ∃ l ∈ ls, Marked l) :
    detect (unambiguous (glyphsFor a true) (glyphsFor a false))
      (unambiguous (glyphsFor a false) (glyphsFor a true)) (ls.map (render (glyphsFor a true) label)) = true := by
  induction ls with
  | nil => obtain ⟨l, hl, -⟩ := hm; cases hl
  | cons l ls ih =>
    rw [List.map_cons, detect, if_neg]
    · split
      · rfl
      · rename_i hno
        refine ih (fun l hl => h l (List.mem_cons_of_mem _ hl)) ?_
        obtain ⟨l', hl', hm⟩ := hm
        rcases List.mem_cons.1 hl' with rfl | hl'
        · obtain ⟨item, h1, h2⟩ := marked_arrow (a := a) (label := label) hm
          exact absurd (List.any_eq_true.2 ⟨item, h1, h2⟩) hno
        · exact ⟨l', hl', hm⟩
    · rw [unambiguous_undirected]
      have hl := h l List.mem_cons_self
      have e1 : (glyphsFor a false).last = [if a then 'L' else '└', stroke a, stroke a, ' '] := by cases a <;> rfl
      have e2 : (glyphsFor a false).mid = [if a then '|' else '├', stroke a, stroke a, ' '] := by cases a <;> rfl
      rw [e1, e2]
      simp [no_branch hl _ (.inl rfl), no_branch hl _ (.inr rfl)]

/-! ### The round trip -/

theorem stacks_start (label : V → Str) (src : List V) :
    Stacks label (Reader.init : Reader V).path (start src) [⟨none, -1, false⟩] 0 := by
  have hf : ∀ f ∈ start src, f.indents = [] ∧ f.vertical = false := by
    intro f hf
    obtain ⟨v, -, -, -, h1, h2⟩ := mem_start hf
    exact ⟨h1, h2⟩
  refine ⟨?_, ?_, ?_, ?_, ?_, Nat.zero_le _⟩
  · intro p hp
    rw [List.mem_singleton] at hp; subst hp
    exact ⟨0, rfl⟩
  · intro m
    refine ⟨_, List.find?_cons_of_pos (by simp only [decide_eq_true_eq]; omega), rfl, ?_⟩
    intro hm
    rw [if_pos (by omega)]; rfl
  · intro f h; rw [(hf f h).1]; simp
  · rintro f h ⟨h1, -⟩; rw [(hf f (List.mem_of_mem_tail h)).2] at h1; cases h1
  · rintro f h ⟨h1, -⟩; rw [(hf f (List.mem_of_mem_head? h)).2] at h1; cases h1

theorem isAscii_root (a d : Bool) (label : V → Str) {l : Line V} (h : RootLine l) (ls : List Str) :
    isAscii (render (glyphsFor a d) label l :: ls) = .ok a := by
  cases l with
  | edge pre => cases h
  | entry pre item others =>
    obtain ⟨h, v, rfl⟩ := h
    rcases h with rfl | rfl <;> cases a <;> cases d <;>
      simp [render, isAscii, glyphsFor, asciiDirected, asciiUndirected, utfDirected, utfUndirected, Glyphs.text]

/-- What is parsed from the lines of a graph, when the glyphs are told correctly. -/
theorem parse_lines {g : Graph V} {o : Options} {src : List V} (hg : Valid g) (ho : o.maxDepth = none)
    (hcol : ∀ v, g.collapse v = false) (a d : Bool) {label : V → Str}
    (hlab : ∀ v ∈ g.nodes, LabelOk a (label v)) {ls : List (Line V)} (hne : g.nodes ≠ [])
    (h : generate g o src = .ok (some ls)) :
    ∃ st, parseLines (glyphsFor a d) ⟨[⟨none, -1, false⟩], [], [], false⟩
        (ls.map (render (glyphsFor a d) label)) = .ok st ∧
      st.nodes = (shown ls).map label ∧ st.edges = edgesOf label (readAll ls) ∧ st.isEmpty = false := by
  unfold generate at h
  rw [if_neg (by rw [ho]; simp), if_neg (by simpa using hne)] at h
  cases hl : loop g o ⟨start src, [], []⟩ with
  | error e => rw [hl] at h; cases h
  | ok ls' =>
    rw [hl] at h
    cases h
    obtain ⟨st, h1, h2⟩ := loop_parse hg ho hcol a d hlab ⟨start src, [], []⟩ Reader.init ls
      ⟨[⟨none, -1, false⟩], [], [], false⟩ 0 (inv_start g src) hl (stacks_start label src)
      ⟨rfl, rfl, rfl⟩
    refine ⟨st, h1, ?_, h2.edges, h2.full⟩
    rw [h2.nodes, shown_read]
    simp [readAll, nodesOf, List.filterMap_reverse]

theorem mem_edgesOf {label : V → Str} {es : List (Entry V)} {x y : Str} :
    (x, y) ∈ edgesOf label es ↔ ∃ e ∈ es, ∃ v, e.item = .node v ∧ label v = y ∧
      ∃ u ∈ e.parent.toList ++ e.others, label u = x := by
  unfold edgesOf
  rw [List.mem_flatMap]
  constructor
  · rintro ⟨e, he, h⟩
    refine ⟨e, he, ?_⟩
    cases hi : e.item with
    | dots => rw [hi] at h; cases h
    | node v =>
      rw [hi] at h
      simp only [List.mem_append, List.mem_map, Prod.mk.injEq] at h
      rcases h with ⟨u, hu, h1, h2⟩ | ⟨u, hu, h1, h2⟩
      · exact ⟨v, rfl, h2, u, List.mem_append_right _ hu, h1⟩
      · exact ⟨v, rfl, h2, u, List.mem_append_left _ hu, h1⟩
  · rintro ⟨e, he, v, hi, h1, u, hu, h2⟩
    refine ⟨e, he, ?_⟩
    rw [hi]
    simp only [List.mem_append, List.mem_map, Prod.mk.injEq]
    rcases List.mem_append.1 hu with hu | hu
    · exact .inr ⟨u, hu, h2, h1⟩
    · exact .inl ⟨u, hu, h2, h1⟩

/-- Without edges every line is the line of a source. -/
theorem lines_edgeless {g : Graph V} {o : Options} {src : List V} (hg : Valid g) (ho : o.maxDepth = none)
    (hcol : ∀ v, g.collapse v = false) (hno : ∀ u v, v ∉ g.succ u) {ls : List (Line V)}
    (h : loop g o ⟨start src, [], []⟩ = .ok ls) :
    ∀ l ∈ ls, ∃ pre v, l = .entry pre (.node v) [] ∧ (pre = [.newtreeLast] ∨ pre = [.newtreeMid]) := by
  refine loop_forall (g := g) (o := o)
    (fun s => ∀ f ∈ s.stack, f.indents = [] ∧ f.vertical = false ∧ f.parent = none ∧ ∃ v, f.item = .node v)
    _ ?_ ⟨start src, [], []⟩ ?_ ls h
  · intro s ls s' hP hs
    unfold step at hs
    split at hs
    · cases hs
    · rename_i f rest hst
      obtain ⟨f1, f2, f3, v, f4⟩ := hP f (by rw [hst]; exact List.mem_cons_self)
      have hrest : ∀ f ∈ rest, f.indents = [] ∧ f.vertical = false ∧ f.parent = none ∧ ∃ v, f.item = .node v :=
        fun f hf => hP f (by rw [hst]; exact List.mem_cons_of_mem _ hf)
      rw [f4] at hs
      simp only at hs
      split at hs
      · rename_i hc; exact absurd f3 hc.2.2
      · split at hs
        · cases hs; exact ⟨hrest, fun l hl => by cases hl⟩
        · split at hs
          · cases hs
          · cases hs
            have hex := expand_free (g := g) (o := o) ho hcol (v :: s.seen) f v
            have e1 : g.succ v = [] := by
              refine List.eq_nil_iff_forall_not_mem.2 fun c hc => hno v c hc
            have e2 : g.pred v = [] := by
              refine List.eq_nil_iff_forall_not_mem.2 fun c hc => hno c v ((hg.pred c v).1 hc)
            rw [hex, e1, e2]
            refine ⟨fun f hf => hrest f hf, ?_⟩
            intro l hl
            refine ⟨(prefixes f).1, v, ?_, ?_⟩
            · have hv : (prefixes f).2.2 = false := by
                rw [prefix_vertical (fun _ => f2)]; exact f2
              rw [hv] at hl
              simpa using hl
            · unfold prefixes
              rw [f1]
              cases f.islast <;> simp
  · intro f hf
    obtain ⟨v, -, h1, h2, h3, h4⟩ := mem_start hf
    exact ⟨h3, h4, h2, v, h1⟩

/-- Lines of sources hang below nothing. -/
theorem read_roots {ls : List (Line V)} (h : ∀ l ∈ ls, RootLine l) :
    ∀ e ∈ readAll ls, e.parent = none ∧ ∃ v, e.item = .node v := by
  have key : ∀ (ls : List (Line V)) (r : Reader V), (∀ l ∈ ls, RootLine l) → r.vert = false →
      (∀ e ∈ r.out, e.parent = none ∧ ∃ v, e.item = .node v) →
      ∀ e ∈ (ls.foldl Reader.read r).out, e.parent = none ∧ ∃ v, e.item = .node v := by
    intro ls
    induction ls with
    | nil => intro r _ _ h; exact h
    | cons l ls ih =>
      intro r hl hr ho
      rw [List.foldl_cons]
      have h0 := hl l List.mem_cons_self
      refine ih _ (fun l h => hl l (List.mem_cons_of_mem _ h)) ?_ ?_
      · cases l with
        | edge pre => cases h0
        | entry pre item others => rfl
      · cases l with
        | edge pre => cases h0
        | entry pre item others =>
          obtain ⟨h1, v, rfl⟩ := h0
          have hl1 : pre.length ≤ 1 := by rcases h1 with rfl | rfl <;> simp
          intro e he
          rcases List.mem_cons.1 he with rfl | he
          · refine ⟨?_, v, rfl⟩
            simp only [hr, Bool.false_eq_true, if_false]
            rw [if_pos hl1]
          · exact ho e he
  intro e he
  unfold readAll at he
  rw [List.mem_reverse] at he
  exact key ls Reader.init h rfl (fun e he => by cases he) e he

/-- Adjacency in the graph that is returned. -/
def joins (P : Parsed) (x y : Str) : Prop := (x, y) ∈ P.edges ∨ P.directed = false ∧ (y, x) ∈ P.edges

/-- **C46**: reading the text of a graph back gives the graph: the same nodes, each once, and the same edges
with their directions.  Only for a directed graph without edges the directions are lost. -/
theorem C46_round_trip (g : Graph V) (o : Options) (src : List V) (ascii : Bool) (label : V → Str) (hg : Valid g)
    (ho : o.maxDepth = none) (hcol : ∀ v, g.collapse v = false) (hne : g.nodes ≠ [])
    (hsrc : ∀ v ∈ src, v ∈ g.nodes) (hreach : ∀ v ∈ g.nodes, ∃ s ∈ src, Reach g s v)
    (hlab : ∀ v ∈ g.nodes, LabelOk ascii (label v))
    (hinj : ∀ u ∈ g.nodes, ∀ v ∈ g.nodes, label u = label v → u = v) :
    ∃ lines P, generateText g o src ascii label = .ok lines ∧ parse lines = .ok P ∧
      (P.directed = true ↔ g.directed = true ∧ ∃ u v, v ∈ g.succ u ∧ u ∈ g.nodes) ∧
      P.nodes.Nodup ∧ (∀ w, w ∈ P.nodes ↔ ∃ v ∈ g.nodes, label v = w) ∧
      ∀ x y, joins P x y ↔ ∃ u ∈ g.nodes, ∃ v ∈ g.succ u, label u = x ∧ label v = y := by
  obtain ⟨ls, h1, h2, h3⟩ := C42_each_node_once g o src hg ho hcol hsrc hne
  obtain ⟨ls', h1', h4⟩ := C42_edges g o src hg ho hcol hsrc hne
  rw [h1] at h1'; cases h1'
  obtain ⟨ls', h1', h5, h6⟩ := C42_ellipsis g o src hg ho hcol hsrc hne
  rw [h1] at h1'; cases h1'
  have hshown : ∀ v, v ∈ shown ls ↔ v ∈ g.nodes := by
    intro v
    rw [h3]
    refine ⟨?_, hreach v⟩
    rintro ⟨s, hs, hr⟩
    have := hsrc s hs
    induction hr with
    | refl => exact this
    | tail _ h _ => exact hg.mem _ _ h
  -- the lines
  have hloop : loop g o ⟨start src, [], []⟩ = .ok ls := by
    unfold generate at h1
    rw [if_neg (by rw [ho]; simp), if_neg (by simpa using hne)] at h1
    cases hl : loop g o ⟨start src, [], []⟩ with
    | error e => rw [hl] at h1; cases h1
    | ok ls' => rw [hl] at h1; cases h1; rfl
  obtain ⟨hkind, hin⟩ := loop_kind hg ho hcol _ _ ls (inv_start g src) hloop
  have hall : ∀ l ∈ ls, LineAll (fun v => LabelOk ascii (label v)) l := by
    intro l hl
    have := hin l hl
    cases l with
    | edge pre => trivial
    | entry pre item others =>
      cases item with
      | dots => exact fun u hu => hlab u (this u hu)
      | node v => exact ⟨hlab v this.1, fun u hu => hlab u (this.2 u hu)⟩
  obtain ⟨l0, rest, hls, hroot⟩ : ∃ l rest, ls = l :: rest ∧ RootLine l := by
    cases hs : src with
    | nil =>
      obtain ⟨v, hv⟩ := List.exists_mem_of_ne_nil _ hne
      obtain ⟨s, h, -⟩ := hreach v hv
      rw [hs] at h; cases h
    | cons v vs =>
      rw [hs] at hloop
      exact loop_head (hsrc v (by rw [hs]; exact List.mem_cons_self)) hloop
  have hnotm : ¬ Marked l0 := by
    cases l0 with
    | edge pre => cases hroot
    | entry pre item others =>
      rintro ⟨q, G, hq, hG⟩
      obtain ⟨hroot, -⟩ := hroot
      have : pre.getLast? = some G := by rw [hq]; simp
      rcases hroot with rfl | rfl <;> cases this <;> rcases hG with h | h <;> cases h
  have hmk : (∃ l ∈ rest, Marked l) ↔ ∃ l ∈ ls, Marked l := by
    rw [hls]
    constructor
    · rintro ⟨l, hl, h⟩; exact ⟨l, List.mem_cons_of_mem _ hl, h⟩
    · rintro ⟨l, hl, h⟩
      rcases List.mem_cons.1 hl with rfl | hl
      · exact absurd h hnotm
      · exact ⟨l, hl, h⟩
  -- who is joined, by the entries
  have hent : ∀ x y, (x, y) ∈ edgesOf label (readAll ls) ↔ ∃ pre e post v u, readAll ls = pre ++ e :: post ∧
      e.item = .node v ∧ u ∈ g.pred v ∧ (g.directed = true ∨ u ∈ v :: nodesOf pre) ∧ label v = y ∧
      label u = x := by
    intro x y
    rw [mem_edgesOf]
    constructor
    · rintro ⟨e, he, v, hi, hy, u, hu, hx⟩
      obtain ⟨pre, post, hpp⟩ := List.append_of_mem he
      have := (h4 pre e post v hpp hi).1.mem_iff.1 hu
      rw [List.mem_filter] at this
      refine ⟨pre, e, post, v, u, hpp, hi, this.1, ?_, hy, hx⟩
      simpa using this.2
    · rintro ⟨pre, e, post, v, u, hpp, hi, hu, hd, hy, hx⟩
      refine ⟨e, by rw [hpp]; simp, v, hi, hy, u, ?_, hx⟩
      rw [(h4 pre e post v hpp hi).1.mem_iff, List.mem_filter]
      exact ⟨hu, by simpa using hd⟩
  have hentry : ∀ v ∈ g.nodes, ∃ pre e post, readAll ls = pre ++ e :: post ∧ e.item = .node v := by
    intro v hv
    have := (hshown v).2 hv
    rw [shown_read, mem_nodesOf] at this
    obtain ⟨e, he, hi⟩ := this
    obtain ⟨pre, post, hpp⟩ := List.append_of_mem he
    exact ⟨pre, e, post, hpp, hi⟩
  have hnodes : ((shown ls).map label).Nodup := by
    refine List.Nodup.map_on ?_ h2
    intro u hu v hv h
    exact hinj u ((hshown u).1 hu) v ((hshown v).1 hv) h
  have hmem : ∀ w, w ∈ (shown ls).map label ↔ ∃ v ∈ g.nodes, label v = w := by
    intro w
    simp only [List.mem_map, hshown]
  have htail : (ls.map (render (glyphsFor ascii g.directed) label)).tail =
      rest.map (render (glyphsFor ascii g.directed) label) := by rw [hls]; rfl
  have hasc : isAscii (ls.map (render (glyphsFor ascii g.directed) label)) = .ok ascii := by
    rw [hls]; exact isAscii_root ascii g.directed label hroot _
  have hrest : ∀ l ∈ rest, LineAll (fun v => LabelOk ascii (label v)) l :=
    fun l hl => hall l (by rw [hls]; exact List.mem_cons_of_mem _ hl)
  refine ⟨ls.map (render (glyphsFor ascii g.directed) label), ?_⟩
  cases hd : g.directed with
  | false =>
    rw [hd] at htail hasc
    obtain ⟨st, p1, p2, p3, p4⟩ := parse_lines hg ho hcol ascii false hlab hne h1
    refine ⟨⟨false, st.nodes, st.edges⟩, by unfold generateText; rw [h1, hd], ?_, by simp, by rw [p2]; exact hnodes,
      fun w => by rw [← hmem w]; simp only [p2], ?_⟩
    · unfold parse
      simp only [hasc, htail, detect_undirected hrest, p1, p4]
      simp
    · intro x y
      have hsym := hg.sym hd
      unfold joins
      simp only [p3, true_and]
      obtain ⟨ls', h1', h7⟩ := C42_edges_once g o src hg hd ho hcol hsrc hne
      rw [h1] at h1'; cases h1'
      constructor
      · rintro (h | h)
        · obtain ⟨pre, e, post, v, u, -, -, hu, -, hy, hx⟩ := (hent x y).1 h
          exact ⟨u, hg.memPred u v hu, v, (hg.pred u v).1 hu, hx, hy⟩
        · obtain ⟨pre, e, post, v, u, -, -, hu, -, hy, hx⟩ := (hent y x).1 h
          have hu' : u ∈ g.succ v := by rw [← hsym]; exact hu
          have hv : v ∈ g.pred u := by rw [hsym]; exact (hg.pred u v).1 hu
          exact ⟨v, hg.memPred v u hv, u, hu', hy, hx⟩
      · rintro ⟨u, hu, v, hv, hx, hy⟩
        obtain ⟨pre, e, post, hpp, hi⟩ := hentry u hu
        obtain ⟨pre', e', post', hpp', hi'⟩ := hentry v (hg.mem u v hv)
        have hem : e ∈ readAll ls := by rw [hpp]; simp
        have hem' : e' ∈ readAll ls := by rw [hpp']; simp
        obtain ⟨k1, k2⟩ := h7 e hem e' hem' u v hi hi' hv
        by_cases huv : u = v
        · subst huv
          exact .inl (mem_edgesOf.2 ⟨e, hem, u, hi, hy, u, k1 rfl, hx⟩)
        · by_cases hve : v ∈ e.parent.toList ++ e.others
          · exact .inr (mem_edgesOf.2 ⟨e, hem, u, hi, hx, v, hve, hy⟩)
          · have : u ∈ e'.parent.toList ++ e'.others := by
              by_contra hn
              exact hve ((k2 huv).2 hn)
            exact .inl (mem_edgesOf.2 ⟨e', hem', v, hi', hy, u, this, hx⟩)
  | true =>
    rw [hd] at htail hasc
    have hjoin : ∀ x y, (x, y) ∈ edgesOf label (readAll ls) ↔
        ∃ u ∈ g.nodes, ∃ v ∈ g.succ u, label u = x ∧ label v = y := by
      intro x y
      rw [hent]
      constructor
      · rintro ⟨pre, e, post, v, u, -, -, hu, -, hy, hx⟩
        exact ⟨u, hg.memPred u v hu, v, (hg.pred u v).1 hu, hx, hy⟩
      · rintro ⟨u, hu, v, hv, hx, hy⟩
        obtain ⟨pre, e, post, hpp, hi⟩ := hentry v (hg.mem u v hv)
        exact ⟨pre, e, post, v, u, hpp, hi, (hg.pred u v).2 hv, .inl hd, hy, hx⟩
    by_cases hm : ∃ l ∈ ls, Marked l
    · obtain ⟨st, p1, p2, p3, p4⟩ := parse_lines hg ho hcol ascii true hlab hne h1
      refine ⟨⟨true, st.nodes, st.edges⟩, by unfold generateText; rw [h1, hd], ?_, ?_, by rw [p2]; exact hnodes,
        fun w => by rw [← hmem w]; simp only [p2], ?_⟩
      · unfold parse
        simp only [hasc, htail, detect_directed hrest (hmk.2 hm), p1, p4]
        simp
      · simp only [true_and, true_iff]
        -- a mark needs an edge
        by_contra hno
        have hno' : ∀ u v, v ∉ g.succ u :=
          fun u v h => hno ⟨u, v, h, hg.memPred u v ((hg.pred u v).2 h)⟩
        obtain ⟨l, hl, hml⟩ := hm
        obtain ⟨pre, v, rfl, hpre⟩ := lines_edgeless hg ho hcol hno' hloop l hl
        obtain ⟨q, G, hq, hG⟩ := hml
        have : pre.getLast? = some G := by rw [hq]; simp
        rcases hpre with rfl | rfl <;> cases this <;> rcases hG with h | h <;> cases h
      · intro x y
        unfold joins
        simp only [p3, Bool.true_eq_false, false_and, or_false]
        exact hjoin x y
    · have hroots : ∀ l ∈ ls, RootLine l := hkind.resolve_left hm
      have hno : ∀ u v, v ∉ g.succ u := by
        intro u v huv
        have hu := (hshown u).2 (hg.memPred u v ((hg.pred u v).2 huv))
        have hlone : ∀ e ∈ readAll ls, e.item = .node v → e.parent ≠ some u := by
          intro e he _
          rw [(read_roots hroots e he).1]; simp
        obtain ⟨e, he, hi, -⟩ := (h6 u hu).2 ⟨v, huv, (fun h => by rw [hd] at h; cases h), hlone⟩
        obtain ⟨w, hw⟩ := (read_roots hroots e he).2
        rw [hi] at hw; cases hw
      have hsame : ls.map (render (glyphsFor ascii true) label) = ls.map (render (glyphsFor ascii false) label) := by
        refine List.map_congr_left fun l hl => ?_
        obtain ⟨pre, v, rfl, hpre⟩ := lines_edgeless hg ho hcol hno hloop l hl
        rcases hpre with rfl | rfl <;> cases ascii <;> rfl
      have hsame' : rest.map (render (glyphsFor ascii true) label) =
          rest.map (render (glyphsFor ascii false) label) := by
        rw [hls] at hsame; exact (List.cons.inj hsame).2
      obtain ⟨st, p1, p2, p3, p4⟩ := parse_lines hg ho hcol ascii false hlab hne h1
      refine ⟨⟨false, st.nodes, st.edges⟩, by unfold generateText; rw [h1, hd], ?_, ?_, by rw [p2]; exact hnodes,
        fun w => by rw [← hmem w]; simp only [p2], ?_⟩
      · rw [hsame', hsame] at htail
        rw [hsame] at hasc
        rw [hsame]
        unfold parse
        simp only [hasc, htail, detect_undirected hrest, p1, p4]
        simp
      · simp only [Bool.false_eq_true, true_and, false_iff, not_exists, not_and]
        intro u v h
        exact absurd h (hno u v)
      · intro x y
        unfold joins
        simp only [p3, true_and]
        rw [hjoin, hjoin]
        constructor
        · rintro (⟨u, -, v, hv, -⟩ | ⟨u, -, v, hv, -⟩) <;> exact absurd hv (hno u v)
        · rintro ⟨u, -, v, hv, -⟩; exact absurd hv (hno u v)

/-- **C46**, without given sources: the text of the whole graph is read back as the graph. -/
theorem C46_whole_graph (g : Graph V) (o : Options) (ascii : Bool) (label : V → Str) (hg : Valid g)
    (ho : o.maxDepth = none) (hcol : ∀ v, g.collapse v = false) (hne : g.nodes ≠ [])
    (comps : List (List V)) (hc : Components g comps)
    (hlab : ∀ v ∈ g.nodes, LabelOk ascii (label v))
    (hinj : ∀ u ∈ g.nodes, ∀ v ∈ g.nodes, label u = label v → u = v) :
    ∃ src lines P, findSources g comps = .ok src ∧ generateText g o src ascii label = .ok lines ∧
      parse lines = .ok P ∧
      (P.directed = true ↔ g.directed = true ∧ ∃ u v, v ∈ g.succ u ∧ u ∈ g.nodes) ∧
      P.nodes.Nodup ∧ (∀ w, w ∈ P.nodes ↔ ∃ v ∈ g.nodes, label v = w) ∧
      ∀ x y, joins P x y ↔ ∃ u ∈ g.nodes, ∃ v ∈ g.succ u, label u = x ∧ label v = y := by
  obtain ⟨src, h1, h2, h3, -⟩ := C42_sources g hg comps hc
  obtain ⟨lines, P, h⟩ := C46_round_trip g o src ascii label hg ho hcol hne h2 h3 hlab hinj
  exact ⟨src, lines, P, h1, h⟩

/-- **C46**, a graph without nodes. -/
theorem C46_empty (g : Graph V) (o : Options) (src : List V) (ascii : Bool) (label : V → Str)
    (ho : o.maxDepth = none) (hne : g.nodes = []) :
    ∃ lines, generateText g o src ascii label = .ok lines ∧ parse lines = .ok ⟨false, [], []⟩ := by
  have h : generate g o src = .ok none := by
    unfold generate
    rw [if_neg (by rw [ho]; simp), if_pos (by rw [hne]; rfl)]
  refine ⟨[(glyphsFor ascii g.directed).empty], ?_, ?_⟩
  · unfold generateText
    rw [h, ho]
    rfl
  · cases ascii <;> cases g.directed <;> rfl

theorem detect_append {dir und : List Str} {e : Str} (h1 : und.any (fun item => isSub item e) = false)
    (h2 : dir.any (fun item => isSub item e) = false) : ∀ l : List Str, detect dir und (l ++ [e]) = detect dir und l
  | [] => by simp only [List.nil_append, detect, h1, h2, Bool.false_eq_true, if_false]
  | x :: l => by simp only [List.cons_append, detect, detect_append h1 h2 l]

/-! ### texts that are refused -/

/-- `sep` first occurs in `s` between `a` and `b`. -/
def FirstAt (sep s a b : Str) : Prop := s = a ++ sep ++ b ∧ ¬ sep <:+: a ++ sep.dropLast

/-- A line without a space before the node, or with the symbol of backedges twice. -/
def BadLine (sep line : Str) : Prop :=
  (¬ sep <:+: line ∧ ' ' ∉ line) ∨ ∃ a b, FirstAt sep line a b ∧ (sep <:+: b ∨ ' ' ∉ rstrip a)

theorem cut_first {sep : Str} (hs : sep ≠ []) : ∀ {a s b : Str}, FirstAt sep s a b → cut sep s = some (a, b)
  | [], s, b, ⟨e, _⟩ => by
    subst e
    cases sep with
    | nil => exact absurd rfl hs
    | cons c t => simp [cut]
  | c :: a, s, b, ⟨e, h⟩ => by
    subst e
    have hn : ¬ sep <+: c :: (a ++ sep ++ b) := by
      intro hp
      refine h ?_
      have h2 : c :: a ++ sep.dropLast <+: c :: (a ++ sep ++ b) := by
        have : sep.dropLast <+: sep ++ b := (List.dropLast_prefix sep).trans (List.prefix_append _ _)
        obtain ⟨t, ht⟩ := this
        exact ⟨t, by simp [ht]⟩
      exact (List.prefix_of_prefix_length_le hp h2 (by simp [List.length_dropLast]; omega)).isInfix
    have hr : FirstAt sep (a ++ sep ++ b) a b :=
      ⟨rfl, fun hi => h (hi.trans (by simpa using (List.suffix_cons c (a ++ sep.dropLast)).isInfix))⟩
    show cut sep (c :: (a ++ sep ++ b)) = _
    rw [cut, if_neg (by simpa using hn), cut_first hs hr]
    rfl

theorem cut_spec {sep : Str} (hs : sep ≠ []) : ∀ (s : Str), (cut sep s = none ∧ ¬ sep <:+: s) ∨
    ∃ a b, cut sep s = some (a, b) ∧ FirstAt sep s a b
  | [] => by
    left
    cases sep with
    | nil => exact absurd rfl hs
    | cons c t => simp [cut]
  | c :: s => by
    by_cases hp : sep <+: c :: s
    · right
      obtain ⟨t, ht⟩ := hp
      have hf : FirstAt sep (c :: s) [] t := by
        refine ⟨by simpa using ht.symm, fun hi => ?_⟩
        have := hi.length_le
        have h0 := List.length_pos_of_ne_nil hs
        simp only [List.nil_append, List.length_dropLast] at this
        omega
      exact ⟨[], t, cut_first hs hf, hf⟩
    · rcases cut_spec hs s with ⟨h1, h2⟩ | ⟨a, b, h1, h2, h3⟩
      · left
        refine ⟨by rw [cut, if_neg (by simpa using hp), h1]; rfl, ?_⟩
        rw [List.infix_cons_iff]
        exact fun h => h.elim hp h2
      · right
        have hf : FirstAt sep (c :: s) (c :: a) b := by
          refine ⟨by simp [h2], fun hi => ?_⟩
          rw [List.cons_append, List.infix_cons_iff] at hi
          rcases hi with hi | hi
          · refine hp (hi.trans ?_)
            rw [h2]
            obtain ⟨t, ht⟩ := (List.dropLast_prefix sep).trans (List.prefix_append sep b)
            exact ⟨t, by simp [ht]⟩
          · exact h3 hi
        exact ⟨c :: a, b, cut_first hs hf, hf⟩

theorem rsplitSpace_total : ∀ s : Str, (' ' ∉ s ∧ rsplitSpace s = .error .valueError) ∨
    ' ' ∈ s ∧ ∃ r, rsplitSpace s = .ok r
  | [] => .inl ⟨by simp, rfl⟩
  | c :: s => by
    rcases rsplitSpace_total s with ⟨h1, h2⟩ | ⟨h1, ⟨a, b⟩, h2⟩
    · by_cases hc : c = ' '
      · exact .inr ⟨by simp [hc], ([], s), by rw [rsplitSpace, h2]; simp [hc]⟩
      · exact .inl ⟨by simp [h1, Ne.symm hc], by rw [rsplitSpace, h2]; simp [hc]⟩
    · exact .inr ⟨by simp [h1], (c :: a, b), by rw [rsplitSpace, h2]⟩

theorem lineParts_total (gl : Glyphs) (line : Str) :
    (BadLine (p! " " ++ gl.backedge ++ p! " ") line ∧ lineParts gl line = .error .valueError) ∨
    (¬ BadLine (p! " " ++ gl.backedge ++ p! " ") line ∧ ∃ r, lineParts gl line = .ok r) := by
  have hs : p! " " ++ gl.backedge ++ p! " " ≠ [] := by simp
  unfold lineParts
  rcases cut_spec hs line with ⟨h1, h2⟩ | ⟨a, b, h1, h2⟩
  · rw [h1]
    have hbad : BadLine (p! " " ++ gl.backedge ++ p! " ") line ↔ ' ' ∉ line := by
      refine ⟨?_, fun h => .inl ⟨h2, h⟩⟩
      rintro (⟨_, h⟩ | ⟨a, b, ⟨e, _⟩, _⟩)
      · exact h
      · exact absurd ⟨a, b, e.symm⟩ h2
    rw [hbad]
    rcases rsplitSpace_total line with ⟨g1, g2⟩ | ⟨g1, ⟨r1, r2⟩, g2⟩
    · exact .inl ⟨g1, by rw [g2]⟩
    · exact .inr ⟨by simpa using g1, _, by rw [g2]⟩
  · rw [h1]
    have hbad : BadLine (p! " " ++ gl.backedge ++ p! " ") line ↔
        (p! " " ++ gl.backedge ++ p! " " <:+: b ∨ ' ' ∉ rstrip a) := by
      refine ⟨?_, fun h => .inr ⟨a, b, h2, h⟩⟩
      rintro (⟨h, _⟩ | ⟨a', b', h', h⟩)
      · exact absurd ⟨a, b, h2.1.symm⟩ h
      · have := cut_first hs h'
        rw [h1] at this
        cases this
        exact h
    rw [hbad]
    by_cases hi : p! " " ++ gl.backedge ++ p! " " <:+: b
    · exact .inl ⟨.inl hi, by simp only; rw [if_pos (isSub_iff.2 hi)]⟩
    · simp only
      rw [if_neg (by rw [isSub_iff]; exact hi)]
      rcases rsplitSpace_total (rstrip a) with ⟨g1, g2⟩ | ⟨g1, ⟨r1, r2⟩, g2⟩
      · exact .inl ⟨.inr g1, by rw [g2]⟩
      · exact .inr ⟨fun h => h.elim hi fun h => h g1, _, by rw [g2]⟩

/-- The frame at the bottom is left of everything. -/
def Grounded (stack : List PFrame) : Prop := ∃ fr, stack.getLast? = some fr ∧ fr.indent < 0

theorem popUntil_total {indent : Int} (hi : 0 ≤ indent) : ∀ {prev : PFrame} {stack : List PFrame},
    Grounded (prev :: stack) → ∃ r, popUntil indent prev stack = .ok r ∧ Grounded (r.1 :: r.2)
  | prev, [], ⟨fr, h1, h2⟩ => by
    simp only [List.getLast?_singleton, Option.some.injEq] at h1
    subst h1
    exact ⟨(prev, []), by rw [popUntil, if_neg (by omega)], prev, rfl, h2⟩
  | prev, p :: rest, hg => by
    rw [popUntil]
    split
    · obtain ⟨fr, h1, h2⟩ := hg
      exact popUntil_total hi ⟨fr, by rwa [List.getLast?_cons_cons] at h1, h2⟩
    · exact ⟨_, rfl, hg⟩

theorem parseLine_total (gl : Glyphs) {st : PState} (hg : Grounded st.stack) (line : Str) :
    (line ≠ gl.empty ∧ BadLine (p! " " ++ gl.backedge ++ p! " ") line ∧ parseLine gl st line = .error .valueError) ∨
    (¬ (line ≠ gl.empty ∧ BadLine (p! " " ++ gl.backedge ++ p! " ") line) ∧
      ∃ st', parseLine gl st line = .ok st' ∧ Grounded st'.stack) := by
  unfold parseLine
  by_cases he : line = gl.empty
  · rw [if_pos he]
    exact .inr ⟨fun h => h.1 he, _, rfl, hg⟩
  rw [if_neg he]
  rcases lineParts_total gl line with ⟨h1, h2⟩ | ⟨h1, ⟨pre, node, backs⟩, h2⟩
  · exact .inl ⟨he, h1, by rw [h2]⟩
  refine .inr ⟨fun h => h1 h.2, ?_⟩
  rw [h2]
  cases hst : st.stack with
  | nil => rw [hst] at hg; obtain ⟨fr, h, _⟩ := hg; simp at h
  | cons prev stack =>
    rw [hst] at hg
    simp only
    split
    · refine ⟨_, rfl, ?_⟩
      obtain ⟨fr, g1, g2⟩ := hg
      cases stack with
      | nil =>
        simp only [List.getLast?_singleton, Option.some.injEq] at g1
        subst g1
        exact ⟨_, rfl, g2⟩
      | cons p rest => exact ⟨fr, by simpa [List.getLast?_cons_cons] using g1, g2⟩
    · obtain ⟨⟨q, rest⟩, e, hq⟩ : ∃ r, (if prev.vert = true then .ok (prev, stack) else
          popUntil (pre.length : Int) prev stack) = Except.ok (ε := PyErr) r ∧ Grounded (r.1 :: r.2) := by
        split
        · exact ⟨_, rfl, hg⟩
        · exact popUntil_total (by omega) hg
      rw [e]
      simp only
      split
      · exact ⟨_, rfl, hq⟩
      · obtain ⟨fr, g1, g2⟩ := hq
        exact ⟨_, rfl, fr, by simpa only [List.getLast?_cons_cons] using g1, g2⟩

theorem parseLines_total (gl : Glyphs) : ∀ (lines : List Str) {st : PState}, Grounded st.stack →
    ((∃ line ∈ lines, line ≠ gl.empty ∧ BadLine (p! " " ++ gl.backedge ++ p! " ") line) ∧
      parseLines gl st lines = .error .valueError) ∨
    ((¬ ∃ line ∈ lines, line ≠ gl.empty ∧ BadLine (p! " " ++ gl.backedge ++ p! " ") line) ∧
      ∃ st', parseLines gl st lines = .ok st')
  | [], st, _ => .inr ⟨by simp, st, rfl⟩
  | line :: rest, st, hg => by
    rw [parseLines]
    rcases parseLine_total gl hg line with ⟨h1, h2, h3⟩ | ⟨h1, st', h2, h3⟩
    · exact .inl ⟨⟨line, by simp, h1, h2⟩, by rw [h3]⟩
    · rw [h2]
      rcases parseLines_total gl rest h3 with ⟨⟨l, g1, g2⟩, g3⟩ | ⟨g1, g2⟩
      · exact .inl ⟨⟨l, by simp [g1], g2⟩, g3⟩
      · refine .inr ⟨?_, g2⟩
        rintro ⟨l, hl, h⟩
        rcases List.mem_cons.1 hl with rfl | hl
        · exact h1 h
        · exact g1 ⟨l, hl, h⟩

theorem parseLine_empty {gl : Glyphs} {st st' : PState} {line : Str} (h : parseLine gl st line = .ok st')
    (he : line ≠ gl.empty) : st'.isEmpty = st.isEmpty := by
  unfold parseLine at h
  rw [if_neg he] at h
  split at h
  · cases h
  simp only at h
  split at h
  · cases h
  split at h
  · cases h; rfl
  split at h
  · cases h
  split at h <;> cases h <;> rfl

theorem parseLines_empty {gl : Glyphs} : ∀ {lines : List Str} {st st' : PState}, parseLines gl st lines = .ok st' →
    gl.empty ∉ lines → st'.isEmpty = st.isEmpty
  | [], _, _, h, _ => by cases h; rfl
  | line :: rest, st, st', h, hn => by
    rw [parseLines] at h
    cases h1 : parseLine gl st line with
    | error e => rw [h1] at h; cases h
    | ok s1 =>
      rw [h1] at h
      rw [parseLines_empty h fun h => hn (by simp [h]), parseLine_empty h1 fun h => hn (by simp [h])]

/-- **C46**, all other texts: an empty first line is refused with `IndexError`, a first line that begins with none of
`╙`, `╟`, `+` with `AssertionError`.  Otherwise a line without a space before the node or with two backedge symbols
makes `ValueError`, for the symbols of directed or of undirected graphs, and if there is none, the text is parsed or is
one of a graph with and without nodes, `AssertionError`. -/
theorem C46_refused (lines : List Str) :
    (lines.head? = some [] → parse lines = .error .indexError) ∧
    (∀ c w, lines.head? = some (c :: w) → c ≠ '╙' → c ≠ '╟' → c ≠ '+' → parse lines = .error .assertionError) ∧
    ∀ (ascii : Bool) c w, lines.head? = some (c :: w) → (if ascii then c = '+' else c = '╙' ∨ c = '╟') →
      ∃ directed : Bool, ∀ gl, gl = glyphsFor ascii directed →
        ((∃ line ∈ lines, line ≠ gl.empty ∧ BadLine (p! " " ++ gl.backedge ++ p! " ") line) →
          parse lines = .error .valueError) ∧
        ((¬ ∃ line ∈ lines, line ≠ gl.empty ∧ BadLine (p! " " ++ gl.backedge ++ p! " ") line) →
          (∃ P, parse lines = .ok P ∧ P.directed = directed) ∨
          gl.empty ∈ lines ∧ parse lines = .error .assertionError) := by
  cases lines with
  | nil => simp
  | cons x rest =>
    refine ⟨?_, ?_, ?_⟩
    · intro h
      cases h
      rfl
    · intro c w h h1 h2 h3
      cases h
      simp [parse, isAscii, h1, h2, h3]
    · intro ascii c w h hc
      simp only [List.head?_cons, Option.some.injEq] at h
      subst h
      have ha : isAscii ((c :: w) :: rest) = .ok ascii := by
        rw [isAscii]
        cases ascii with
        | true => simp only [if_true] at hc; subst hc; rfl
        | false => simp only [Bool.false_eq_true, if_false] at hc; rw [if_pos hc]
      unfold parse
      rw [ha]
      simp only [List.tail_cons]
      generalize detect (unambiguous (glyphsFor ascii true) (glyphsFor ascii false))
        (unambiguous (glyphsFor ascii false) (glyphsFor ascii true)) rest = dir
      refine ⟨dir, fun gl hgl => ?_⟩
      rw [← hgl]
      have hgr : Grounded (PState.mk [⟨none, -1, false⟩] [] [] false).stack := ⟨_, rfl, by decide⟩
      rcases parseLines_total gl ((c :: w) :: rest) hgr with ⟨h1, h2⟩ | ⟨h1, st, h2⟩
      · refine ⟨fun _ => by rw [h2], fun h => absurd h1 h⟩
      · refine ⟨fun h => absurd h h1, fun _ => ?_⟩
        rw [h2]
        simp only
        split
        · rename_i hm
          right
          refine ⟨?_, rfl⟩
          by_contra hn
          have := parseLines_empty h2 hn
          simp [this] at hm
        · exact .inl ⟨_, rfl, rfl⟩

/-- No node, a bad first sign, a line with two backedges, a text of two graphs. -/
example : parse [[]] = .error .indexError ∧ parse [p! "|-- a"] = .error .assertionError ∧
    parse [p! "+-- x", p! "    L-> a <- b <- c"] = .error .valueError ∧
    parse [p! "╙── a", p! "b"] = .error .valueError ∧ parse [p! "+-- a", p! "+"] = .error .assertionError := by
  exact ⟨rfl, rfl, rfl, rfl, rfl⟩

/-- **C46**: the line of a graph without nodes after the text of a graph with nodes is refused with `AssertionError`. -/
theorem C46_mixed {lines : List Str} {P : Parsed} (h : parse lines = .ok P) (hP : P.nodes ≠ []) :
    ∃ e ∈ [p! "+", p! "╙"], parse (lines ++ [e]) = .error .assertionError := by
  cases lines with
  | nil => simp [parse, isAscii, parseLines] at h; rw [← h] at hP; exact absurd rfl hP
  | cons x rest =>
    unfold parse at h
    cases ha : isAscii (x :: rest) with
    | error e => rw [ha] at h; cases h
    | ok ascii =>
      have ha' : ∀ e, isAscii (x :: rest ++ [e]) = .ok ascii := by
        intro e
        cases x with
        | nil => simp [isAscii] at ha
        | cons c x => exact ha
      rw [ha] at h
      simp only [List.tail_cons] at h
      refine ⟨(glyphsFor ascii true).empty, by cases ascii <;> simp [glyphsFor, asciiDirected, utfDirected], ?_⟩
      unfold parse
      rw [ha']
      have hdet := detect_append (dir := unambiguous (glyphsFor ascii true) (glyphsFor ascii false))
        (und := unambiguous (glyphsFor ascii false) (glyphsFor ascii true)) (e := (glyphsFor ascii true).empty)
        (by cases ascii <;> decide) (by cases ascii <;> decide) rest
      have htail : (x :: rest ++ [(glyphsFor ascii true).empty]).tail = rest ++ [(glyphsFor ascii true).empty] := rfl
      simp only [htail, hdet]
      generalize hdir : detect (unambiguous (glyphsFor ascii true) (glyphsFor ascii false))
        (unambiguous (glyphsFor ascii false) (glyphsFor ascii true)) rest = dir at h
      have hempty : (glyphsFor ascii true).empty = (glyphsFor ascii dir).empty := by cases ascii <;> cases dir <;> rfl
      cases hs : parseLines (glyphsFor ascii dir) ⟨[⟨none, -1, false⟩], [], [], false⟩ (x :: rest) with
      | error e => rw [hs] at h; cases h
      | ok st =>
        rw [hs] at h
        simp only at h
        split at h
        · cases h
        cases h
        have hone : parseLines (glyphsFor ascii dir) st [(glyphsFor ascii true).empty] = .ok { st with isEmpty := true } := by
          rw [hempty]
          simp only [parseLines, parseLine, if_true]
        rw [parseLines_append hs, hone]
        have hn : st.nodes.isEmpty = false := by
          cases hn : st.nodes with
          | nil => exact absurd hn hP
          | cons => rfl
        simp [hn]

/-- Numbers are labels that can be told from the rest of the line. -/
theorem natStr_label (ascii : Bool) (n : Nat) : LabelOk ascii (natStr n) := by
  have hd : ∀ c ∈ natStr n, isWs c = false ∧ c ≠ '.' ∧ c ∉ badChars ascii := by
    intro c hc
    obtain ⟨d, hd, rfl⟩ := natStr_digit hc
    interval_cases d <;> cases ascii <;> decide
  refine ⟨natStr_ne_nil n, fun c hc => (hd c hc).1, ?_, fun c hc => (hd c hc).2.2⟩
  intro h
  exact (hd '.' (by rw [h]; decide)).2.1 rfl

example : ∃ src lines P, findSources loopy [[0, 1, 2], [3], [4]] = .ok src ∧
    generateText loopy ⟨none, true⟩ src false natStr = .ok lines ∧ parse lines = .ok P ∧
    (P.directed = true ↔ loopy.directed = true ∧ ∃ u v, v ∈ loopy.succ u ∧ u ∈ loopy.nodes) ∧
    P.nodes.Nodup ∧ (∀ w, w ∈ P.nodes ↔ ∃ v ∈ loopy.nodes, natStr v = w) ∧
    ∀ x y, joins P x y ↔ ∃ u ∈ loopy.nodes, ∃ v ∈ loopy.succ u, natStr u = x ∧ natStr v = y :=
  C46_whole_graph loopy ⟨none, true⟩ false natStr loopy_valid rfl (fun _ => rfl) (by decide) _ loopy_components
    (fun v _ => natStr_label false v) (by decide)

/-- A test of the text that `generate_network_text` returns, to evaluate examples. -/
theorem generateText_run {g : Graph V} {o : Options} {n : Nat} {src : List V} {ascii : Bool} {label : V → Str}
    (f : List Str → Bool)
    (h : (run g o n ⟨start src, [], []⟩).any
      (fun ls => f (ls.map (render (glyphsFor ascii g.directed) label))) = true)
    (h0 : o.maxDepth ≠ some 0) (h1 : g.nodes ≠ []) :
    ∃ lines, generateText g o src ascii label = .ok lines ∧ f lines = true := by
  obtain ⟨ls, h2, h3⟩ := generate_run _ h h0 h1
  exact ⟨_, by unfold generateText; rw [h2], h3⟩

/-- Two edges that do not touch. -/
def twoEdges : Graph Nat := ofEdges true [0, 1, 2, 3] [(0, 2), (1, 3)]

example : ∃ lines, generateText twoEdges ⟨none, false⟩ [0, 1] true natStr = .ok lines ∧
    decide (lines = [p! "+-- 0", p! ":   L-> 2", p! "+-- 1", p! "    L-> 3"]) = true :=
  generateText_run (n := 20) _ (by decide +kernel) (by decide) (by decide)

/-- **C46**, `max_depth`: with a limit on the depth the text of vertical chains is read back with edges that
the graph does not have: the vertical edge above an ellipsis makes the next source a child. -/
theorem C46_depth_violated : ∃ lines P, generateText twoEdges ⟨some 1, true⟩ [0, 1] false natStr = .ok lines ∧
    parse lines = .ok P ∧ joins P (p! "0") (p! "1") ∧ 1 ∉ twoEdges.succ 0 := by
  obtain ⟨lines, h1, h2⟩ := generateText_run (g := twoEdges) (o := ⟨some 1, true⟩) (src := [0, 1]) (ascii := false)
    (label := natStr) (n := 20)
    (fun lines => decide (lines = [p! "╟── 0", p! "╎   ╽", p! "╎    ...", p! "╙── 1", p! "    ╽", p! "     ..."]))
    (by decide +kernel) (by decide) (by decide)
  have h2 := of_decide_eq_true h2
  subst h2
  refine ⟨_, ⟨true, [p! "0", p! "1"], [(p! "0", p! "1")]⟩, h1, by rfl, .inl (by decide), by decide⟩

/-- **C46**, labels: a label that is a glyph changes the graph that is read. -/
theorem C46_label_violated : ∃ lines P,
    generateText (ofEdges false [0, 1] [(0, 1)]) ⟨none, true⟩ [0] true (fun v => if v = 0 then p! "a" else p! "!") =
      .ok lines ∧ parse lines = .ok P ∧ P.directed = true := by
  obtain ⟨lines, h1, h2⟩ := generateText_run (g := ofEdges false [0, 1] [(0, 1)]) (o := ⟨none, true⟩) (src := [0])
    (ascii := true) (label := fun v => if v = 0 then p! "a" else p! "!") (n := 20)
    (fun lines => decide (lines = [p! "+-- a", p! "    |", p! "    !"]))
    (by decide +kernel) (by decide) (by decide)
  have h2 := of_decide_eq_true h2
  subst h2
  exact ⟨_, ⟨true, _, _⟩, h1, by rfl, rfl⟩

end Props
end Verif
