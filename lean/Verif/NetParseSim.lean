/-
`parse_network_text` follows the lines of `generate_network_text`.
-/
import Verif.NetParseLemmas

namespace Verif
namespace NetText

variable {V : Type} [DecidableEq V]

theorem parseLines_append {gl : Glyphs} {st st' : PState} {a b : List Str}
    (h : parseLines gl st a = .ok st') : parseLines gl st (a ++ b) = parseLines gl st' b := by
  induction a generalizing st with
  | nil => cases h; rfl
  | cons l a ih =>
    rw [parseLines] at h
    rw [List.cons_append, parseLines]
    cases hl : parseLine gl st l with
    | error e => rw [hl] at h; cases h
    | ok s => rw [hl] at h; exact ih h

theorem parseLines_two {gl : Glyphs} {st s1 s2 : PState} {l1 l2 : Str} (h1 : parseLine gl st l1 = .ok s1)
    (h2 : parseLine gl s1 l2 = .ok s2) : parseLines gl st [l1, l2] = .ok s2 := by
  simp [parseLines, h1, h2]

theorem parseLines_one {gl : Glyphs} {st s1 : PState} {l1 : Str} (h1 : parseLine gl st l1 = .ok s1) :
    parseLines gl st [l1] = .ok s1 := by
  simp [parseLines, h1]

theorem prefix_ne {f : Frame V} (hv : f.indents = [] → f.vertical = false) : (prefixes f).1 ≠ [] := by
  obtain ⟨par, item, ind, lst, ver⟩ := f
  by_cases hi : ind = []
  · subst hi
    cases lst <;> simp [prefixes]
  · cases ver with
    | true => simpa [prefixes, hi] using hi
    | false => cases lst <;> simp [prefixes, hi]

theorem prefix_length {f : Frame V} (hv : f.indents = [] → f.vertical = false) :
    (prefixes f).1.length = f.keep + 1 := by
  obtain ⟨par, item, ind, lst, ver⟩ := f
  by_cases hi : ind = []
  · subst hi
    have : ver = false := hv rfl
    subst this
    cases lst <;> simp [prefixes, Frame.keep]
  · have hl : 0 < ind.length := List.length_pos_of_ne_nil hi
    cases ver with
    | true => simp [prefixes, Frame.keep, hi]; omega
    | false => cases lst <;> simp [prefixes, Frame.keep, hi]

theorem prefix_vertical {f : Frame V} (hv : f.indents = [] → f.vertical = false) :
    (prefixes f).2.2 = f.vertical := by
  obtain ⟨par, item, ind, lst, ver⟩ := f
  by_cases hi : ind = []
  · subst hi
    have : ver = false := hv rfl
    subst this
    cases lst <;> simp [prefixes]
  · cases ver <;> cases lst <;> simp [prefixes, hi]

/-- The stacks after the line of a node. -/
theorem stacks_push {label : V → Str} {path : List V} {stack : List (Frame V)} {ps sk rest : List PFrame}
    {B k : Nat} {fr fr' : PFrame} {v : V} (h : Stacks label path stack ps B) (hps : ps = sk ++ fr :: rest)
    (hfr : fr'.indent = fr.indent) (hk : k ≤ B) (hsk : ∀ p ∈ sk, 4 * (k : Int) ≤ p.indent)
    (hsame : (4 * (k : Int) ≤ fr.indent) ∨ fr' = fr)
    {stack' : List (Frame V)} (h1 : ∀ f ∈ stack', f.indents.length ≤ k + 1) (h2 : ∀ f ∈ stack'.tail, ¬ f.falls)
    (h3 : ∀ f ∈ stack'.head?, f.falls → f.indents.length = k + 1) :
    Stacks label (path.take k ++ [v]) stack' (⟨some (label v), 4 * (k + 1 : Nat) - 1, false⟩ :: fr' :: rest)
      (k + 1) := by
  have hlong := h.long
  refine ⟨?_, ?_, h1, h2, ?_, ?_⟩
  · intro p hp
    rcases List.mem_cons.1 hp with rfl | hp
    · exact ⟨k + 1, rfl⟩
    · rcases List.mem_cons.1 hp with rfl | hp
      · rw [hfr]; exact h.form fr (by rw [hps]; simp)
      · exact h.form p (by rw [hps]; simp [hp])
  · intro m
    by_cases hm : k + 1 ≤ m
    · refine ⟨_, List.find?_cons_of_pos (by simp only [decide_eq_true_eq]; omega), rfl, ?_⟩
      intro hm'
      have : m = k + 1 := by omega
      subst this
      rw [if_neg (by omega), List.getElem?_append_right (by rw [List.length_take]; omega), List.length_take]
      have : k + 1 - 1 - min k path.length = 0 := by omega
      rw [this]; rfl
    · obtain ⟨p, p1, p2, p3⟩ := h.look m
      refine ⟨p, ?_, p2, fun _ => ?_⟩
      · rw [List.find?_cons_of_neg (by simp only [decide_eq_true_eq]; omega)]
        rw [hps, find_skip (fun q hq => by have := hsk q hq; omega)] at p1
        rcases hsame with hs | rfl
        · rw [List.find?_cons_of_neg (by simp only [decide_eq_true_eq]; omega)] at p1
          rw [List.find?_cons_of_neg (by simp only [decide_eq_true_eq]; omega)]
          exact p1
        · exact p1
      · rw [p3 (by omega)]
        split
        · rfl
        · rw [List.getElem?_append_left (by rw [List.length_take]; omega), List.getElem?_take, if_pos (by omega)]
  · intro f hf hfa
    exact ⟨h3 f hf hfa, _, _, rfl, by simp⟩
  · rw [List.length_append, List.length_take]; simp; omega

/-- The line of a node. -/
theorem emit_node {a d : Bool} {label : V → Str} {r : Reader V} {stack : List (Frame V)} {st : PState} {B : Nat}
    {f : Frame V} {rest : List (Frame V)} {v : V} {others : List V}
    (hS : Stacks label r.path stack st.stack B) (hO : Says label r.out st) (hr : r.vert = false)
    (hst : stack = f :: rest) (hi : f.item = .node v) (hv : f.indents = [] → f.vertical = false)
    (hfall : f.vertical = true → f.islast = true)
    (hw : LabelOk a (label v)) (hws : ∀ u ∈ others, LabelOk a (label u))
    {stack' : List (Frame V)} (h1 : ∀ g ∈ stack', g.indents.length ≤ f.keep + 1)
    (h2 : ∀ g ∈ stack'.tail, ¬ g.falls) (h3 : ∀ g ∈ stack'.head?, g.falls → g.indents.length = f.keep + 1) :
    ∃ st', parseLines (glyphsFor a d) st ((emit f others).map (render (glyphsFor a d) label)) = .ok st' ∧
      Stacks label ((emit f others).foldl Reader.read r).path stack' st'.stack (f.keep + 1) ∧
      Says label ((emit f others).foldl Reader.read r).out st' := by
  have hpne := prefix_ne hv
  have hplen := prefix_length hv
  have hpv := prefix_vertical hv
  have hfB := hS.bound f (by rw [hst]; exact List.mem_cons_self)
  rw [read_emit r f others hr hv, hi]
  obtain ⟨prev, ptail, hps, hpvert⟩ := hS.first
  have hlab : ∀ w ∈ others.map label, LabelOk a w := by
    intro w hw
    obtain ⟨u, hu, rfl⟩ := List.mem_map.1 hw
    exact hws u hu
  -- what is said
  have hsays : ∀ (fr : PFrame) (st' : PState), fr.node = (f.above r.path).map label →
      st'.nodes = st.nodes ++ [label v] →
      st'.edges = st.edges ++ (others.map label).map (fun u => (u, label v)) ++
        fr.node.toList.map (fun p => (p, label v)) →
      st'.isEmpty = st.isEmpty → Says label (⟨f.above r.path, .node v, others⟩ :: r.out) st' := by
    intro fr st' hn e1 e2 e3
    refine ⟨?_, ?_, by rw [e3]; exact hO.full⟩
    · rw [e1, hO.nodes]
      simp [nodesOf, Item.toOption]
    · rw [e2, hO.edges, hn]
      simp only [List.reverse_cons, edgesOf, List.flatMap_append, List.flatMap_singleton, List.map_map,
        List.append_assoc]
      congr 2
      cases f.above r.path <;> rfl
  cases hver : f.vertical with
  | false =>
    have hkeep : f.keep = f.indents.length := by unfold Frame.keep; rw [hver]; rfl
    have e : (emit f others).map (render (glyphsFor a d) label) =
        [(prefixes f).1.flatMap (glyphsFor a d).text ++ label v ++
          suffixText (glyphsFor a d) (others.map label)] := by
      unfold emit; rw [hpv, hver, hi]; rfl
    obtain ⟨fr, l1, l2, l3⟩ := hS.look f.indents.length
    -- the frame that is found
    have hfind : (prev :: ptail).find? (fun p => decide (p.indent < 4 * ((prefixes f).1.length : Int) - 1)) =
        some fr := by
      rw [← hps]
      rw [← l1]
      have : ∀ p ∈ st.stack, (decide (p.indent < 4 * ((prefixes f).1.length : Int) - 1)) =
          decide (p.indent < 4 * (f.indents.length : Int)) := by
        intro p hp
        obtain ⟨j, hj⟩ := hS.form p hp
        rw [hplen, hkeep, decide_eq_decide]
        push_cast
        omega
      clear l1 hps
      revert this
      generalize st.stack = l
      intro this
      induction l with
      | nil => rfl
      | cons p l ih =>
        rw [List.find?_cons, List.find?_cons, this p List.mem_cons_self,
          ih (fun q hq => this q (List.mem_cons_of_mem _ hq))]
    obtain ⟨sk, prest, p1, p2, p3, p4⟩ := popUntil_find hfind
    have hnode : fr.node = (f.above r.path).map label := by
      rw [l3 hfB]
      unfold Frame.above
      simp only [List.length_eq_zero_iff]
    have hrun := parseLines_one (parseLine_node a d hpne hw hlab hps (by rw [if_neg (by simp [hpvert]), p4]))
    refine ⟨_, (congrArg _ e).trans hrun, ?_, hsays fr _ hnode rfl rfl rfl⟩
    · have hpl : (prefixes f).1.length = f.keep + 1 := hplen
      simp only [hpl]
      refine stacks_push hS (hps.trans p1) rfl (by rw [hkeep]; exact hfB) ?_ (.inr rfl) h1 h2 h3
      intro p hp
      have := p2 p hp
      rw [hpl] at this
      push_cast at this
      omega
  | true =>
    have hine : f.indents ≠ [] := fun h => by have := hv h; rw [hver] at this; cases this
    have hl0 : 0 < f.indents.length := List.length_pos_of_ne_nil hine
    have hkeep : f.keep = f.indents.length - 1 := by unfold Frame.keep; rw [hver]; rfl
    have hpl : (prefixes f).1.length = f.indents.length := by rw [hplen, hkeep]; omega
    have e : (emit f others).map (render (glyphsFor a d) label) =
        [(prefixes f).1.flatMap (glyphsFor a d).text ++ (glyphsFor a d).verticalEdge,
          (prefixes f).1.flatMap (glyphsFor a d).text ++ label v ++
          suffixText (glyphsFor a d) (others.map label)] := by
      unfold emit; rw [hpv, hver, hi]; rfl
    obtain ⟨t1, p, prest, t2, t3⟩ := hS.top f (by rw [hst]; rfl) ⟨hver, hfall hver, v, hi⟩
    rw [hps] at t2
    cases t2
    obtain ⟨fr, l1, l2, l3⟩ := hS.look f.indents.length
    rw [hps, List.find?_cons_of_pos (by simp only [decide_eq_true_eq]; omega)] at l1
    cases l1
    have hnode : prev.node = (f.above r.path).map label := by
      rw [l3 hfB]
      unfold Frame.above
      simp only [List.length_eq_zero_iff]
    have hrun := parseLines_two (parseLine_edge a d hpne hps)
      (parseLine_node a d hpne hw hlab rfl (if_pos rfl))
    refine ⟨_, (congrArg _ e).trans hrun, ?_, hsays { prev with vert := true } _ hnode rfl rfl rfl⟩
    · simp only [hplen]
      refine stacks_push hS (sk := []) (fr := prev) (fr' := { prev with vert := true }) hps rfl (by omega) (by simp) (.inl ?_) h1 h2 h3
      rw [t3, ← t1, hkeep]
      omega

/-- The line of an ellipsis. -/
theorem emit_dots {a d : Bool} {label : V → Str} {r : Reader V} {stack : List (Frame V)} {st : PState} {B : Nat}
    {f : Frame V} {rest : List (Frame V)}
    (hS : Stacks label r.path stack st.stack B) (hO : Says label r.out st) (hr : r.vert = false)
    (hst : stack = f :: rest) (hi : f.item = .dots) (hv : f.vertical = false)
    (hrest : ∀ g ∈ rest, g.indents.length ≤ f.indents.length) :
    ∃ st', parseLines (glyphsFor a d) st ((emit f []).map (render (glyphsFor a d) label)) = .ok st' ∧
      Stacks label ((emit f []).foldl Reader.read r).path rest st'.stack f.indents.length ∧
      Says label ((emit f []).foldl Reader.read r).out st' := by
  have hv' : f.indents = [] → f.vertical = false := fun _ => hv
  have hpne := prefix_ne hv'
  have hplen : (prefixes f).1.length = f.indents.length + 1 := by
    rw [prefix_length hv']; unfold Frame.keep; rw [hv]; rfl
  have hpv := prefix_vertical hv'
  have hfB := hS.bound f (by rw [hst]; exact List.mem_cons_self)
  rw [read_emit r f [] hr hv', hi]
  obtain ⟨prev, ptail, hps, hpvert⟩ := hS.first
  have e : (emit f []).map (render (glyphsFor a d) label) =
      [(prefixes f).1.flatMap (glyphsFor a d).text ++ p! " ..."] := by
    unfold emit; rw [hpv, hv, hi]; rfl
  obtain ⟨fr, l1, l2, -⟩ := hS.look (prefixes f).1.length
  rw [hps] at l1
  obtain ⟨sk, prest, p1, p2, p3, p4⟩ := popUntil_find l1
  have hfalls : ∀ g ∈ rest, ¬ g.falls := by
    intro g hg; exact hS.below g (by rw [hst]; exact hg)
  refine ⟨{ st with stack := fr :: prest }, ?_, ⟨?_, ?_, hrest, ?_, ?_, ?_⟩, ⟨?_, ?_, hO.full⟩⟩
  · rw [e]
    exact parseLines_one (parseLine_dots a d hpne hps (by rw [if_neg (by simp [hpvert]), p4]))
  · intro p hp
    exact hS.form p (by rw [hps, p1]; exact List.mem_append_right _ hp)
  · intro m
    by_cases hm : (prefixes f).1.length ≤ m
    · exact ⟨fr, List.find?_cons_of_pos (by simp only [decide_eq_true_eq]; omega), l2, fun h => by omega⟩
    · obtain ⟨p, q1, q2, q3⟩ := hS.look m
      rw [hps, p1, find_skip (fun q hq => by have := p2 q hq; omega)] at q1
      exact ⟨p, q1, q2, fun h => q3 (by omega)⟩
  · exact fun g hg => hfalls g (List.mem_of_mem_tail hg)
  · exact fun g hg hf => absurd hf (hfalls g (List.mem_of_mem_head? hg))
  · have := hS.long; simp only; omega
  · rw [hO.nodes]; simp [nodesOf, Item.toOption]
  · rw [hO.edges]; simp [edgesOf]

theorem Stacks.same {label : V → Str} {path : List V} {stack stack' : List (Frame V)} {ps : List PFrame} {B : Nat}
    (h : Stacks label path stack ps B) (h1 : ∀ f ∈ stack', f.indents.length ≤ B)
    (h2 : ∀ f ∈ stack', ¬ f.falls) : Stacks label path stack' ps B :=
  ⟨h.form, h.look, h1, fun f hf => h2 f (List.mem_of_mem_tail hf),
    fun f hf hfa => absurd hfa (h2 f (List.mem_of_mem_head? hf)), h.long⟩

/-- The parser follows one round of the loop. -/
theorem step_parse {g : Graph V} {src : List V} {o : Options} (hg : Valid g) (ho : o.maxDepth = none)
    (hcol : ∀ v, g.collapse v = false) {a d : Bool} {label : V → Str} (hlab : ∀ v ∈ g.nodes, LabelOk a (label v))
    {r : Reader V} {s s' : State V} {ls : List (Line V)} {st : PState} {B : Nat}
    (hI : Inv g src r s) (h : step g o s = .ok (some (ls, s')))
    (hS : Stacks label r.path s.stack st.stack B) (hO : Says label r.out st) :
    ∃ st' B', parseLines (glyphsFor a d) st (ls.map (render (glyphsFor a d) label)) = .ok st' ∧
      Stacks label (ls.foldl Reader.read r).path s'.stack st'.stack B' ∧
      Says label (ls.foldl Reader.read r).out st' := by
  unfold step at h
  split at h
  · cases h
  · rename_i f rest hst
    have hf : f ∈ s.stack := by rw [hst]; exact List.mem_cons_self
    have hF := hI.frame f hf
    have hfB := hS.bound f hf
    have hap := hI.apart
    rw [hst, List.pairwise_cons] at hap
    have hfalls : ∀ g ∈ rest, ¬ g.falls := fun g hg => hS.below g (by rw [hst]; exact hg)
    have hrest : ∀ g ∈ rest, g.indents.length ≤ B := fun g hg =>
      hS.bound g (by rw [hst]; exact List.mem_cons_of_mem _ hg)
    split at h
    · rename_i hi
      cases h
      obtain ⟨st', h1, h2, h3⟩ := emit_dots (a := a) (d := d) hS hO hI.vert hst hi (hF.dots hi).2.1
        (fun g hg => (hap.1 g hg).le)
      unfold emit at h1 h2 h3
      rw [hi] at h1 h2 h3
      exact ⟨st', _, h1, h2, h3⟩
    · rename_i v hi
      simp only at h
      split at h
      · cases h
        refine ⟨st, B, rfl, hS.same ?_ ?_, hO⟩
        · intro g hg
          rcases List.mem_cons.1 hg with rfl | hg
          · exact hfB
          · rcases List.mem_cons.1 hg with rfl | hg
            · exact hfB
            · exact hrest g hg
        · intro g hg
          rcases List.mem_cons.1 hg with rfl | hg
          · rintro ⟨-, h, -⟩; cases h
          · rcases List.mem_cons.1 hg with rfl | hg
            · rintro ⟨h, -⟩; cases h
            · exact hfalls g hg
      · split at h
        · cases h
          exact ⟨st, B, rfl, hS.same hrest hfalls, hO⟩
        · rename_i hs
          split at h
          · cases h
          · rename_i hn
            cases h
            have hfl : f.vertical = true → f.islast = true := by
              intro hver
              cases hl : f.islast with
              | true => rfl
              | false => exact absurd (hF.redo v hi hver hl) hs
            have hnext : (prefixes f).2.1.length = f.keep + 1 := next_length f hF.vert
            have hex := expand_free (g := g) (o := o) ho hcol (v :: s.seen) f v
            have hothers : ∀ u ∈ (expand g o (v :: s.seen) f v).2, u ∈ g.nodes := by
              intro u hu
              rw [hex] at hu
              exact hg.memPred u v (List.mem_filter.1 hu).1
            have hnd : (expand g o (v :: s.seen) f v).1.Nodup := by
              rw [hex]
              exact List.Nodup.map (fun a b h => by cases h; rfl) ((hg.nodupSucc v).filter _)
            have hone : nextVertical g o f.parent (expand g o (v :: s.seen) f v).1 = true →
                (expand g o (v :: s.seen) f v).1.length ≤ 1 := by
              refine nextVertical_one hnd ?_
              intro hd p hp hm
              rw [hex] at hm
              obtain ⟨c, hc, hcp⟩ := List.mem_map.1 hm
              cases hcp
              have := (List.mem_filter.1 hc).2
              rw [hd] at this
              simp only [Bool.false_or, decide_eq_true_eq] at this
              exact this (List.mem_cons_of_mem _ (hF.child v p hi hp).2.2.2.1)
            obtain ⟨st', h1, h2, h3⟩ := emit_node (a := a) (d := d) (others := (expand g o (v :: s.seen) f v).2)
              (stack' := frames (some v) (prefixes f).2.1
                (nextVertical g o f.parent (expand g o (v :: s.seen) f v).1)
                (expand g o (v :: s.seen) f v).1 ++ rest)
              hS hO hI.vert hst hi hF.vert hfl (hlab v (by simpa using hn)) (fun u hu => hlab u (hothers u hu))
              (by
                intro k hk
                rcases List.mem_append.1 hk with hk | hk
                · rw [(mem_frames hk).2.2.1, hnext]
                · have := (hap.1 k hk).le
                  unfold Frame.keep
                  split <;> omega)
              (by
                intro k hk
                revert hone hk
                generalize (expand g o (v :: s.seen) f v).1 = cs
                generalize nextVertical g o f.parent cs = nv
                intro hone hk
                cases cs with
                | nil => exact hfalls k (List.mem_of_mem_tail hk)
                | cons c cs =>
                  rw [frames, List.cons_append, List.tail_cons] at hk
                  rcases List.mem_append.1 hk with hk | hk
                  · rintro ⟨hvt, -⟩
                    rw [(mem_frames hk).2.2.2] at hvt
                    have := hone hvt
                    simp only [List.length_cons] at this
                    have : cs = [] := List.length_eq_zero_iff.1 (by omega)
                    subst this
                    cases hk
                  · exact hfalls k hk)
              (by
                intro k hk hkf
                rcases List.mem_append.1 (List.mem_of_mem_head? hk) with hk | hk
                · rw [(mem_frames hk).2.2.1, hnext]
                · exact absurd hkf (hfalls k hk))
            unfold emit at h1 h2 h3
            rw [hi] at h1 h2 h3
            exact ⟨st', _, h1, h2, h3⟩

theorem loop_parse {g : Graph V} {src : List V} {o : Options} (hg : Valid g) (ho : o.maxDepth = none)
    (hcol : ∀ v, g.collapse v = false) (a d : Bool) {label : V → Str}
    (hlab : ∀ v ∈ g.nodes, LabelOk a (label v)) :
    ∀ (s : State V) (r : Reader V) (ls : List (Line V)) (st : PState) (B : Nat), Inv g src r s →
      loop g o s = .ok ls → Stacks label r.path s.stack st.stack B → Says label r.out st →
    ∃ st', parseLines (glyphsFor a d) st (ls.map (render (glyphsFor a d) label)) = .ok st' ∧
      Says label (ls.foldl Reader.read r).out st' := by
  intro s
  induction s using loop.induct (g := g) (o := o) with
  | case1 s e he =>
    intro r ls st B hI h
    rw [loop] at h
    split at h <;> simp_all
  | case2 s he =>
    intro r ls st B hI h hS hO
    rw [loop] at h
    split at h
    · simp_all
    · cases h; exact ⟨st, rfl, hO⟩
    · simp_all
  | case3 s ls s' he e he' ih =>
    intro r ls st B hI h
    rw [loop] at h
    split at h <;> simp_all
  | case4 s ls s' he l' he' ih =>
    intro r ls' st B hI h hS hO
    have hl : ls' = ls ++ l' := by
      rw [loop] at h
      split at h <;> simp_all
    subst hl
    obtain ⟨st1, B1, h1, h2, h3⟩ := step_parse (d := d) hg ho hcol hlab hI he hS hO
    obtain ⟨st2, h4, h5⟩ := ih _ l' st1 B1 (step_inv hg ho hcol hI he) he' h2 h3
    refine ⟨st2, ?_, ?_⟩
    · rw [List.map_append, parseLines_append h1, h4]
    · rw [List.foldl_append]; exact h5

end NetText
end Verif
