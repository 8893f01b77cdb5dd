/-
C76: the text printed for an image.
-/
import Verif.Show
import Verif.Props.Walk
import Verif.Props.NetParse

namespace Verif.Props

open Tree Helpers Node NetText Show

/-! #### the drawing of a tree -/

/-- The lines of a node: it hangs on a vertical edge if it is the only part and chains are drawn, else it has
a branch of its own. -/
def row (gl : Glyphs) (one last : Bool) (ind label : Str) : List Str :=
  if one then [ind ++ gl.verticalEdge, ind ++ label]
  else [ind ++ (if last then gl.last else gl.mid) ++ label]

/-- What the lines below a node begin with. -/
def deeper (gl : Glyphs) (one last : Bool) (ind : Str) : Str :=
  if one then ind else ind ++ (if last then gl.endofForest else gl.withinTree)

mutual
/-- The drawing of what is below a node; the nodes are numbered in the order of the drawing, the first one
below is `k`. -/
def drawBelow (gl : Glyphs) (chains : Bool) (label : Nat → Str) (k : Nat) (ind : Str) : Node → List Str
  | .leaf _ => []
  | .concat ps _ => drawParts gl chains label (chains && decide (ps.length = 1)) k ind ps
  | .warp s _ _ _ =>
    row gl chains true ind (label k) ++ drawBelow gl chains label (k + 1) (deeper gl chains true ind) s
  | .crop s _ _ _ _ _ =>
    row gl chains true ind (label k) ++ drawBelow gl chains label (k + 1) (deeper gl chains true ind) s
  | .overview s _ _ =>
    row gl chains true ind (label k) ++ drawBelow gl chains label (k + 1) (deeper gl chains true ind) s
  | .dequant s _ _ =>
    row gl chains true ind (label k) ++ drawBelow gl chains label (k + 1) (deeper gl chains true ind) s
/-- The drawing of parts, one after the other. -/
def drawParts (gl : Glyphs) (chains : Bool) (label : Nat → Str) (one : Bool) (k : Nat) (ind : Str) :
    List Node → List Str
  | [] => []
  | p :: ps =>
    row gl one ps.isEmpty ind (label k) ++
      drawBelow gl chains label (k + 1) (deeper gl one ps.isEmpty ind) p ++
      drawParts gl chains label one (k + count p) ind ps
end

/-- The drawing of an image: the root, and below it what it is made of. -/
def drawing (gl : Glyphs) (chains : Bool) (label : Nat → Str) (n : Node) : List Str :=
  (gl.newtreeLast ++ label 0) :: drawBelow gl chains label 1 gl.endofForest n

theorem drawBelow_eq (gl : Glyphs) (chains : Bool) (label : Nat → Str) (k : Nat) (ind : Str) (n : Node) :
    drawBelow gl chains label k ind n =
      drawParts gl chains label (chains && decide ((children n).length = 1)) k ind (children n) := by
  cases n with
  | concat ps d => simp only [drawBelow, children]; rfl
  | _ => simp [drawBelow, drawParts, children]

/-! #### the graph as a list -/

mutual
def flat (k : Nat) (par : Option Nat) : Node → List (Option Nat × Node)
  | .leaf l => [(par, .leaf l)]
  | .concat ps d => (par, .concat ps d) :: flatL (k + 1) (some k) ps
  | .warp s tf d a => (par, .warp s tf d a) :: flat (k + 1) (some k) s
  | .crop s y0 y1 x0 x1 c => (par, .crop s y0 y1 x0 x1 c) :: flat (k + 1) (some k) s
  | .overview s l d => (par, .overview s l d) :: flat (k + 1) (some k) s
  | .dequant s q d => (par, .dequant s q d) :: flat (k + 1) (some k) s
def flatL (k : Nat) (par : Option Nat) : List Node → List (Option Nat × Node)
  | [] => []
  | p :: ps => flat k par p ++ flatL (k + count p) par ps
end

theorem flat_eq (k : Nat) (par : Option Nat) (n : Node) :
    flat k par n = (par, n) :: flatL (k + 1) (some k) (children n) := by
  cases n <;> simp [flat, flatL, children]

theorem count_eq (n : Node) : count n = countL (children n) + 1 := by
  rw [count_children, countL_eq]

theorem flatL_length_of {ps : List Node} (h : ∀ c ∈ ps, ∀ k par, (flat k par c).length = count c) :
    ∀ k par, (flatL k par ps).length = countL ps := by
  induction ps with
  | nil => intro k par; rfl
  | cons p ps ih =>
    intro k par
    rw [flatL, List.length_append, h p (List.mem_cons_self ..), ih (fun c hc => h c (List.mem_cons_of_mem _ hc)), countL]

theorem flat_length : ∀ n k par, (flat k par n).length = count n := by
  apply childInd'
  intro n ih k par
  rw [flat_eq, List.length_cons, flatL_length_of ih, count_eq]

theorem flatL_length (ps : List Node) : ∀ k par, (flatL k par ps).length = countL ps :=
  flatL_length_of fun c _ => flat_length c

theorem graphLoop_flat : ∀ n k par st, graphLoop k ((par, n) :: st) = flat k par n ++ graphLoop (k + count n) st := by
  apply childInd'
  intro n ih k par st
  have key : ∀ (ps : List Node), (∀ c ∈ ps, ∀ k par st,
      graphLoop k ((par, c) :: st) = flat k par c ++ graphLoop (k + count c) st) → ∀ k' par st,
      graphLoop k' ((ps.map fun c => (par, c)) ++ st) = flatL k' par ps ++ graphLoop (k' + countL ps) st := by
    intro ps
    induction ps with
    | nil => intro _ k' par st; rfl
    | cons p ps ih2 =>
      intro h k' par st
      rw [List.map_cons, List.cons_append, h p (List.mem_cons_self ..),
        ih2 (fun c hc => h c (List.mem_cons_of_mem _ hc)), flatL, countL, List.append_assoc, Nat.add_assoc]
  rw [graphLoop, List.map_reverse, List.reverse_reverse, key _ ih, flat_eq, count_eq, List.cons_append]
  congr 3
  omega

theorem graph_flat (n : Node) : graph n = flat 0 none n := by
  rw [graph, graphLoop_flat, graphLoop, List.append_nil]

theorem flat_parents : ∀ n k par, ∀ e ∈ flat k par n, e.1 = par ∨ ∃ v, e.1 = some v ∧ k ≤ v ∧ v < k + count n := by
  apply childInd'
  intro n ih k par e he
  rw [flat_eq] at he
  rcases List.mem_cons.1 he with rfl | he
  · exact .inl rfl
  · have key : ∀ (ps : List Node), (∀ c ∈ ps, ∀ k par, ∀ e ∈ flat k par c,
        e.1 = par ∨ ∃ v, e.1 = some v ∧ k ≤ v ∧ v < k + count c) → ∀ k par, ∀ e ∈ flatL k par ps,
        e.1 = par ∨ ∃ v, e.1 = some v ∧ k ≤ v ∧ v < k + countL ps := by
      intro ps
      induction ps with
      | nil => intro _ k par e he; cases he
      | cons p ps ih2 =>
        intro h k par e he
        rw [flatL] at he
        rw [countL]
        rcases List.mem_append.1 he with he | he
        · rcases h p (List.mem_cons_self ..) _ _ e he with h | ⟨v, h1, h2, h3⟩
          · exact .inl h
          · exact .inr ⟨v, h1, h2, by omega⟩
        · rcases ih2 (fun c hc => h c (List.mem_cons_of_mem _ hc)) _ _ e he with h | ⟨v, h1, h2, h3⟩
          · exact .inl h
          · exact .inr ⟨v, h1, by omega, by omega⟩
    have hc := count_eq n
    rcases key _ ih _ _ e he with h | ⟨v, h1, h2, h3⟩
    · exact .inr ⟨k, h, by omega, by omega⟩
    · exact .inr ⟨v, h1, by omega, by omega⟩

theorem flatL_parents (ps : List Node) : ∀ k par, ∀ e ∈ flatL k par ps,
    e.1 = par ∨ ∃ v, e.1 = some v ∧ k ≤ v ∧ v < k + countL ps := by
  induction ps with
  | nil => intro k par e he; cases he
  | cons p ps ih =>
    intro k par e he
    rw [flatL] at he
    rw [countL]
    rcases List.mem_append.1 he with he | he
    · rcases flat_parents p _ _ e he with h | ⟨v, h1, h2, h3⟩
      · exact .inl h
      · exact .inr ⟨v, h1, h2, by omega⟩
    · rcases ih _ _ e he with h | ⟨v, h1, h2, h3⟩
      · exact .inl h
      · exact .inr ⟨v, h1, by omega, by omega⟩

/-! #### edges -/

theorem targets_append (v : Nat) (as bs : List (Option Nat × Node)) : ∀ i,
    targets v i (as ++ bs) = targets v i as ++ targets v (i + as.length) bs := by
  induction as with
  | nil => intro i; rfl
  | cons a as ih =>
    intro i
    rw [List.cons_append, targets, targets, ih, List.length_cons, show i + 1 + as.length = i + (as.length + 1) by omega]
    split <;> rfl

theorem targets_none (v : Nat) (as : List (Option Nat × Node)) (h : ∀ e ∈ as, e.1 ≠ some v) : ∀ i,
    targets v i as = [] := by
  induction as with
  | nil => intro i; rfl
  | cons a as ih =>
    intro i
    rw [targets, if_neg (h a (List.mem_cons_self ..))]
    exact ih (fun e he => h e (List.mem_cons_of_mem _ he)) _

theorem mem_targets (v w : Nat) (as : List (Option Nat × Node)) : ∀ i,
    w ∈ targets v i as ↔ i ≤ w ∧ ∃ e, as[w - i]? = some e ∧ e.1 = some v := by
  induction as with
  | nil => intro i; simp [targets]
  | cons a as ih =>
    intro i
    have hs : ∀ h : i < w, (a :: as)[w - i]? = as[w - (i + 1)]? := by
      intro h
      rw [show w - i = (w - (i + 1)) + 1 by omega, List.getElem?_cons_succ]
    rw [targets]
    by_cases h : a.1 = some v
    · rw [if_pos h, List.mem_cons, ih]
      constructor
      · rintro (rfl | ⟨h1, h2⟩)
        · exact ⟨Nat.le_refl _, a, by simp, h⟩
        · exact ⟨by omega, by rw [hs (by omega)]; exact h2⟩
      · rintro ⟨h1, h2⟩
        by_cases hw : w = i
        · exact .inl hw
        · exact .inr ⟨by omega, by rw [← hs (by omega)]; exact h2⟩
    · rw [if_neg h, ih]
      constructor
      · rintro ⟨h1, h2⟩
        exact ⟨by omega, by rw [hs (by omega)]; exact h2⟩
      · rintro ⟨h1, h2⟩
        by_cases hw : w = i
        · subst hw
          obtain ⟨e, e1, e2⟩ := h2
          rw [Nat.sub_self, List.getElem?_cons_zero] at e1
          cases e1
          exact absurd e2 h
        · exact ⟨by omega, by rw [← hs (by omega)]; exact h2⟩

theorem targets_nodup (v : Nat) (as : List (Option Nat × Node)) : ∀ i, (targets v i as).Nodup := by
  induction as with
  | nil => intro i; exact List.nodup_nil
  | cons a as ih =>
    intro i
    rw [targets]
    split
    · refine List.nodup_cons.2 ⟨fun h => ?_, ih _⟩
      have := ((mem_targets v i as _).1 h).1
      omega
    · exact ih _

/-- The numbers of parts that follow each other. -/
def starts : Nat → List Node → List Nat
  | _, [] => []
  | k, p :: ps => k :: starts (k + count p) ps

theorem starts_length : ∀ (ps : List Node) k, (starts k ps).length = ps.length
  | [], _ => rfl
  | _ :: ps, _ => by rw [starts, List.length_cons, starts_length ps, List.length_cons]

theorem targets_flatL (j : Nat) (ps : List Node) : ∀ k, j < k → targets j k (flatL k (some j) ps) = starts k ps := by
  induction ps with
  | nil => intro k _; rfl
  | cons p ps ih =>
    intro k hk
    have hc := count_eq p
    rw [flatL, targets_append, flat_length, ih _ (by omega), flat_eq, targets, if_pos rfl, targets_none, starts]
    · rfl
    · intro e he h
      rcases flatL_parents _ _ _ e he with h' | ⟨v, h1, h2, h3⟩
      · rw [h'] at h; cases h; omega
      · rw [h1] at h; cases h; omega

/-- The part of the list that belongs to a list of nodes. -/
structure AtL (L : List (Option Nat × Node)) (k : Nat) (par : Option Nat) (ps : List Node) : Prop where
  split : ∃ A B, L = A ++ (flatL k par ps ++ B) ∧ A.length = k ∧ (∀ e ∈ A, ∀ v, e.1 = some v → v < k) ∧
    ∀ e ∈ B, ∀ v, e.1 = some v → v < k ∨ k + countL ps ≤ v
  par : ∀ p, par = some p → p < k

theorem AtL.first {L : List (Option Nat × Node)} {k : Nat} {par : Option Nat} {p : Node} {ps : List Node}
    (h : AtL L k par (p :: ps)) : L[k]? = some (par, p) ∧ targets k 0 L = starts (k + 1) (children p) ∧
      AtL L (k + 1) (some k) (children p) := by
  obtain ⟨⟨A, B, h1, h2, h3, h4⟩, h5⟩ := h
  have hc := count_eq p
  rw [countL] at h4
  rw [flatL, flat_eq, List.cons_append, List.cons_append, List.append_assoc] at h1
  have hB : ∀ e ∈ flatL (k + count p) par ps ++ B, ∀ v, e.1 = some v → v < k ∨ k + count p ≤ v := by
    intro e he v hv
    rcases List.mem_append.1 he with he | he
    · rcases flatL_parents _ _ _ e he with h' | ⟨w, w1, w2, w3⟩
      · exact .inl (h5 v (h'.symm.trans hv))
      · rw [w1] at hv; cases hv; exact .inr w2
    · rcases h4 e he v hv with h | h
      · exact .inl h
      · exact .inr (by omega)
  refine ⟨?_, ?_, ⟨A ++ [(par, p)], flatL (k + count p) par ps ++ B, ?_, ?_, ?_, ?_⟩, ?_⟩
  · rw [h1, List.getElem?_append_right (by omega), h2, Nat.sub_self]; rfl
  · rw [h1, targets_append, targets_none, Nat.zero_add, h2, targets, if_neg, targets_append,
      targets_flatL _ _ _ (by omega), List.nil_append, targets_none, List.append_nil]
    · intro e he hk
      rcases hB e he k hk with h | h <;> omega
    · intro h; exact absurd (h5 k h) (by omega)
    · intro e he hk; exact absurd (h3 e he k hk) (by omega)
  · rw [h1, List.append_assoc]; rfl
  · rw [List.length_append, h2]; rfl
  · intro e he v hv
    rcases List.mem_append.1 he with he | he
    · have := h3 e he v hv; omega
    · rw [List.mem_singleton] at he
      subst he
      have := h5 v hv; omega
  · intro e he v hv
    rcases hB e he v hv with h | h <;> omega
  · intro q hq; cases hq; omega

theorem AtL.rest {L : List (Option Nat × Node)} {k : Nat} {par : Option Nat} {p : Node} {ps : List Node}
    (h : AtL L k par (p :: ps)) : AtL L (k + count p) par ps := by
  obtain ⟨⟨A, B, h1, h2, h3, h4⟩, h5⟩ := h
  rw [countL] at h4
  refine ⟨⟨A ++ flat k par p, B, ?_, ?_, ?_, ?_⟩, ?_⟩
  · rw [h1, flatL, List.append_assoc, List.append_assoc]
  · rw [List.length_append, h2, flat_length]
  · intro e he v hv
    rcases List.mem_append.1 he with he | he
    · have := h3 e he v hv; omega
    · rcases flat_parents _ _ _ e he with h' | ⟨w, w1, w2, w3⟩
      · have := h5 v (h'.symm.trans hv); omega
      · rw [w1] at hv; cases hv; exact w3
  · intro e he v hv
    rcases h4 e he v hv with h | h <;> omega
  · intro q hq
    have := h5 q hq
    omega

theorem AtL.root (n : Node) : AtL (graph n) 0 none [n] := by
  refine ⟨⟨[], [], ?_, rfl, by simp, by simp⟩, by simp⟩
  rw [graph_flat]
  simp [flatL]

/-! #### the loop -/

theorem loop_next {V : Type} [DecidableEq V] {g : Graph V} {o : Options} {s s' : State V} {ls r : List (Line V)}
    (h : step g o s = .ok (some (ls, s'))) (hr : loop g o s' = .ok r) : loop g o s = .ok (ls ++ r) := by
  rw [loop]
  split
  · rename_i e he; rw [h] at he; cases he
  · rename_i he; rw [h] at he; cases he
  · rename_i ls' s'' he
    rw [h] at he
    cases he
    rw [hr]

theorem starts_nodup {L : List (Option Nat × Node)} {k : Nat} {ps : List Node}
    (h : ∃ v, targets v 0 L = starts k ps) : (starts k ps).Nodup := by
  obtain ⟨v, h⟩ := h
  rw [← h]
  exact targets_nodup _ _ _

theorem item_nodup {l : List Nat} (h : l.Nodup) : (l.map Item.node).Nodup :=
  List.Nodup.map (fun a b e => by cases e; rfl) h

/-- The lines of a frame. -/
def frameLines (f : Frame Nat) (k : Nat) : List (Line Nat) :=
  (if (prefixes f).2.2 then [.edge (prefixes f).1] else []) ++ [.entry (prefixes f).1 (.node k) []]

/-- What the loop does with a node of the tree that has not been seen. -/
theorem step_node {L : List (Option Nat × Node)} {chains : Bool} {f : Frame Nat} {k : Nat} {par : Option Nat}
    {p : Node} {ps : List Node} (hat : AtL L k par (p :: ps)) (hi : f.item = .node k) (hp : f.parent = par)
    (rest : List (Frame Nat)) (seen : List Nat) (hs : ∀ v ∈ seen, v < k) :
    step (diGraph L) ⟨none, chains⟩ ⟨f :: rest, [], seen⟩ =
      .ok (some (frameLines f k,
        ⟨frames (some k) (prefixes f).2.1 (chains && decide ((children p).length = 1))
          ((starts (k + 1) (children p)).map .node) ++ rest, [], k :: seen⟩)) := by
  obtain ⟨h1, h2, h3⟩ := hat.first
  have hk : k ∉ seen := fun h => absurd (hs k h) (by omega)
  have hn : k ∈ (diGraph L).nodes := by
    simp only [diGraph, List.mem_range]
    exact (List.getElem?_eq_some_iff.1 h1).1
  have hex : expand (diGraph L) ⟨none, chains⟩ (k :: seen) f k =
      ((starts (k + 1) (children p)).map .node, []) := by
    unfold expand
    simp only [diGraph, h2, h1, hp, Option.bind_some]
    cases par <;> simp
  have hnv : nextVertical (diGraph L) ⟨none, chains⟩ f.parent ((starts (k + 1) (children p)).map .node) =
      (chains && decide ((children p).length = 1)) := by
    unfold nextVertical
    rw [List.Nodup.dedup (item_nodup (starts_nodup ⟨k, h2⟩)), List.length_map, starts_length]
    cases chains <;> simp [diGraph]
  have hsk : skipsAfter ⟨f :: rest, [], seen⟩ f k = [] := by
    unfold skipsAfter
    rw [if_neg hk]
  unfold step
  simp only [hi, hsk]
  rw [if_neg (by simp), if_neg hk, if_neg (not_not.2 hn), hex, hnv]
  rfl

theorem prefixes_one {f : Frame Nat} (h1 : f.indents ≠ []) (h2 : f.vertical = true) :
    prefixes f = (f.indents, f.indents, true) := by
  unfold prefixes
  rw [if_neg (by simpa using h1), if_pos h2, h2]

theorem prefixes_branch {f : Frame Nat} (h1 : f.indents ≠ []) (h2 : f.vertical = false) :
    prefixes f = (f.indents ++ [if f.islast then .last else .mid],
      f.indents ++ [if f.islast then .endofForest else .withinTree], false) := by
  unfold prefixes
  rw [if_neg (by simpa using h1), if_neg (by rw [h2]; simp), h2]
  cases f.islast <;> rfl

theorem loop_parts (gl : Glyphs) (label : Nat → Str) (chains : Bool) (L : List (Option Nat × Node)) :
    ∀ n : Node, ∀ k par ps, AtL L k par (n :: ps) → ∀ (next : List Glyph), next ≠ [] → ∀ rest seen,
    (∀ v ∈ seen, v < k + 1) → ∃ ls seen', (∀ v ∈ seen', v < k + count n) ∧
      (∀ r, loop (diGraph L) ⟨none, chains⟩ ⟨rest, [], seen'⟩ = .ok r →
        loop (diGraph L) ⟨none, chains⟩ ⟨frames (some k) next (chains && decide ((children n).length = 1))
          ((starts (k + 1) (children n)).map .node) ++ rest, [], seen⟩ = .ok (ls ++ r)) ∧
      ls.map (render gl label) = drawBelow gl chains label (k + 1) (next.flatMap gl.text) n := by
  intro n
  induction n using childInd' with
  | h n ih =>
    intro k par ps0 hat next hnext rest seen hseen
    have hat' := hat.first.2.2
    rw [drawBelow_eq]
    have hc := count_eq n
    have key : ∀ (ps : List Node), (∀ c ∈ ps, c ∈ children n) → ∀ k', AtL L k' (some k) ps → ∀ one,
        (one = true → ps.length ≤ 1) → ∀ rest seen, (∀ v ∈ seen, v < k') →
        ∃ ls seen', (∀ v ∈ seen', v < k' + countL ps) ∧
        (∀ r, loop (diGraph L) ⟨none, chains⟩ ⟨rest, [], seen'⟩ = .ok r →
          loop (diGraph L) ⟨none, chains⟩ ⟨frames (some k) next one ((starts k' ps).map .node) ++ rest, [], seen⟩ =
            .ok (ls ++ r)) ∧
        ls.map (render gl label) = drawParts gl chains label one k' (next.flatMap gl.text) ps := by
      intro ps
      induction ps with
      | nil =>
        intro _ k' _ one _ rest seen hs
        exact ⟨[], seen, by simpa [countL] using hs, fun r h => h, rfl⟩
      | cons p ps ih2 =>
        intro hm k' hat one hone rest seen hs
        have hcp := count_eq p
        have hrow : ∀ (last : Bool),
            let f : Frame Nat := ⟨some k, .node k', next, last, one⟩
            (prefixes f).2.1 ≠ [] ∧
            (frameLines f k').map (render gl label) =
              row gl one last (next.flatMap gl.text) (label k') ∧
            (prefixes f).2.1.flatMap gl.text = deeper gl one last (next.flatMap gl.text) := by
          intro last f
          cases one with
          | true =>
            unfold frameLines
            rw [prefixes_one (f := f) hnext rfl]
            refine ⟨hnext, ?_, ?_⟩ <;> simp [row, deeper, render, suffixText, f]
          | false =>
            unfold frameLines
            rw [prefixes_branch (f := f) hnext rfl]
            refine ⟨by simp, ?_, ?_⟩ <;> cases last <;>
              simp [row, deeper, render, suffixText, f, Glyphs.text]
        obtain ⟨r1, r2, r3⟩ := hrow ps.isEmpty
        have hst := step_node (chains := chains) (f := ⟨some k, .node k', next, ps.isEmpty, one⟩) hat rfl rfl
          (frames (some k) next one ((starts (k' + count p) ps).map .node) ++ rest) seen hs
        obtain ⟨l2, s2, b1, b2, b3⟩ := ih p (hm p (List.mem_cons_self ..)) k' (some k) ps hat _ r1
          (frames (some k) next one ((starts (k' + count p) ps).map .node) ++ rest) (k' :: seen)
          (by
            intro v hv
            rcases List.mem_cons.1 hv with rfl | hv
            · omega
            · have := hs v hv; omega)
        obtain ⟨l3, s3, c1, c2, c3⟩ := ih2 (fun c hc => hm c (List.mem_cons_of_mem _ hc)) _ hat.rest one
          (fun h => by have := hone h; rw [List.length_cons] at this; omega) rest s2 b1
        refine ⟨frameLines ⟨some k, .node k', next, ps.isEmpty, one⟩ k' ++ (l2 ++ l3), s3, ?_, ?_, ?_⟩
        · intro v hv
          have := c1 v hv
          rw [countL]; omega
        · intro r hr
          have e1 := b2 _ (c2 r hr)
          have e2 := loop_next hst e1
          have he : ps.isEmpty = ((starts (k' + count p) ps).map Item.node).isEmpty := by
            cases ps <;> rfl
          rw [starts, List.map_cons, frames, List.cons_append, ← he, e2]
          simp only [List.append_assoc]
        · rw [List.map_append, List.map_append, r2, b3, c3, r3, drawParts, List.append_assoc]
    obtain ⟨ls, seen', a1, a2, a3⟩ := key (children n) (fun c h => h) (k + 1) hat'
      (chains && decide ((children n).length = 1)) (by
        intro h
        simp at h
        omega) rest seen hseen
    exact ⟨ls, seen', fun v hv => by have := a1 v hv; omega, a2, a3⟩

/-! #### the graph is a tree -/

/-- Each node but the first has a parent before it. -/
theorem flat_order : ∀ n k par, (∀ p, par = some p → p < k) → ∀ i e, (flat k par n)[i]? = some e →
    (i ≠ 0 → e.1 ≠ none) ∧ ∀ v, e.1 = some v → v < k + i := by
  apply childInd'
  intro n ih k par hpar i e he
  have key : ∀ (ps : List Node), (∀ c ∈ ps, ∀ k par, (∀ p, par = some p → p < k) → ∀ i e,
      (flat k par c)[i]? = some e → (i ≠ 0 → e.1 ≠ none) ∧ ∀ v, e.1 = some v → v < k + i) →
      ∀ k' j, j < k' → ∀ i e, (flatL k' (some j) ps)[i]? = some e →
      e.1 ≠ none ∧ ∀ v, e.1 = some v → v < k' + i := by
    intro ps
    induction ps with
    | nil => intro _ k' j _ i e he; simp [flatL] at he
    | cons p ps ih2 =>
      intro h k' j hj i e he
      rw [flatL] at he
      by_cases hi : i < (flat k' (some j) p).length
      · rw [List.getElem?_append_left hi] at he
        obtain ⟨h1, h2⟩ := h p (List.mem_cons_self ..) k' (some j) (by rintro q ⟨⟩; exact hj) i e he
        refine ⟨?_, h2⟩
        by_cases h0 : i = 0
        · subst h0
          rw [flat_eq, List.getElem?_cons_zero] at he
          cases he
          simp
        · exact h1 h0
      · rw [List.getElem?_append_right (by omega), flat_length] at he
        rw [flat_length] at hi
        obtain ⟨h1, h2⟩ := ih2 (fun c hc => h c (List.mem_cons_of_mem _ hc)) (k' + count p) j (by omega) _ e he
        exact ⟨h1, fun v hv => by have := h2 v hv; omega⟩
  rw [flat_eq] at he
  cases i with
  | zero =>
    rw [List.getElem?_cons_zero] at he
    cases he
    exact ⟨fun h => absurd rfl h, fun v hv => by have := hpar v hv; omega⟩
  | succ i =>
    rw [List.getElem?_cons_succ] at he
    obtain ⟨h1, h2⟩ := key _ ih (k + 1) k (by omega) i e he
    exact ⟨fun _ => h1, fun v hv => by have := h2 v hv; omega⟩

theorem graph_order (n : Node) {i : Nat} {e : Option Nat × Node} (h : (graph n)[i]? = some e) :
    (i ≠ 0 → e.1 ≠ none) ∧ ∀ v, e.1 = some v → v < i := by
  rw [graph_flat] at h
  have := flat_order n 0 none (by simp) i e h
  simpa using this

theorem graph_root (n : Node) : (graph n)[0]? = some (none, n) := by
  rw [graph_flat, flat_eq]; rfl

theorem mem_pred {L : List (Option Nat × Node)} {u v : Nat} :
    u ∈ (diGraph L).pred v ↔ ∃ e, L[v]? = some e ∧ e.1 = some u := by
  simp only [diGraph, Option.mem_toList, Option.mem_def, Option.bind_eq_some_iff]

theorem mem_succ {L : List (Option Nat × Node)} {u v : Nat} :
    v ∈ (diGraph L).succ u ↔ ∃ e, L[v]? = some e ∧ e.1 = some u := by
  simp only [diGraph, mem_targets, Nat.zero_le, true_and, Nat.sub_zero]

theorem diGraph_valid (n : Node) : Valid (diGraph (graph n)) where
  nodupSucc v := targets_nodup _ _ _
  nodupPred v := by
    simp only [diGraph]
    cases ((graph n)[v]?).bind Prod.fst <;> simp
  mem v c h := by
    obtain ⟨e, h1, -⟩ := mem_succ.1 h
    simp only [diGraph, List.mem_range]
    exact (List.getElem?_eq_some_iff.1 h1).1
  memPred u v h := by
    obtain ⟨e, h1, h2⟩ := mem_pred.1 h
    have h3 := (graph_order n h1).2 u h2
    have h4 := (List.getElem?_eq_some_iff.1 h1).1
    simp only [diGraph, List.mem_range]
    omega
  pred u v := by rw [mem_pred, mem_succ]
  sym h := by simp [diGraph] at h

theorem reach_root (n : Node) : ∀ v, v < (graph n).length → Reach (diGraph (graph n)) 0 v := by
  intro v
  induction v using Nat.strong_induction_on with
  | _ v ih =>
    intro hv
    by_cases h0 : v = 0
    · subst h0; exact Relation.ReflTransGen.refl
    · obtain ⟨e, he⟩ : ∃ e, (graph n)[v]? = some e := ⟨_, List.getElem?_eq_getElem hv⟩
      obtain ⟨h1, h2⟩ := graph_order n he
      obtain ⟨p, hp⟩ := Option.ne_none_iff_exists'.1 (h1 h0)
      have hlt := h2 p hp
      exact (ih p hlt (by omega)).tail (mem_succ.2 ⟨e, he, hp⟩)

/-- The root is the only source. -/
theorem find_root (n : Node) {comps : List (List Nat)} (hc : Components (diGraph (graph n)) comps) :
    findSources (diGraph (graph n)) comps = .ok [0] := by
  obtain ⟨src, h1, h2, h3, h4⟩ := C42_sources (diGraph (graph n)) (diGraph_valid n) comps hc
  have hlen : 0 < (graph n).length := (List.getElem?_eq_some_iff.1 (graph_root n)).1
  have hr0 : ∀ s, Reach (diGraph (graph n)) s 0 → s = 0 := by
    intro s hs
    rcases Relation.ReflTransGen.cases_tail hs with h | ⟨p, -, hp⟩
    · exact h.symm
    · obtain ⟨e, e1, e2⟩ := mem_succ.1 hp
      rw [graph_root] at e1
      cases e1
      cases e2
  obtain ⟨s, hs, hs0⟩ := h3 0 (by simpa [diGraph] using hlen)
  have h5 := h4 [0] (fun v hv => ⟨0, by simp, reach_root n v (by simpa [diGraph] using hv)⟩)
  rw [hr0 s hs0] at hs
  rw [h1]
  match src, hs, h5 with
  | [a], hs, _ => rw [List.mem_singleton] at hs; rw [hs]

/-! #### C76 -/

/-- **C76**: the text that is printed for an image is the drawing of its operations: the image itself on the
first line, below each operation what it is applied to, the parts of a concatenation in their order. -/
theorem C76_text (n : Node) (chains ascii : Bool) (label : Nat → Str) (comps : List (List Nat))
    (hc : Components (diGraph (graph n)) comps) :
    printGraph n chains ascii label comps = .ok (drawing (glyphsFor ascii true) chains label n) := by
  have hat := AtL.root n
  obtain ⟨ls, seen, -, h2, h3⟩ := loop_parts (glyphsFor ascii true) label chains (graph n) n 0 none [] hat
    [.endofForest] (by simp) [] [0] (by simp)
  have hst := step_node (chains := chains) (f := ⟨none, .node 0, [], true, false⟩) hat rfl rfl [] [] (by simp)
  have hp : prefixes (⟨none, .node 0, [], true, false⟩ : Frame Nat) = ([.newtreeLast], [.endofForest], false) := rfl
  rw [hp] at hst
  have hend : loop (diGraph (graph n)) ⟨none, chains⟩ ⟨[], [], seen⟩ = .ok [] := by
    rw [loop]; rfl
  have hl := loop_next hst (h2 [] hend)
  rw [List.append_nil] at hl
  have hg : generate (diGraph (graph n)) ⟨none, chains⟩ [0] =
      .ok (some (frameLines ⟨none, .node 0, [], true, false⟩ 0 ++ ls)) := by
    unfold generate
    have hne : (diGraph (graph n)).nodes.isEmpty = false := by
      have hlen : 0 < (graph n).length := (List.getElem?_eq_some_iff.1 (graph_root n)).1
      simp only [diGraph, List.isEmpty_eq_false_iff]
      intro h
      rw [List.range_eq_nil] at h
      omega
    rw [if_neg (by simp), if_neg (by rw [hne]; simp)]
    rw [show start [0] = [(⟨none, .node 0, [], true, false⟩ : Frame Nat)] from rfl, hl]
  unfold printGraph
  rw [find_root n hc]
  unfold generateText
  simp only [hg]
  rw [List.map_append, show (diGraph (graph n)).directed = true from rfl, h3]
  congr 1
  cases ascii <;> simp [frameLines, hp, render, suffixText, drawing, Glyphs.text]

theorem reach_le (n : Node) {u v : Nat} (h : Reach (diGraph (graph n)) u v) : u ≤ v := by
  induction h with
  | refl => exact Nat.le_refl _
  | tail _ he ih =>
    obtain ⟨e, e1, e2⟩ := mem_succ.1 he
    have := (graph_order n e1).2 _ e2
    omega

/-- The graph has no cycles: the components that networkx finds are the single nodes. -/
theorem graph_components (n : Node) :
    Components (diGraph (graph n)) ((List.range (graph n).length).map fun v => [v]) where
  all v hv := ⟨[v], List.mem_map.2 ⟨v, hv, rfl⟩, by simp⟩
  nonempty c hc := by
    obtain ⟨v, -, rfl⟩ := List.mem_map.1 hc
    simp
  nodes c hc v hv := by
    obtain ⟨w, hw, rfl⟩ := List.mem_map.1 hc
    rw [List.mem_singleton] at hv
    rw [hv]; exact hw
  reach c hc u hu v hv := by
    obtain ⟨w, hw, rfl⟩ := List.mem_map.1 hc
    rw [List.mem_singleton] at hu hv
    rw [hu, hv]; exact Relation.ReflTransGen.refl
  max c hc u hu v h1 h2 := by
    obtain ⟨w, hw, rfl⟩ := List.mem_map.1 hc
    rw [List.mem_singleton] at hu
    subst hu
    have := reach_le n h1
    have := reach_le n h2
    rw [List.mem_singleton]
    omega
  disjoint := by
    rw [List.pairwise_map]
    refine List.nodup_range.imp ?_
    intro a b hab x hx hy
    rw [List.mem_singleton] at hx hy
    exact hab (hx.symm.trans hy)

theorem className_plain (kind : Leaf → LeafClass) (n : Node) : ∀ c ∈ className kind n,
    c ≠ '_' ∧ c ≠ '.' ∧ isWs c = false ∧ ∀ ascii, c ∉ badChars ascii := by
  have h : ∀ (w : Str), (w.all fun c => decide (c ≠ '_' ∧ c ≠ '.' ∧ isWs c = false ∧ ∀ ascii, c ∉ badChars ascii)) = true →
      ∀ c ∈ w, c ≠ '_' ∧ c ≠ '.' ∧ isWs c = false ∧ ∀ ascii, c ∉ badChars ascii := by
    intro w h c hc
    simpa using List.all_eq_true.1 h c hc
  cases n with
  | leaf l =>
    simp only [className]
    cases kind l <;> exact h _ (by decide)
  | _ => simp only [className]; exact h _ (by decide)

theorem nodeId_label (ascii : Bool) (kind : Leaf → LeafClass) (k : Nat) (n : Node) :
    LabelOk ascii (nodeId kind k n) := by
  have hn := natStr_label ascii k
  have hchar : ∀ c ∈ nodeId kind k n, isWs c = false ∧ c ∉ badChars ascii := by
    intro c hc
    rw [nodeId, List.mem_append, List.mem_cons] at hc
    rcases hc with h | rfl | h
    · exact ⟨(className_plain kind n c h).2.2.1, (className_plain kind n c h).2.2.2 ascii⟩
    · cases ascii <;> decide
    · exact ⟨hn.ws c h, hn.plain c h⟩
  refine ⟨by simp [nodeId], fun c hc => (hchar c hc).1, ?_, fun c hc => (hchar c hc).2⟩
  intro h
  have : '_' ∈ nodeId kind k n := by simp [nodeId]
  rw [h] at this
  revert this
  decide

theorem nodeId_inj {kind : Leaf → LeafClass} {j k : Nat} {m n : Node} (h : nodeId kind j m = nodeId kind k n) :
    j = k := by
  have h1 : '_' ∉ className kind m := fun hm => (className_plain kind m _ hm).1 rfl
  have h2 : '_' ∉ className kind n := fun hm => (className_plain kind n _ hm).1 rfl
  have key : ∀ (a b x y : Str), '_' ∉ a → '_' ∉ b → a ++ '_' :: x = b ++ '_' :: y → x = y := by
    intro a
    induction a with
    | nil =>
      intro b x y _ hb h
      cases b with
      | nil => simpa using h
      | cons c b =>
        simp only [List.nil_append, List.cons_append, List.cons.injEq] at h
        exact absurd (by rw [← h.1]; exact List.mem_cons_self ..) hb
    | cons c a ih =>
      intro b x y ha hb h
      cases b with
      | nil =>
        simp only [List.nil_append, List.cons_append, List.cons.injEq] at h
        exact absurd (by rw [h.1]; exact List.mem_cons_self ..) ha
      | cons d b =>
        simp only [List.cons_append, List.cons.injEq] at h
        exact ih b x y (fun h => ha (List.mem_cons_of_mem _ h)) (fun h => hb (List.mem_cons_of_mem _ h)) h.2
  have h3 := key _ _ _ _ h1 h2 h
  have h4 := parseNat_natStr j
  rw [h3, parseNat_natStr] at h4
  exact (Option.some.inj h4).symm

/-- The two operations are of one class. -/
def SameClass (kind : Leaf → LeafClass) : Node → Node → Prop
  | .leaf l, .leaf m => kind l = kind m
  | .concat _ _, .concat _ _ => True
  | .warp _ _ _ _, .warp _ _ _ _ => True
  | .crop _ _ _ _ _ _, .crop _ _ _ _ _ _ => True
  | .overview _ _ _, .overview _ _ _ => True
  | .dequant _ _ _, .dequant _ _ _ => True
  | _, _ => False

theorem className_inj {kind : Leaf → LeafClass} {m n : Node} (h : className kind m = className kind n) :
    SameClass kind m n := by
  cases m with
  | leaf l =>
    cases n with
    | leaf l' =>
      simp only [className] at h
      simp only [SameClass]
      cases h1 : kind l <;> cases h2 : kind l' <;> simp [h1, h2] at h ⊢
    | _ =>
      simp only [className] at h
      cases h1 : kind l <;> simp [h1] at h
  | _ =>
    cases n with
    | leaf l' =>
      simp only [className] at h
      cases h1 : kind l' <;> simp [h1] at h
    | _ => simp [className, SameClass] at h ⊢

/-- **C76**: what the identifiers tell: operations with the same identifier are at the same place of the drawing, and
operations at one place have the same identifier if and only if they are of one class. -/
theorem C76_classes (kind : Leaf → LeafClass) (m n : Node) (j k : Nat) :
    (nodeId kind j m = nodeId kind k n ↔ j = k ∧ SameClass kind m n) := by
  constructor
  · intro h
    obtain rfl := nodeId_inj h
    refine ⟨rfl, className_inj ?_⟩
    unfold nodeId at h
    exact List.append_cancel_right h
  · rintro ⟨rfl, h⟩
    unfold nodeId
    have : className kind m = className kind n := by
      cases m with
      | leaf l => cases n with
        | leaf l' => simp only [SameClass] at h; simp only [className, h]
        | _ => exact h.elim
      | _ => cases n with
        | leaf l' => exact h.elim
        | _ => first | rfl | exact h.elim
    rw [this]

/-- A crop and a warp of one file. -/
example (l : Leaf) : nodeId (fun _ => .load) 3 (.crop (.leaf l) 0 1 0 1 none) = p! "DelayedCrop_3" ∧
    ¬ nodeId (fun _ => .load) 3 (.crop (.leaf l) 0 1 0 1 none) = nodeId (fun _ => .load) 3
      (.warp (.leaf l) (.scale 2) (1, 1) .default) :=
  ⟨rfl, fun h => ((C76_classes _ _ _ _ _).1 h).2⟩

/-- **C76**: reading the text with the identifiers (`with_labels=False`) back gives the operations of the
image: one node for each position in the tree, named after its class, and an edge from each operation to
each image it is applied to, and no others. -/
theorem C76_read_back (kind : Leaf → LeafClass) (n : Node) (chains ascii : Bool) (comps : List (List Nat))
    (hc : Components (diGraph (graph n)) comps) :
    ∃ (as : List (List Nat)) (lines : List Str) (P : Parsed), as.Nodup ∧ (∀ a, a ∈ as ↔ (nodeAt n a).isSome) ∧
      printGraph n chains ascii (idLabel kind n) comps = .ok lines ∧ parse lines = .ok P ∧ P.nodes.Nodup ∧
      (∀ w, w ∈ P.nodes ↔ ∃ (i : Nat) (a : List Nat) (c : Node), as[i]? = some a ∧ nodeAt n a = some c ∧
        w = nodeId kind i c) ∧
      ∀ x y, joins P x y ↔ ∃ (i j : Nat) (a b : List Nat) (c d : Node), as[i]? = some a ∧ nodeAt n a = some c ∧
        as[j]? = some b ∧ nodeAt n b = some d ∧ b ≠ [] ∧ b.dropLast = a ∧ x = nodeId kind i c ∧
        y = nodeId kind j d := by
  obtain ⟨as, hnd, has, hlen, hgr⟩ := C40_graph n
  have hg := diGraph_valid n
  have hlab : ∀ v ∈ (diGraph (graph n)).nodes, LabelOk ascii (idLabel kind n v) := by
    intro v hv
    simp only [diGraph, List.mem_range] at hv
    rw [idLabel, List.getElem?_eq_getElem hv]
    exact nodeId_label _ _ _ _
  have hinj : ∀ u ∈ (diGraph (graph n)).nodes, ∀ v ∈ (diGraph (graph n)).nodes,
      idLabel kind n u = idLabel kind n v → u = v := by
    intro u hu v hv h
    simp only [diGraph, List.mem_range] at hu hv
    rw [idLabel, idLabel, List.getElem?_eq_getElem hu, List.getElem?_eq_getElem hv] at h
    exact nodeId_inj h
  have hne : (diGraph (graph n)).nodes ≠ [] := by
    have hl : 0 < (graph n).length := (List.getElem?_eq_some_iff.1 (graph_root n)).1
    simp only [diGraph, ne_eq, List.range_eq_nil]
    omega
  obtain ⟨src, lines, P, p1, p2, p3, -, p4, p5, p6⟩ := C46_whole_graph (diGraph (graph n)) ⟨none, chains⟩ ascii
    (idLabel kind n) hg rfl (fun _ => rfl) hne comps hc hlab hinj
  have hid : ∀ (i : Nat) (a : List Nat), as[i]? = some a → ∃ c, nodeAt n a = some c ∧ idLabel kind n i = nodeId kind i c := by
    intro i a ha
    obtain ⟨par, c, g1, g2, -⟩ := hgr i a ha
    exact ⟨c, g2, by rw [idLabel, g1]⟩
  have hex : ∀ v ∈ (diGraph (graph n)).nodes, ∃ a, as[v]? = some a := by
    intro v hv
    simp only [diGraph, List.mem_range, hlen] at hv
    exact ⟨_, List.getElem?_eq_getElem hv⟩
  have hin : ∀ (i : Nat) (a : List Nat), as[i]? = some a → i ∈ (diGraph (graph n)).nodes := by
    intro i a ha
    simp only [diGraph, List.mem_range, hlen]
    exact (List.getElem?_eq_some_iff.1 ha).1
  refine ⟨as, lines, P, hnd, has, ?_, p3, p4, ?_, ?_⟩
  · unfold printGraph
    rw [p1]; exact p2
  · intro w
    rw [p5]
    constructor
    · rintro ⟨v, hv, rfl⟩
      obtain ⟨a, ha⟩ := hex v hv
      obtain ⟨c, c1, c2⟩ := hid v a ha
      exact ⟨v, a, c, ha, c1, c2⟩
    · rintro ⟨i, a, c, ha, hc, rfl⟩
      obtain ⟨c', c1, c2⟩ := hid i a ha
      rw [hc] at c1; cases c1
      exact ⟨i, hin i a ha, c2⟩
  · intro x y
    rw [p6]
    constructor
    · rintro ⟨u, hu, v, hv, rfl, rfl⟩
      obtain ⟨a, ha⟩ := hex u hu
      obtain ⟨b, hb⟩ := hex v (hg.mem u v hv)
      obtain ⟨c, c1, c2⟩ := hid u a ha
      obtain ⟨d, d1, d2⟩ := hid v b hb
      obtain ⟨e, e1, e2⟩ := mem_succ.1 hv
      obtain ⟨par, d', g1, g2, g3, g4⟩ := hgr v b hb
      rw [e1] at g1
      cases g1
      have hbn : b ≠ [] := by
        intro h
        have h3 := g3 h
        simp only at e2
        rw [e2] at h3
        cases h3
      obtain ⟨j, j1, j2⟩ := g4 hbn
      simp only at e2
      rw [e2] at j1
      cases j1
      rw [ha] at j2
      cases j2
      exact ⟨u, v, _, b, c, d, ha, c1, hb, d1, hbn, rfl, c2, d2⟩
    · rintro ⟨i, j, a, b, c, d, ha, hc', hb, hd, hbn, hab, rfl, rfl⟩
      obtain ⟨c', c1, c2⟩ := hid i a ha
      rw [hc'] at c1; cases c1
      obtain ⟨d', d1, d2⟩ := hid j b hb
      rw [hd] at d1; cases d1
      obtain ⟨par, d'', g1, g2, g3, g4⟩ := hgr j b hb
      obtain ⟨i', i1, i2⟩ := g4 hbn
      have : i' = i := by
        rw [hab] at i2
        have l1 := (List.getElem?_eq_some_iff.1 i2)
        have l2 := (List.getElem?_eq_some_iff.1 ha)
        exact (List.Nodup.getElem_inj_iff hnd).1 (l1.2.trans l2.2.symm)
      subst this
      exact ⟨i', hin i' a ha, j, mem_succ.2 ⟨_, g1, i1⟩, c2, d2⟩

/-- A concatenation of a warped image and an image. -/
def shown2 (l : Leaf) : Node := .concat [.warp (.leaf l) .id (1, 1) .default, .leaf l] (1, 1)

example (l : Leaf) : printGraph (shown2 l) true true (idLabel (fun _ => .load) (shown2 l))
    ((List.range (graph (shown2 l)).length).map fun v => [v]) =
    .ok [p! "+-- DelayedChannelConcat_0", p! "    |-> DelayedWarp_1", p! "    |   !", p! "    |   DelayedLoad_2",
      p! "    L-> DelayedLoad_3"] := by
  rw [C76_text _ _ _ _ _ (graph_components _)]
  simp only [drawing, shown2, drawBelow, drawParts, idLabel, graph_flat]
  rfl

/-- With other labels the text cannot be read back: nodes with the same label become one. -/
theorem C76_labels_violated (l : Leaf) : ∃ (label : Nat → Str) (lines : List Str) (P : Parsed),
    (∀ k, LabelOk true (label k)) ∧
    printGraph (shown2 l) true true label ((List.range (graph (shown2 l)).length).map fun v => [v]) = .ok lines ∧
    parse lines = .ok P ∧ P.nodes.dedup.length = 3 ∧ (graph (shown2 l)).length = 4 := by
  have hl : ∀ w : Str, w = p! "C" ∨ w = p! "W" ∨ w = p! "L" → LabelOk true w := by
    rintro w (rfl | rfl | rfl) <;> exact ⟨by decide, by decide, by decide, by decide⟩
  refine ⟨fun k => if k = 0 then p! "C" else if k = 1 then p! "W" else p! "L",
    [p! "+-- C", p! "    |-> W", p! "    |   !", p! "    |   L", p! "    L-> L"],
    ⟨true, [p! "C", p! "W", p! "L", p! "L"], [(p! "C", p! "W"), (p! "W", p! "L"), (p! "C", p! "L")]⟩, ?_,
    by rw [C76_text _ _ _ _ _ (graph_components _)]; rfl, by rfl, rfl, ?_⟩
  · intro k
    apply hl
    by_cases h0 : k = 0
    · exact .inl (if_pos h0)
    · by_cases h1 : k = 1
      · exact .inr (.inl ((if_neg h0).trans (if_pos h1)))
      · exact .inr (.inr ((if_neg h0).trans (if_neg h1)))
  · rw [graph_flat]; rfl

end Verif.Props
