/-
`delayed_image/util/util_network_text.py`: printing graphs as text.
-/
import Verif.Py
import Mathlib.Data.List.Basic
import Mathlib.Data.List.Nodup
import Mathlib.Tactic.Linarith

namespace Verif
namespace NetText

variable {V : Type} [DecidableEq V]

/-- A networkx graph: `graph.nodes`, `graph.succ` and `graph.pred` (for an undirected graph both are
`graph.adj`), and the `collapse` attribute.  networkx is external. -/
structure Graph (V : Type) where
  directed : Bool
  nodes : List V
  succ : V → List V
  pred : V → List V
  collapse : V → Bool

/-- A node or `Ellipsis`. -/
inductive Item (V : Type) where
  | node (v : V)
  | dots
deriving DecidableEq

/-- The glyphs of prefixes, lines 27-73. -/
inductive Glyph where
  | newtreeLast | newtreeMid | endofForest | withinForest | withinTree | last | mid
deriving DecidableEq

/-- `StackFrame`, lines 219-224. -/
structure Frame (V : Type) where
  parent : Option V
  item : Item V
  indents : List Glyph
  islast : Bool
  vertical : Bool

/-- A line of the text: a vertical edge (line 404), or a node or an ellipsis with the other parents that
are written to the right of it (line 406). -/
inductive Line (V : Type) where
  | edge (pre : List Glyph)
  | entry (pre : List Glyph) (item : Item V) (others : List V)

/-- `max_depth` and `vertical_chains`. -/
structure Options where
  maxDepth : Option Int
  vertical : Bool

/-- The variables of the loop: the stack (its end is the head), `seen_nodes`, and the parents of the
skipped nodes, one entry for each time `num_skipped_children[parent]` is increased. -/
structure State (V : Type) where
  stack : List (Frame V)
  skips : List (Option V)
  seen : List V

/-- Lines 303-325: `this_prefix`, `next_prefix` and `this_vertical`. -/
def prefixes (f : Frame V) : List Glyph × List Glyph × Bool :=
  if f.indents.isEmpty then
    if f.islast then (f.indents ++ [.newtreeLast], f.indents ++ [.endofForest], false)
    else (f.indents ++ [.newtreeMid], f.indents ++ [.withinForest], f.vertical)
  else if f.vertical then (f.indents, f.indents, f.vertical)
  else if f.islast then (f.indents ++ [.last], f.indents ++ [.endofForest], f.vertical)
  else (f.indents ++ [.mid], f.indents ++ [.withinTree], f.vertical)

/-- Lines 337-382: the children to push and the other parents.  `seen` contains the node. -/
def expand (g : Graph V) (o : Options) (seen : List V) (f : Frame V) (v : V) : List (Item V) × List V :=
  let kids := if g.directed then g.succ v else (g.succ v).filter (fun c => decide (c ∉ seen))
  let cut := decide (o.maxDepth = some ((f.indents.length : Int) + 1)) || g.collapse v
  let children := if cut && !kids.isEmpty then [Item.dots] else kids.map Item.node
  let handled := fun p => decide (f.parent = some p) || (!g.directed && !cut && decide (p ∈ kids))
  (children, (g.pred v).filter (fun p => !handled p))

/-- Lines 408-417: `next_is_vertical`. -/
def nextVertical (g : Graph V) (o : Options) (parent : Option V) (children : List (Item V)) : Bool :=
  if o.vertical then
    if g.directed then decide (children.dedup.length = 1)
    else decide ((children.dedup.filter (fun c => decide (parent.map Item.node ≠ some c))).length = 1)
  else false

/-- Lines 421-426: the frames of the children, the first one on top. -/
def frames (parent : Option V) (next : List Glyph) (vert : Bool) : List (Item V) → List (Frame V)
  | [] => []
  | c :: cs => ⟨parent, c, next, cs.isEmpty, vert⟩ :: frames parent next vert cs

/-- Lines 280-286: `num_skipped_children` after the frame is popped. -/
def skipsAfter (s : State V) (f : Frame V) (v : V) : List (Option V) :=
  if v ∈ s.seen then f.parent :: s.skips else s.skips

/-- One round of the loop, lines 271-426; `none` at its end. -/
def step (g : Graph V) (o : Options) (s : State V) : Py (Option (List (Line V) × State V)) :=
  match s.stack with
  | [] => .ok none
  | f :: rest =>
    let pre := prefixes f
    match f.item with
    | .dots =>
      .ok (some ((if pre.2.2 then [.edge pre.1] else []) ++ [.entry pre.1 .dots []],
        { s with stack := rest }))
    | .node v =>
      let skips := skipsAfter s f v
      if f.islast = true ∧ f.parent ∈ skips ∧ f.parent ≠ none then
        .ok (some ([], { s with
          stack := { f with islast := false } :: ⟨some v, .dots, f.indents, true, false⟩ :: rest
          skips := skips }))
      else if v ∈ s.seen then .ok (some ([], { s with stack := rest, skips := skips }))
      else if v ∉ g.nodes then .error .keyError
      else
        let seen := v :: s.seen
        let ex := expand g o seen f v
        .ok (some ((if pre.2.2 then [.edge pre.1] else []) ++ [.entry pre.1 (.node v) ex.2],
          { stack := frames (some v) pre.2.1 (nextVertical g o f.parent ex.1) ex.1 ++ rest
            skips := skips
            seen := seen }))

/-- How often a frame can be handled. -/
def Frame.weight (f : Frame V) : Nat :=
  match f.item with
  | .dots => 1
  | .node _ => if f.islast then 3 else 1

def unseen (g : Graph V) (seen : List V) : Nat := (g.nodes.filter (fun v => decide (v ∉ seen))).length

theorem unseen_lt (g : Graph V) (seen : List V) (v : V) (hv : v ∈ g.nodes) (hs : v ∉ seen) :
    unseen g (v :: seen) < unseen g seen := by
  unfold unseen
  have : ∀ l : List V, v ∈ l → (l.filter (fun w => decide (w ∉ v :: seen))).length <
      (l.filter (fun w => decide (w ∉ seen))).length := by
    intro l
    have le : ∀ l : List V, (l.filter (fun w => decide (w ∉ v :: seen))).length ≤
        (l.filter (fun w => decide (w ∉ seen))).length := by
      intro l
      refine (List.monotone_filter_right l ?_).length_le
      intro a ha
      simp only [List.mem_cons, not_or, decide_eq_true_eq] at ha ⊢
      exact ha.2
    induction l with
    | nil => intro h; cases h
    | cons a l ih =>
      intro h
      by_cases ha : a = v
      · subst ha
        rw [List.filter_cons_of_neg (by simp), List.filter_cons_of_pos (by simpa using hs), List.length_cons]
        exact Nat.lt_succ_of_le (le l)
      · have hl : v ∈ l := by
          rcases List.mem_cons.1 h with h | h
          · exact absurd h.symm ha
          · exact h
        by_cases hb : a ∈ seen
        · rw [List.filter_cons_of_neg (by simp [hb]), List.filter_cons_of_neg (by simp [hb])]
          exact ih hl
        · rw [List.filter_cons_of_pos (by simp [hb, ha]), List.filter_cons_of_pos (by simp [hb])]
          simpa using ih hl
  exact this g.nodes hv

def State.weight (s : State V) : Nat := (s.stack.map Frame.weight).sum

theorem step_lt {g : Graph V} {o : Options} {s s' : State V} {ls : List (Line V)}
    (h : step g o s = .ok (some (ls, s'))) :
    unseen g s'.seen < unseen g s.seen ∨ s'.seen = s.seen ∧ s'.weight < s.weight := by
  unfold step at h
  split at h
  · cases h
  · rename_i f rest hst
    have hw : s.weight = f.weight + (rest.map Frame.weight).sum := by simp [State.weight, hst]
    split at h
    · rename_i hi
      cases h
      refine .inr ⟨rfl, ?_⟩
      rw [hw]
      simp only [State.weight, Frame.weight, hi]
      omega
    · rename_i v hi
      simp only at h
      split at h
      · rename_i hc
        cases h
        refine .inr ⟨rfl, ?_⟩
        rw [hw]
        simp only [State.weight, List.map_cons, List.sum_cons, Frame.weight, hi, hc.1]
        simp only [Bool.false_eq_true, if_false, if_true]
        omega
      · split at h
        · cases h
          refine .inr ⟨rfl, ?_⟩
          rw [hw]
          simp only [State.weight, Frame.weight, hi]
          split <;> omega
        · split at h
          · cases h
          · rename_i hs hn
            cases h
            exact .inl (unseen_lt g s.seen v (by simpa using hn) hs)

/-- The loop, lines 270-426. -/
def loop (g : Graph V) (o : Options) (s : State V) : Py (List (Line V)) :=
  match h : step g o s with
  | .error e => .error e
  | .ok none => .ok []
  | .ok (some (ls, s')) =>
    match loop g o s' with
    | .error e => .error e
    | .ok r => .ok (ls ++ r)
termination_by (unseen g s.seen, s.weight)
decreasing_by
  rcases step_lt h with h | ⟨h1, h2⟩
  · exact Prod.Lex.left _ _ h
  · rw [h1]; exact Prod.Lex.right _ h2

/-- The stack at the beginning, lines 262-266. -/
def start : List V → List (Frame V)
  | [] => []
  | v :: vs => ⟨none, .node v, [], vs.isEmpty, false⟩ :: start vs

/-- `generate_network_text(graph, sources=..., ...)`, lines 76-426; `none` for the single line without a
node (lines 247 and 249). -/
def generate (g : Graph V) (o : Options) (sources : List V) : Py (Option (List (Line V))) :=
  if o.maxDepth = some 0 then .ok none
  else if g.nodes.isEmpty then .ok none
  else
    match loop g o ⟨start sources, [], []⟩ with
    | .error e => .error e
    | .ok ls => .ok (some ls)

/-- `min(vs, key=key)`, the first of the smallest ones. -/
def minBy (key : V → Nat) (a : V) : List V → V
  | [] => a
  | b :: bs => if key b < key a then minBy key b bs else minBy key a bs

/-- `min` of a list, `ValueError` when it is empty. -/
def minOf (key : V → Nat) : List V → Py V
  | [] => .error .valueError
  | a :: as => .ok (minBy key a as)

/-- `graph.in_degree[v]`. -/
def Graph.inDegree (g : Graph V) (v : V) : Nat := (g.pred v).length

/-- `graph.degree[v]`, which counts a loop twice. -/
def Graph.degree (g : Graph V) (v : V) : Nat := (g.succ v).length + if v ∈ g.succ v then 1 else 0

/-- Inserting into a list sorted by `key`, before the larger ones. -/
def insertBy (key : V → Nat) (a : V) : List V → List V
  | [] => [a]
  | b :: bs => if key a < key b then a :: b :: bs else b :: insertBy key a bs

/-- `sorted(vs, key=key)`, which is stable. -/
def sortBy (key : V → Nat) (vs : List V) : List V := vs.foldl (fun acc v => insertBy key v acc) []

def minAll (key : V → Nat) : List (List V) → Py (List V)
  | [] => .ok []
  | c :: cs =>
    match minOf key c with
    | .error e => .error e
    | .ok v =>
      match minAll key cs with
      | .error e => .error e
      | .ok vs => .ok (v :: vs)

/-- `_find_sources`, lines 617-651.  `comps` is what networkx returns: for a directed graph the strongly
connected components, for an undirected graph the connected components.  The in-degree of a component in
`nx.condensation` is 0 when no edge enters it from outside. -/
def findSources (g : Graph V) (comps : List (List V)) : Py (List V) :=
  if g.directed then
    minAll g.inDegree ((comps.filter (fun c =>
      c.all (fun v => (g.pred v).all (fun p => decide (p ∈ c))))).map
        (fun c => g.nodes.filter (fun v => decide (v ∈ c))))
  else
    match minAll g.degree comps with
    | .error e => .error e
    | .ok vs => .ok (sortBy g.degree vs)

end NetText
end Verif
