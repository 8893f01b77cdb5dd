/-
Reading the lines of `generate_network_text` back, and an invariant of its loop.
-/
import Verif.NetText
import Mathlib.Data.List.Dedup
import Mathlib.Logic.Relation

namespace Verif
namespace NetText

variable {V : Type} [DecidableEq V]

/-! ### How a reader understands the lines -/

/-- One line as the reader understands it: what it hangs below, what is on it, and the nodes listed to the
right of it. -/
structure Entry (V : Type) where
  parent : Option V
  item : Item V
  others : List V

/-- The nodes above the current line, outermost first; whether the previous line was a vertical edge; and
the lines read so far, the newest first. -/
structure Reader (V : Type) where
  path : List V
  vert : Bool
  out : List (Entry V)

/-- Below a vertical edge the line hangs below the node before the edge; otherwise a line hangs below the
last node that is indented by one level less. -/
def Reader.read (r : Reader V) : Line V → Reader V
  | .edge _ => { r with vert := true }
  | .entry pre item others =>
    let parent := if r.vert then r.path[pre.length - 1]?
      else if pre.length ≤ 1 then none else r.path[pre.length - 2]?
    { path := match item with
        | .dots => r.path
        | .node v => r.path.take (pre.length - 1) ++ [v]
      vert := false
      out := ⟨parent, item, others⟩ :: r.out }

def Reader.init : Reader V := ⟨[], false, []⟩

/-- The lines as a reader understands them, in their order. -/
def readAll (ls : List (Line V)) : List (Entry V) := (ls.foldl Reader.read Reader.init).out.reverse

def Item.toOption : Item V → Option V
  | .node v => some v
  | .dots => none

/-- The nodes of a list of entries. -/
def nodesOf (es : List (Entry V)) : List V := es.filterMap (fun e => e.item.toOption)

/-- The nodes that have a line. -/
def shown (ls : List (Line V)) : List V :=
  ls.filterMap (fun l => match l with
    | .edge _ => none
    | .entry _ i _ => i.toOption)

theorem nodesOf_fold (ls : List (Line V)) (r : Reader V) :
    nodesOf (ls.foldl Reader.read r).out = (shown ls).reverse ++ nodesOf r.out := by
  induction ls generalizing r with
  | nil => rfl
  | cons l ls ih =>
    rw [List.foldl_cons, ih]
    cases l with
    | edge p => simp [Reader.read, shown]
    | entry p i o =>
      cases i with
      | dots => simp [Reader.read, shown, nodesOf, Item.toOption]
      | node v => simp [Reader.read, shown, nodesOf, Item.toOption]

/-! ### The invariant -/

/-- What networkx guarantees. -/
structure Valid (g : Graph V) : Prop where
  nodupSucc : ∀ v, (g.succ v).Nodup
  nodupPred : ∀ v, (g.pred v).Nodup
  mem : ∀ v c, c ∈ g.succ v → c ∈ g.nodes
  memPred : ∀ u v, u ∈ g.pred v → u ∈ g.nodes
  pred : ∀ u v, u ∈ g.pred v ↔ v ∈ g.succ u
  sym : g.directed = false → ∀ v, g.pred v = g.succ v

/-- What the reader takes as the parent of the line of a frame. -/
def Frame.above (path : List V) (f : Frame V) : Option V :=
  if f.indents = [] then none else path[f.indents.length - 1]?

/-- The number of nodes above the line that stay on the path. -/
def Frame.keep (f : Frame V) : Nat := if f.vertical then f.indents.length - 1 else f.indents.length

/-- The line of a frame. -/
def emit (f : Frame V) (others : List V) : List (Line V) :=
  (if (prefixes f).2.2 then [Line.edge (prefixes f).1] else []) ++ [.entry (prefixes f).1 f.item others]

theorem read_emit (r : Reader V) (f : Frame V) (others : List V) (hr : r.vert = false)
    (hv : f.indents = [] → f.vertical = false) :
    (emit f others).foldl Reader.read r =
      { path := match f.item with
          | .dots => r.path
          | .node v => r.path.take f.keep ++ [v]
        vert := false
        out := ⟨f.above r.path, f.item, others⟩ :: r.out } := by
  obtain ⟨par, item, ind, lst, ver⟩ := f
  by_cases hi : ind = []
  · subst hi
    have : ver = false := hv rfl
    subst this
    cases lst <;> simp [emit, prefixes, Reader.read, hr, Frame.above, Frame.keep]
  · cases ver with
    | true =>
      simp [emit, prefixes, Reader.read, Frame.above, Frame.keep, hi]
    | false =>
      have hl : 0 < ind.length := List.length_pos_of_ne_nil hi
      have h1 : ¬ (ind.length + 1 ≤ 1) := by omega
      have h2 : ind.length + 1 - 2 = ind.length - 1 := by omega
      cases lst <;> simp [emit, prefixes, Reader.read, hr, Frame.above, Frame.keep, hi, h2]

theorem next_length (f : Frame V) (hv : f.indents = [] → f.vertical = false) :
    (prefixes f).2.1.length = f.keep + 1 := by
  obtain ⟨par, item, ind, lst, ver⟩ := f
  by_cases hi : ind = []
  · subst hi
    have : ver = false := hv rfl
    subst this
    cases lst <;> simp [prefixes, Frame.keep]
  · have hl : 0 < ind.length := List.length_pos_of_ne_nil hi
    cases ver with
    | true => simp [prefixes, Frame.keep, hi]; omega
    | false => cases lst <;> simp [prefixes, Frame.keep, hi]

/-- Two frames on the stack, the first above the second. -/
structure Apart (f f' : Frame V) : Prop where
  le : f'.indents.length ≤ f.indents.length
  lt : f.vertical = true → f.islast = true → (∃ v, f.item = .node v) →
    f'.indents.length < f.indents.length
  ne : (∃ v, f.item = .node v) → (∃ v, f'.item = .node v) → f.parent = f'.parent → f.parent ≠ none →
    f.item ≠ f'.item ∧ f.vertical = false ∧ f'.vertical = false ∧ f.islast = false

/-- Frames on the stack. -/
structure FrameOk (g : Graph V) (src : List V) (path : List V) (skips : List (Option V)) (seen : List V)
    (out : List (Entry V)) (f : Frame V) : Prop where
  vert : f.indents = [] → f.vertical = false
  dots : f.item = .dots → f.indents ≠ [] ∧ f.vertical = false ∧
    ∃ p, f.above path = some p ∧ some p ∈ skips
  root : ∀ v, f.item = .node v → f.parent = none → f.indents = [] ∧ v ∈ src
  child : ∀ v p, f.item = .node v → f.parent = some p → f.above path = some p ∧ f.indents ≠ [] ∧
    v ∈ g.succ p ∧ p ∈ seen ∧ (∀ e ∈ out, e.item = .node v → e.parent ≠ some p) ∧
    (g.directed = false → v ∉ seen.dropWhile (fun x => decide (x ≠ p)))
  redo : ∀ v, f.item = .node v → f.vertical = true → f.islast = false → v ∈ seen
  fresh : ∀ v p, f.item = .node v → f.vertical = true → f.islast = true → f.parent = some p → some p ∉ skips

/-- What a line says, given the nodes that are on the lines above it. -/
def EntryOk (g : Graph V) (src : List V) (e : Entry V) (older : List V) : Prop :=
  match e.item with
  | .dots => e.others = [] ∧ e.parent ≠ none
  | .node v =>
    v ∉ older ∧ v ∈ g.nodes ∧
    (∀ p, e.parent = some p → p ∈ older ∧ v ∈ g.succ p) ∧ (e.parent = none → v ∈ src) ∧
    e.others = (g.pred v).filter
      (fun q => decide (e.parent ≠ some q) && (g.directed || decide (q ∈ v :: older)))

def HistOk (g : Graph V) (src : List V) : List (Entry V) → Prop
  | [] => True
  | e :: es => EntryOk g src e (nodesOf es) ∧ HistOk g src es

/-- Something is still going to draw an ellipsis below `p`, or there is one. -/
def Pend (path : List V) (stack : List (Frame V)) (out : List (Entry V)) (p : V) : Prop :=
  (∃ f ∈ stack, ((∃ v, f.item = .node v) ∧ f.islast = true ∧ f.parent = some p) ∨
    (f.item = .dots ∧ f.above path = some p)) ∨ ∃ e ∈ out, e.item = .dots ∧ e.parent = some p

structure Inv (g : Graph V) (src : List V) (r : Reader V) (s : State V) : Prop where
  vert : r.vert = false
  seen : s.seen = nodesOf r.out
  hist : HistOk g src r.out
  apart : s.stack.Pairwise Apart
  frame : ∀ f ∈ s.stack, FrameOk g src r.path s.skips s.seen r.out f
  long : ∀ f ∈ s.stack, f.indents.length ≤ r.path.length
  srcs : ∀ v ∈ src, v ∈ s.seen ∨ ∃ f ∈ s.stack, f.item = .node v
  cover : ∀ p ∈ s.seen, ∀ c ∈ g.succ p,
    (∃ f ∈ s.stack, f.item = .node c ∧ f.parent = some p) ∨
    (∃ e ∈ r.out, e.item = .node c ∧ e.parent = some p) ∨ (some p ∈ s.skips ∧ c ∈ s.seen) ∨
    (g.directed = false ∧ c ∈ s.seen.dropWhile (fun x => decide (x ≠ p)))
  skipSeen : ∀ p, some p ∈ s.skips → p ∈ s.seen ∧
    ∃ c ∈ g.succ p, ∃ e ∈ r.out, e.item = .node c ∧ e.parent ≠ some p ∧
      (g.directed = false → c ∉ s.seen.dropWhile (fun x => decide (x ≠ p)))
  pend : ∀ p, some p ∈ s.skips → Pend r.path s.stack r.out p
  wait : ∀ f ∈ s.stack, ∀ p, (∃ v, f.item = .node v) → f.islast = false → f.parent = some p →
    Pend r.path s.stack r.out p
  drawn : ∀ e ∈ r.out, e.item = .dots → ∃ p, e.parent = some p ∧ some p ∈ s.skips

theorem Pend.tail {path : List V} {f : Frame V} {rest : List (Frame V)} {out : List (Entry V)} {p : V}
    (h : Pend path (f :: rest) out p) (hf : ∃ v, f.item = .node v)
    (h' : f.islast = true → f.parent ≠ some p) : Pend path rest out p := by
  rcases h with ⟨f', hm, hf'⟩ | h
  · rcases List.mem_cons.1 hm with rfl | hm
    · rcases hf' with ⟨_, h1, h2⟩ | ⟨h1, _⟩
      · exact absurd h2 (h' h1)
      · obtain ⟨v, hv⟩ := hf
        rw [hv] at h1; cases h1
    · exact .inl ⟨f', hm, hf'⟩
  · exact .inr h

theorem mem_nodesOf {es : List (Entry V)} {v : V} : v ∈ nodesOf es ↔ ∃ e ∈ es, e.item = .node v := by
  unfold nodesOf
  rw [List.mem_filterMap]
  constructor
  · rintro ⟨e, he, h⟩
    refine ⟨e, he, ?_⟩
    cases hi : e.item with
    | dots => rw [hi] at h; cases h
    | node w => rw [hi] at h; cases h; rfl
  · rintro ⟨e, he, h⟩
    exact ⟨e, he, by rw [h]; rfl⟩

theorem FrameOk.skip {g : Graph V} {src path : List V} {skips : List (Option V)} {seen : List V}
    {out : List (Entry V)} {f f' : Frame V} {v : V} (hv : f.item = .node v)
    (h : FrameOk g src path skips seen out f') (ha : Apart f f') :
    FrameOk g src path (f.parent :: skips) seen out f' where
  vert := h.vert
  dots := fun hd => by
    obtain ⟨h1, h2, p, h3, h4⟩ := h.dots hd
    exact ⟨h1, h2, p, h3, List.mem_cons_of_mem _ h4⟩
  root := h.root
  child := h.child
  redo := h.redo
  fresh := fun w p hw h1 h2 h3 => by
    intro hm
    rcases List.mem_cons.1 hm with hm | hm
    · have := (ha.ne ⟨v, hv⟩ ⟨w, hw⟩ (by rw [h3, ← hm]) (by rw [← hm]; simp)).2.2.1
      rw [h1] at this; cases this
    · exact h.fresh w p hw h1 h2 h3 hm

theorem skipSeen_new {g : Graph V} {src : List V} {r : Reader V} {s : State V} (hI : Inv g src r s)
    {f : Frame V} (hf : f ∈ s.stack) {v p : V} (hv : f.item = .node v) (hs : v ∈ s.seen)
    (hp : f.parent = some p) : p ∈ s.seen ∧
    ∃ c ∈ g.succ p, ∃ e ∈ r.out, e.item = .node c ∧ e.parent ≠ some p ∧
      (g.directed = false → c ∉ s.seen.dropWhile (fun x => decide (x ≠ p))) := by
  obtain ⟨_, _, h3, h4, h5, h6⟩ := (hI.frame f hf).child v p hv hp
  refine ⟨h4, v, h3, ?_⟩
  rw [hI.seen] at hs
  obtain ⟨e, he, hev⟩ := mem_nodesOf.1 hs
  exact ⟨e, he, hev, h5 e he hev, h6⟩

theorem inv_skip {g : Graph V} {src : List V} {r : Reader V} {s : State V} (hI : Inv g src r s)
    {f : Frame V} {rest : List (Frame V)} (hst : s.stack = f :: rest) {v : V} (hv : f.item = .node v)
    (hs : v ∈ s.seen) (hc : ¬ (f.islast = true ∧ f.parent ∈ f.parent :: s.skips ∧ f.parent ≠ none)) :
    Inv g src r ⟨rest, f.parent :: s.skips, s.seen⟩ := by
  have hmem : ∀ f' ∈ rest, f' ∈ s.stack := fun f' h => by rw [hst]; exact List.mem_cons_of_mem _ h
  have hf : f ∈ s.stack := by rw [hst]; exact List.mem_cons_self
  have hap := hI.apart
  rw [hst, List.pairwise_cons] at hap
  have hl : ∀ p, f.islast = true → f.parent ≠ some p := by
    intro p h1 h2
    exact hc ⟨h1, List.mem_cons_self, by rw [h2]; simp⟩
  have pend : ∀ p, Pend r.path s.stack r.out p → Pend r.path rest r.out p := by
    intro p h
    rw [hst] at h
    exact h.tail ⟨v, hv⟩ (hl p)
  refine ⟨hI.vert, hI.seen, hI.hist, hap.2, ?_, fun f' h => hI.long f' (hmem f' h), ?_, ?_, ?_, ?_, ?_, ?_⟩
  · intro f' h
    exact (hI.frame f' (hmem f' h)).skip hv (hap.1 f' h)
  · intro w hw
    rcases hI.srcs w hw with h | ⟨f', hf', h⟩
    · exact .inl h
    · rw [hst] at hf'
      rcases List.mem_cons.1 hf' with rfl | hf'
      · rw [hv] at h; cases h; exact .inl hs
      · exact .inr ⟨f', hf', h⟩
  · intro p hp c hcc
    rcases hI.cover p hp c hcc with ⟨f', hf', h1, h2⟩ | h | ⟨h1, h2⟩ | h
    · rw [hst] at hf'
      rcases List.mem_cons.1 hf' with rfl | hf'
      · rw [hv] at h1; cases h1
        exact .inr (.inr (.inl ⟨by rw [h2]; exact List.mem_cons_self, hs⟩))
      · exact .inl ⟨f', hf', h1, h2⟩
    · exact .inr (.inl h)
    · exact .inr (.inr (.inl ⟨List.mem_cons_of_mem _ h1, h2⟩))
    · exact .inr (.inr (.inr h))
  · intro p hp
    rcases List.mem_cons.1 hp with hp | hp
    · exact skipSeen_new hI hf hv hs hp.symm
    · exact hI.skipSeen p hp
  · intro p hp
    rcases List.mem_cons.1 hp with hp | hp
    · have h1 : f.islast = false := by
        cases h : f.islast
        · rfl
        · exact absurd hp.symm (hl p h)
      exact pend p (hI.wait f hf p ⟨v, hv⟩ h1 hp.symm)
    · exact pend p (hI.pend p hp)
  · intro f' h p h1 h2 h3
    exact pend p (hI.wait f' (hmem f' h) p h1 h2 h3)
  · intro e he h
    obtain ⟨p, h1, h2⟩ := hI.drawn e he h
    exact ⟨p, h1, List.mem_cons_of_mem _ h2⟩

theorem inv_redo {g : Graph V} {src : List V} {r : Reader V} {s : State V} (hI : Inv g src r s)
    {f : Frame V} {rest : List (Frame V)} (hst : s.stack = f :: rest) {v : V} (hv : f.item = .node v)
    (hc : f.islast = true ∧ f.parent ∈ skipsAfter s f v ∧ f.parent ≠ none) :
    Inv g src r ⟨{ f with islast := false } :: ⟨some v, .dots, f.indents, true, false⟩ :: rest,
      skipsAfter s f v, s.seen⟩ := by
  have hmem : ∀ f' ∈ rest, f' ∈ s.stack := fun f' h => by rw [hst]; exact List.mem_cons_of_mem _ h
  have hf : f ∈ s.stack := by rw [hst]; exact List.mem_cons_self
  have hap := hI.apart
  rw [hst, List.pairwise_cons] at hap
  obtain ⟨hlast, hin, hne⟩ := hc
  obtain ⟨p, hp⟩ := Option.ne_none_iff_exists'.1 hne
  have hF := hI.frame f hf
  obtain ⟨c1, c2, c3, c4, c5, c6⟩ := hF.child v p hv hp
  have mono : ∀ q, q ∈ s.skips → q ∈ skipsAfter s f v := by
    intro q hq
    unfold skipsAfter
    split
    · exact List.mem_cons_of_mem _ hq
    · exact hq
  have hD : ∀ q, q = p → Pend r.path
      ({ f with islast := false } :: ⟨some v, .dots, f.indents, true, false⟩ :: rest) r.out q := by
    rintro q rfl
    refine .inl ⟨⟨some v, .dots, f.indents, true, false⟩, by simp, .inr ⟨rfl, c1⟩⟩
  have pend : ∀ q, Pend r.path s.stack r.out q → Pend r.path
      ({ f with islast := false } :: ⟨some v, .dots, f.indents, true, false⟩ :: rest) r.out q := by
    intro q h
    rcases h with ⟨f', hm, hf'⟩ | h
    · rw [hst] at hm
      rcases List.mem_cons.1 hm with rfl | hm
      · rcases hf' with ⟨_, h1, h2⟩ | ⟨h1, _⟩
        · rw [hp] at h2; cases h2
          exact hD p rfl
        · rw [hv] at h1; cases h1
      · exact .inl ⟨f', by simp [hm], hf'⟩
    · exact .inr h
  have hskip : ∀ q, some q ∈ skipsAfter s f v → some q ∈ s.skips ∨ (v ∈ s.seen ∧ q = p) := by
    intro q hq
    unfold skipsAfter at hq
    split at hq
    · rename_i hs
      rcases List.mem_cons.1 hq with hq | hq
      · rw [hp] at hq; cases hq; exact .inr ⟨hs, rfl⟩
      · exact .inl hq
    · exact .inl hq
  refine ⟨hI.vert, hI.seen, hI.hist, ?_, ?_, ?_, ?_, ?_, ?_, ?_, ?_, ?_⟩
  · refine List.pairwise_cons.2 ⟨?_, List.pairwise_cons.2 ⟨?_, hap.2⟩⟩
    · intro f' h
      rcases List.mem_cons.1 h with rfl | h
      · exact ⟨le_refl _, fun _ h => (by cases h), fun _ ⟨_, h⟩ => (by cases h)⟩
      · have ha := hap.1 f' h
        refine ⟨ha.le, fun _ h => (by cases h), fun h1 h2 h3 h4 => ?_⟩
        have := ha.ne h1 h2 h3 h4
        exact ⟨this.1, this.2.1, this.2.2.1, rfl⟩
    · intro f' h
      have ha := hap.1 f' h
      exact ⟨ha.le, fun h => (by cases h), fun ⟨_, h⟩ => (by cases h)⟩
  · intro f' h
    rcases List.mem_cons.1 h with rfl | h
    · refine ⟨hF.vert, fun hd => ?_, hF.root, hF.child, ?_, fun _ _ _ _ h => by cases h⟩
      · rw [show ({ f with islast := false } : Frame V).item = f.item from rfl, hv] at hd; cases hd
      · intro w hw hver _
        have hw' : f.item = .node w := hw
        rw [hv] at hw'; cases hw'
        by_contra hs
        have h1 := hF.fresh v p hv hver hlast hp
        unfold skipsAfter at hin
        rw [if_neg hs, hp] at hin
        exact h1 hin
    · rcases List.mem_cons.1 h with rfl | h
      · refine ⟨fun h => absurd h c2, fun _ => ⟨c2, rfl, p, c1, ?_⟩, fun _ h => (by cases h),
          fun _ _ h => (by cases h), fun _ h => (by cases h), fun _ _ h => (by cases h)⟩
        rw [← hp]; exact hin
      · have := hI.frame f' (hmem f' h)
        unfold skipsAfter
        split
        · exact this.skip hv (hap.1 f' h)
        · exact this
  · intro f' h
    rcases List.mem_cons.1 h with rfl | h
    · exact hI.long f hf
    · rcases List.mem_cons.1 h with rfl | h
      · exact hI.long f hf
      · exact hI.long f' (hmem f' h)
  · intro w hw
    rcases hI.srcs w hw with h | ⟨f', hf', h⟩
    · exact .inl h
    · rw [hst] at hf'
      rcases List.mem_cons.1 hf' with rfl | hf'
      · exact .inr ⟨_, List.mem_cons_self, h⟩
      · exact .inr ⟨f', by simp [hf'], h⟩
  · intro q hq c hcc
    rcases hI.cover q hq c hcc with ⟨f', hf', h1, h2⟩ | h | ⟨h1, h2⟩ | h
    · rw [hst] at hf'
      rcases List.mem_cons.1 hf' with rfl | hf'
      · exact .inl ⟨_, List.mem_cons_self, h1, h2⟩
      · exact .inl ⟨f', by simp [hf'], h1, h2⟩
    · exact .inr (.inl h)
    · exact .inr (.inr (.inl ⟨mono _ h1, h2⟩))
    · exact .inr (.inr (.inr h))
  · intro q hq
    rcases hskip q hq with hq | ⟨hs, rfl⟩
    · exact hI.skipSeen q hq
    · exact skipSeen_new hI hf hv hs hp
  · intro q hq
    rcases hskip q hq with hq | ⟨hs, rfl⟩
    · exact pend q (hI.pend q hq)
    · exact hD q rfl
  · intro f' h q h1 h2 h3
    rcases List.mem_cons.1 h with rfl | h
    · have h3' : f.parent = some q := h3
      rw [hp] at h3'; cases h3'; exact hD p rfl
    · rcases List.mem_cons.1 h with rfl | h
      · cases h2
      · exact pend q (hI.wait f' (hmem f' h) q h1 h2 h3)
  · intro e he h
    obtain ⟨q, h1, h2⟩ := hI.drawn e he h
    exact ⟨q, h1, mono _ h2⟩

theorem inv_dots {g : Graph V} {src : List V} {r : Reader V} {s : State V} (hI : Inv g src r s)
    {f : Frame V} {rest : List (Frame V)} (hst : s.stack = f :: rest) (hv : f.item = .dots) :
    Inv g src ((emit f []).foldl Reader.read r) ⟨rest, s.skips, s.seen⟩ := by
  have hmem : ∀ f' ∈ rest, f' ∈ s.stack := fun f' h => by rw [hst]; exact List.mem_cons_of_mem _ h
  have hf : f ∈ s.stack := by rw [hst]; exact List.mem_cons_self
  have hap := hI.apart
  rw [hst, List.pairwise_cons] at hap
  have hF := hI.frame f hf
  obtain ⟨d1, d2, p, d3, d4⟩ := hF.dots hv
  rw [read_emit r f [] hI.vert hF.vert, hv]
  have pend : ∀ q, Pend r.path s.stack r.out q →
      Pend r.path rest (⟨f.above r.path, .dots, []⟩ :: r.out) q := by
    intro q h
    rcases h with ⟨f', hm, hf'⟩ | ⟨e, he, h⟩
    · rw [hst] at hm
      rcases List.mem_cons.1 hm with rfl | hm
      · rcases hf' with ⟨⟨w, h1⟩, _⟩ | ⟨_, h1⟩
        · rw [hv] at h1; cases h1
        · exact .inr ⟨_, List.mem_cons_self, rfl, h1⟩
      · exact .inl ⟨f', hm, hf'⟩
    · exact .inr ⟨e, List.mem_cons_of_mem _ he, h⟩
  refine ⟨rfl, ?_, ?_, hap.2, ?_, fun f' h => hI.long f' (hmem f' h), ?_, ?_, ?_, ?_, ?_, ?_⟩
  · simpa [nodesOf, Item.toOption] using hI.seen
  · exact ⟨⟨rfl, by rw [d3]; simp⟩, hI.hist⟩
  · intro f' h
    have h' := hI.frame f' (hmem f' h)
    refine ⟨h'.vert, h'.dots, h'.root, ?_, h'.redo, h'.fresh⟩
    intro w q h1 h2
    obtain ⟨c1, c2, c3, c4, c5, c6⟩ := h'.child w q h1 h2
    refine ⟨c1, c2, c3, c4, ?_, c6⟩
    intro e he h3
    rcases List.mem_cons.1 he with rfl | he
    · cases h3
    · exact c5 e he h3
  · intro w hw
    rcases hI.srcs w hw with h | ⟨f', hf', h⟩
    · exact .inl h
    · rw [hst] at hf'
      rcases List.mem_cons.1 hf' with rfl | hf'
      · rw [hv] at h; cases h
      · exact .inr ⟨f', hf', h⟩
  · intro q hq c hcc
    rcases hI.cover q hq c hcc with ⟨f', hf', h1, h2⟩ | ⟨e, he, h⟩ | h | h
    · rw [hst] at hf'
      rcases List.mem_cons.1 hf' with rfl | hf'
      · rw [hv] at h1; cases h1
      · exact .inl ⟨f', hf', h1, h2⟩
    · exact .inr (.inl ⟨e, List.mem_cons_of_mem _ he, h⟩)
    · exact .inr (.inr (.inl h))
    · exact .inr (.inr (.inr h))
  · intro q hq
    obtain ⟨h1, c, hc, e, he, h⟩ := hI.skipSeen q hq
    exact ⟨h1, c, hc, e, List.mem_cons_of_mem _ he, h⟩
  · exact fun q hq => pend q (hI.pend q hq)
  · exact fun f' h q h1 h2 h3 => pend q (hI.wait f' (hmem f' h) q h1 h2 h3)
  · intro e he h
    rcases List.mem_cons.1 he with rfl | he
    · exact ⟨p, d3, d4⟩
    · exact hI.drawn e he h

theorem mem_frames {par : Option V} {next : List Glyph} {vert : Bool} {cs : List (Item V)} {f : Frame V}
    (h : f ∈ frames par next vert cs) :
    f.parent = par ∧ f.item ∈ cs ∧ f.indents = next ∧ f.vertical = vert := by
  induction cs with
  | nil => cases h
  | cons c cs ih =>
    rcases List.mem_cons.1 h with rfl | h
    · exact ⟨rfl, List.mem_cons_self, rfl, rfl⟩
    · obtain ⟨h1, h2, h3⟩ := ih h
      exact ⟨h1, List.mem_cons_of_mem _ h2, h3⟩

theorem frames_mem (par : Option V) (next : List Glyph) (vert : Bool) {cs : List (Item V)} {c : Item V}
    (h : c ∈ cs) : ∃ f ∈ frames par next vert cs, f.item = c ∧ f.parent = par := by
  induction cs with
  | nil => cases h
  | cons a cs ih =>
    rcases List.mem_cons.1 h with rfl | h
    · exact ⟨_, List.mem_cons_self, rfl, rfl⟩
    · obtain ⟨f, h1, h2⟩ := ih h
      exact ⟨f, List.mem_cons_of_mem _ h1, h2⟩

theorem frames_last (par : Option V) (next : List Glyph) (vert : Bool) {cs : List (Item V)} (h : cs ≠ []) :
    ∃ f ∈ frames par next vert cs, f.islast = true := by
  induction cs with
  | nil => exact absurd rfl h
  | cons a cs ih =>
    cases cs with
    | nil => exact ⟨_, List.mem_cons_self, rfl⟩
    | cons b cs =>
      obtain ⟨f, h1, h2⟩ := ih (by simp)
      exact ⟨f, List.mem_cons_of_mem _ h1, h2⟩

theorem frames_apart (par : Option V) (next : List Glyph) (vert : Bool) {cs : List (Item V)} (hn : cs.Nodup)
    (hv : vert = true → cs.length ≤ 1) : (frames par next vert cs).Pairwise Apart := by
  induction cs with
  | nil => exact List.Pairwise.nil
  | cons a cs ih =>
    obtain ⟨ha, hn⟩ := List.nodup_cons.1 hn
    refine List.pairwise_cons.2 ⟨?_, ih hn (fun h => by have := hv h; simp at this; simp [this])⟩
    intro f hf
    obtain ⟨h1, h2, h3, h4⟩ := mem_frames hf
    have hcs : cs ≠ [] := by rintro rfl; cases h2
    have hver : vert = false := by
      cases vert with
      | false => rfl
      | true =>
        have := hv rfl
        simp only [List.length_cons] at this
        have : cs.length = 0 := by omega
        exact absurd (List.length_eq_zero_iff.1 this) hcs
    refine ⟨by rw [h3], fun h => ?_, fun _ _ _ _ => ⟨?_, hver, by rw [h4, hver], ?_⟩⟩
    · rw [show (Frame.mk par a next cs.isEmpty vert).vertical = vert from rfl, hver] at h; cases h
    · rintro h; apply ha; rw [show a = f.item from h]; exact h2
    · simpa using hcs

/-- The children that are pushed and the other parents, without a limit on the depth. -/
theorem expand_free {g : Graph V} {o : Options} (ho : o.maxDepth = none) (hg : ∀ v, g.collapse v = false)
    (seen : List V) (f : Frame V) (v : V) :
    expand g o seen f v =
      (((g.succ v).filter (fun c => g.directed || decide (c ∉ seen))).map Item.node,
        (g.pred v).filter (fun q => decide (f.parent ≠ some q) &&
          (g.directed || decide (q ∉ (g.succ v).filter (fun c => decide (c ∉ seen)))))) := by
  unfold expand
  simp only [ho, hg, reduceCtorEq, decide_false, Bool.or_self, Bool.false_and, Bool.false_eq_true, if_false,
    Bool.not_false, Bool.and_true]
  cases hd : g.directed <;> simp

theorem nextVertical_one {g : Graph V} {o : Options} {parent : Option V} {cs : List (Item V)}
    (hn : cs.Nodup) (hp : g.directed = false → ∀ p, parent = some p → Item.node p ∉ cs)
    (h : nextVertical g o parent cs = true) : cs.length ≤ 1 := by
  unfold nextVertical at h
  rw [List.Nodup.dedup hn] at h
  split at h
  · split at h
    · simp only [decide_eq_true_eq] at h; omega
    · rename_i hd
      have : cs.filter (fun c => decide (parent.map Item.node ≠ some c)) = cs := by
        rw [List.filter_eq_self]
        intro c hc
        simp only [ne_eq, decide_eq_true_eq]
        intro h'
        cases hpar : parent with
        | none => rw [hpar] at h'; cases h'
        | some p =>
          rw [hpar] at h'
          cases h'
          exact hp (by simpa using hd) p hpar hc
      rw [this] at h
      simp only [decide_eq_true_eq] at h; omega
  · cases h

theorem above_keep {path : List V} {k : Nat} {v : V} {f : Frame V} (hk : k ≤ path.length)
    (hf : f.indents.length ≤ k) : f.above (path.take k ++ [v]) = f.above path := by
  unfold Frame.above
  split
  · rfl
  · rename_i hi
    have hl : 0 < f.indents.length := List.length_pos_of_ne_nil hi
    rw [List.getElem?_append_left (by rw [List.length_take]; omega), List.getElem?_take, if_pos (by omega)]

theorem dropWhile_new {seen : List V} {v p : V} (hv : v ∉ seen) (hp : p ∈ seen) :
    (v :: seen).dropWhile (fun x => decide (x ≠ p)) = seen.dropWhile (fun x => decide (x ≠ p)) := by
  rw [List.dropWhile_cons_of_pos]
  simp only [ne_eq, decide_eq_true_eq]
  rintro rfl
  exact hv hp

theorem HistOk.entry {g : Graph V} {src : List V} {es : List (Entry V)} (h : HistOk g src es) {e : Entry V}
    (he : e ∈ es) : ∃ older, (∀ x ∈ older, x ∈ nodesOf es) ∧ EntryOk g src e older := by
  induction es with
  | nil => cases he
  | cons a es ih =>
    have sub : ∀ x ∈ nodesOf es, x ∈ nodesOf (a :: es) := by
      intro x hx
      rw [mem_nodesOf] at hx ⊢
      obtain ⟨e, h1, h2⟩ := hx
      exact ⟨e, List.mem_cons_of_mem _ h1, h2⟩
    rcases List.mem_cons.1 he with rfl | he
    · exact ⟨_, sub, h.1⟩
    · obtain ⟨o, h1, h2⟩ := ih h.2 he
      exact ⟨o, fun x hx => sub x (h1 x hx), h2⟩

theorem inv_print {g : Graph V} {src : List V} {o : Options} (hg : Valid g) (ho : o.maxDepth = none)
    (hcol : ∀ v, g.collapse v = false) {r : Reader V} {s : State V} (hI : Inv g src r s)
    {f : Frame V} {rest : List (Frame V)} (hst : s.stack = f :: rest) {v : V} (hv : f.item = .node v)
    (hs : v ∉ s.seen) (hn : v ∈ g.nodes)
    (hc : ¬ (f.islast = true ∧ f.parent ∈ s.skips ∧ f.parent ≠ none)) :
    Inv g src ((emit f (expand g o (v :: s.seen) f v).2).foldl Reader.read r)
      ⟨frames (some v) (prefixes f).2.1
          (nextVertical g o f.parent (expand g o (v :: s.seen) f v).1) (expand g o (v :: s.seen) f v).1 ++ rest,
        s.skips, v :: s.seen⟩ := by
  have hmem : ∀ f' ∈ rest, f' ∈ s.stack := fun f' h => by rw [hst]; exact List.mem_cons_of_mem _ h
  have hf : f ∈ s.stack := by rw [hst]; exact List.mem_cons_self
  have hap := hI.apart
  rw [hst, List.pairwise_cons] at hap
  have hF := hI.frame f hf
  rw [read_emit r f _ hI.vert hF.vert, hv, expand_free ho hcol]
  -- the children
  generalize hkids : ((g.succ v).filter (fun c => g.directed || decide (c ∉ v :: s.seen))) = kids
  have hkid : ∀ c, c ∈ kids ↔ c ∈ g.succ v ∧ (g.directed = false → c ∉ v :: s.seen) := by
    intro c
    rw [← hkids, List.mem_filter]
    cases g.directed <;> simp
  have hnk : (kids.map Item.node).Nodup := by
    refine List.Nodup.map (fun a b h => by cases h; rfl) ?_
    rw [← hkids]
    exact (hg.nodupSucc v).filter _
  have habove : f.above r.path = f.parent := by
    cases hp : f.parent with
    | none => unfold Frame.above; rw [if_pos (hF.root v hv hp).1]
    | some p => exact (hF.child v p hv hp).1
  have hparSeen : ∀ p, f.parent = some p → p ∈ s.seen := fun p hp => (hF.child v p hv hp).2.2.2.1
  have hver : nextVertical g o f.parent (kids.map Item.node) = true → (kids.map Item.node).length ≤ 1 := by
    refine nextVertical_one hnk ?_
    intro hd p hp hm
    obtain ⟨c, hc, h⟩ := List.mem_map.1 hm
    cases h
    exact ((hkid p).1 hc).2 hd (List.mem_cons_of_mem _ (hparSeen p hp))
  simp only
  generalize nextVertical g o f.parent (kids.map Item.node) = nv at hver ⊢
  have hnext : (prefixes f).2.1.length = f.keep + 1 := next_length f hF.vert
  generalize (prefixes f).2.1 = next at hnext ⊢
  have hlong : f.keep ≤ r.path.length := by
    have := hI.long f hf
    unfold Frame.keep
    split <;> omega
  -- frames below are not moved
  have hbelow : ∀ f' ∈ rest, f'.indents.length ≤ f.keep := by
    intro f' h
    have ha := hap.1 f' h
    unfold Frame.keep
    split
    · rename_i hvt
      have hl : f.islast = true := by
        cases hl : f.islast with
        | true => rfl
        | false => exact absurd (hF.redo v hv hvt hl) hs
      have := ha.lt hvt hl ⟨v, hv⟩
      omega
    · exact ha.le
  have habv : ∀ f' ∈ rest, f'.above (r.path.take f.keep ++ [v]) = f'.above r.path :=
    fun f' h => above_keep hlong (hbelow f' h)
  have hnew : next ≠ [] := by rintro rfl; simp at hnext
  have habvn : ∀ f' ∈ frames (some v) next nv (kids.map Item.node),
      f'.above (r.path.take f.keep ++ [v]) = some v := by
    intro f' h
    obtain ⟨-, -, h3, -⟩ := mem_frames h
    unfold Frame.above
    rw [h3, if_neg hnew, hnext, List.getElem?_append_right (by rw [List.length_take]; omega), List.length_take]
    have : f.keep + 1 - 1 - min f.keep r.path.length = 0 := by omega
    rw [this]; rfl
  have hchildNode : ∀ f' ∈ frames (some v) next nv (kids.map Item.node), ∃ c ∈ kids, f'.item = .node c := by
    intro f' h
    obtain ⟨-, h2, -⟩ := mem_frames h
    obtain ⟨c, hc, h⟩ := List.mem_map.1 h2
    exact ⟨c, hc, h.symm⟩
  have hvskip : some v ∉ s.skips := fun h => hs (hI.skipSeen v h).1
  have hvpar : ∀ f' ∈ rest, ∀ w, f'.item = .node w → f'.parent ≠ some v := by
    intro f' h w hw hp
    exact hs ((hI.frame f' (hmem f' h)).child w v hw hp).2.2.2.1
  have hvout : ∀ e ∈ r.out, e.parent ≠ some v := by
    intro e he hp
    cases hi : e.item with
    | dots =>
      obtain ⟨p, h1, h2⟩ := hI.drawn e he hi
      rw [hp] at h1; cases h1
      exact hvskip h2
    | node w =>
      obtain ⟨older, h1, h2⟩ := hI.hist.entry he
      unfold EntryOk at h2
      rw [hi] at h2
      have := h1 v (h2.2.2.1 v hp).1
      rw [← hI.seen] at this
      exact hs this
  have pend : ∀ p, (f.islast = true → f.parent ≠ some p) → Pend r.path s.stack r.out p →
      ∀ es, Pend (r.path.take f.keep ++ [v])
        (frames (some v) next nv (kids.map Item.node) ++ rest)
        (⟨f.above r.path, .node v, es⟩ :: r.out) p := by
    intro p hl h es
    rw [hst] at h
    rcases h.tail ⟨v, hv⟩ hl with ⟨f', hm, h⟩ | ⟨e, he, h⟩
    · refine .inl ⟨f', List.mem_append_right _ hm, ?_⟩
      rw [habv f' hm]; exact h
    · exact .inr ⟨e, List.mem_cons_of_mem _ he, h⟩
  refine ⟨rfl, ?_, ?_, ?_, ?_, ?_, ?_, ?_, ?_, ?_, ?_, ?_⟩
  · simp [nodesOf, Item.toOption, hI.seen]
  · refine ⟨?_, hI.hist⟩
    refine ⟨by rw [← hI.seen]; exact hs, hn, ?_, ?_, ?_⟩
    · intro p hp
      have hp' : f.parent = some p := by rw [← habove]; exact hp
      obtain ⟨-, -, c3, c4, -⟩ := hF.child v p hv hp'
      exact ⟨by rw [← hI.seen]; exact c4, c3⟩
    · intro hp
      have hp' : f.parent = none := by rw [← habove]; exact hp
      exact (hF.root v hv hp').2
    · simp only
      rw [habove, ← hI.seen]
      refine List.filter_congr ?_
      intro q hq
      cases hd : g.directed with
      | true => simp
      | false =>
        have hq' : q ∈ g.succ v := by rw [← hg.sym hd]; exact hq
        simp only [Bool.false_or, List.mem_filter, hq', true_and, decide_not, decide_eq_true_eq]
        simp
  · refine List.pairwise_append.2 ⟨frames_apart _ _ _ hnk hver, hap.2, ?_⟩
    intro f1 h1 f2 h2
    have hb := hbelow f2 h2
    obtain ⟨m1, m2, m3, m4⟩ := mem_frames h1
    refine ⟨by rw [m3, hnext]; omega, fun _ _ _ => by rw [m3, hnext]; omega, ?_⟩
    rintro - ⟨w, hw⟩ h3 -
    exact absurd (by rw [← h3, m1]) (hvpar f2 h2 w hw)
  · intro f' h
    rcases List.mem_append.1 h with h | h
    · obtain ⟨m1, m2, m3, m4⟩ := mem_frames h
      obtain ⟨c, hck, hci⟩ := hchildNode f' h
      have hc' := (hkid c).1 hck
      refine ⟨fun h => absurd (m3 ▸ h) hnew, fun h => ?_, fun w hw hp => ?_, fun w p hw hp => ?_,
        fun w hw hvt hl => ?_, fun w p hw hvt hl hp => ?_⟩
      · rw [hci] at h; cases h
      · rw [m1] at hp; cases hp
      · rw [m1] at hp; cases hp
        rw [hci] at hw; cases hw
        refine ⟨habvn f' h, m3 ▸ hnew, hc'.1, List.mem_cons_self, ?_, ?_⟩
        · intro e he hei
          rcases List.mem_cons.1 he with rfl | he
          · simp only; rw [habove]; intro hp
            exact hs (hparSeen v hp)
          · exact hvout e he
        · intro hd
          rw [List.dropWhile_cons_of_neg (by simp)]
          exact hc'.2 hd
      · rw [m4] at hvt
        have hle := hver hvt
        have hkl : kids.map Item.node = [Item.node c] := by
          have hm : Item.node c ∈ kids.map Item.node := List.mem_map_of_mem hck
          match hk : kids.map Item.node, hm, hle with
          | [a], hm, _ => rw [List.mem_singleton] at hm; rw [hm]
        rw [hkl] at h
        simp only [frames, List.mem_singleton] at h
        rw [h] at hl
        cases hl
      · rw [m1] at hp; cases hp; exact hvskip
    · have h' := hI.frame f' (hmem f' h)
      refine ⟨h'.vert, fun hd => ?_, h'.root, fun w p hw hp => ?_, fun w h1 h2 h3 =>
        List.mem_cons_of_mem _ (h'.redo w h1 h2 h3), h'.fresh⟩
      · simp only
        rw [habv f' h]; exact h'.dots hd
      · obtain ⟨c1, c2, c3, c4, c5, c6⟩ := h'.child w p hw hp
        refine ⟨by simp only; rw [habv f' h]; exact c1, c2, c3, List.mem_cons_of_mem _ c4, ?_, ?_⟩
        · intro e he hei
          rcases List.mem_cons.1 he with rfl | he
          · simp only at hei ⊢
            cases hei
            rw [habove]
            intro hp'
            exact ((hap.1 f' h).ne ⟨v, hv⟩ ⟨v, hw⟩ (by rw [hp', hp]) (by rw [hp']; simp)).1 (by rw [hv, hw])
          · exact c5 e he hei
        · intro hd
          rw [dropWhile_new hs c4]
          exact c6 hd
  · intro f' h
    simp only [List.length_append, List.length_take, List.length_singleton]
    rcases List.mem_append.1 h with h | h
    · rw [(mem_frames h).2.2.1, hnext]; omega
    · have := hbelow f' h; omega
  · intro w hw
    rcases hI.srcs w hw with h | ⟨f', hf', h⟩
    · exact .inl (List.mem_cons_of_mem _ h)
    · rw [hst] at hf'
      rcases List.mem_cons.1 hf' with rfl | hf'
      · rw [hv] at h; cases h; exact .inl List.mem_cons_self
      · exact .inr ⟨f', List.mem_append_right _ hf', h⟩
  · intro p hp c hcc
    rcases List.mem_cons.1 hp with rfl | hp
    · by_cases hk : c ∈ kids
      · obtain ⟨f', h1, h2, h3⟩ := frames_mem (some p) next nv (List.mem_map_of_mem (f := Item.node) hk)
        exact .inl ⟨f', List.mem_append_left _ h1, h2, h3⟩
      · refine .inr (.inr (.inr ?_))
        rw [hkid, not_and, Classical.not_imp] at hk
        obtain ⟨hd, hk⟩ := hk hcc
        refine ⟨hd, ?_⟩
        simp only
        rw [List.dropWhile_cons_of_neg (by simp)]
        exact not_not.1 hk
    · rcases hI.cover p hp c hcc with ⟨f', hf', h1, h2⟩ | ⟨e, he, h⟩ | ⟨h1, h2⟩ | ⟨h1, h2⟩
      · rw [hst] at hf'
        rcases List.mem_cons.1 hf' with rfl | hf'
        · rw [hv] at h1; cases h1
          exact .inr (.inl ⟨_, List.mem_cons_self, rfl, by simp only; rw [habove, h2]⟩)
        · exact .inl ⟨f', List.mem_append_right _ hf', h1, h2⟩
      · exact .inr (.inl ⟨e, List.mem_cons_of_mem _ he, h⟩)
      · exact .inr (.inr (.inl ⟨h1, List.mem_cons_of_mem _ h2⟩))
      · refine .inr (.inr (.inr ⟨h1, ?_⟩))
        simp only
        rw [dropWhile_new hs hp]; exact h2
  · intro p hp
    obtain ⟨h1, c, hc, e, he, h2, h3, h4⟩ := hI.skipSeen p hp
    refine ⟨List.mem_cons_of_mem _ h1, c, hc, e, List.mem_cons_of_mem _ he, h2, h3, ?_⟩
    simp only
    rw [dropWhile_new hs h1]; exact h4
  · intro p hp
    refine pend p ?_ (hI.pend p hp) _
    intro h1 h2
    exact hc ⟨h1, by rw [h2]; exact hp, by rw [h2]; simp⟩
  · intro f' h p h1 h2 h3
    rcases List.mem_append.1 h with h | h
    · obtain ⟨m1, m2, -⟩ := mem_frames h
      rw [m1] at h3; cases h3
      obtain ⟨fl, hl1, hl2⟩ := frames_last (some v) next nv (cs := kids.map Item.node)
        (by intro h; rw [h] at m2; cases m2)
      obtain ⟨c, -, hci⟩ := hchildNode fl hl1
      exact .inl ⟨fl, List.mem_append_left _ hl1, .inl ⟨⟨c, hci⟩, hl2, (mem_frames hl1).1⟩⟩
    · refine pend p ?_ (hI.wait f' (hmem f' h) p h1 h2 h3) _
      intro hl hp
      have := ((hap.1 f' h).ne ⟨v, hv⟩ h1 (by rw [hp, h3]) (by rw [hp]; simp)).2.2.2
      rw [hl] at this; cases this
  · intro e he h
    rcases List.mem_cons.1 he with rfl | he
    · cases h
    · exact hI.drawn e he h

theorem step_inv {g : Graph V} {src : List V} {o : Options} (hg : Valid g) (ho : o.maxDepth = none)
    (hcol : ∀ v, g.collapse v = false) {r : Reader V} {s s' : State V} {ls : List (Line V)}
    (hI : Inv g src r s) (h : step g o s = .ok (some (ls, s'))) :
    Inv g src (ls.foldl Reader.read r) s' := by
  unfold step at h
  split at h
  · cases h
  · rename_i f rest hst
    split at h
    · rename_i hi
      cases h
      have := inv_dots hI hst hi
      unfold emit at this
      rw [hi] at this
      exact this
    · rename_i v hi
      simp only at h
      split at h
      · rename_i hc
        cases h
        have := inv_redo hI hst hi hc
        exact this
      · rename_i hc
        split at h
        · rename_i hs
          cases h
          unfold skipsAfter at hc ⊢
          rw [if_pos hs] at hc ⊢
          exact inv_skip hI hst hi hs hc
        · rename_i hs
          split at h
          · cases h
          · rename_i hn
            cases h
            unfold skipsAfter at hc ⊢
            rw [if_neg hs] at hc ⊢
            have := inv_print (o := o) hg ho hcol hI hst hi hs (by simpa using hn) hc
            unfold emit at this
            rw [hi] at this
            exact this

/-- Without a missing node the loop does not fail, and at its end the stack is empty. -/
theorem loop_inv {g : Graph V} {src : List V} {o : Options} (hg : Valid g) (ho : o.maxDepth = none)
    (hcol : ∀ v, g.collapse v = false) (hsrc : ∀ v ∈ src, v ∈ g.nodes) :
    ∀ (s : State V) (r : Reader V), Inv g src r s →
    ∃ ls s', loop g o s = .ok ls ∧ s'.stack = [] ∧ Inv g src (ls.foldl Reader.read r) s' := by
  intro s
  induction s using loop.induct (g := g) (o := o) with
  | case1 s e he =>
    intro r hI
    exfalso
    unfold step at he
    split at he
    · cases he
    · rename_i f rest hst
      have hF := hI.frame f (by rw [hst]; exact List.mem_cons_self)
      split at he
      · cases he
      · rename_i v hi
        simp only at he
        split at he
        · cases he
        · split at he
          · cases he
          · split at he
            · rename_i hn
              apply hn
              cases hp : f.parent with
              | none => exact hsrc v (hF.root v hi hp).2
              | some p => exact hg.mem p v (hF.child v p hi hp).2.2.1
            · cases he
  | case2 s he =>
    intro r hI
    refine ⟨[], s, ?_, ?_, hI⟩
    · rw [loop]; split <;> simp_all
    · unfold step at he
      split at he
      · assumption
      · split at he
        · cases he
        · simp only at he
          split at he
          · cases he
          · split at he
            · cases he
            · split at he <;> cases he
  | case3 s ls s' he e he' ih =>
    intro r hI
    obtain ⟨ls', s'', h1, -⟩ := ih _ (step_inv hg ho hcol hI he)
    rw [he'] at h1; cases h1
  | case4 s ls s' he l' he' ih =>
    intro r hI
    obtain ⟨ls', s'', h1, h2, h3⟩ := ih _ (step_inv hg ho hcol hI he)
    rw [he'] at h1; cases h1
    refine ⟨ls ++ l', s'', ?_, h2, ?_⟩
    · rw [loop]; split <;> simp_all
    · rw [List.foldl_append]; exact h3

theorem mem_start {src : List V} {f : Frame V} (h : f ∈ start src) :
    ∃ v ∈ src, f.item = .node v ∧ f.parent = none ∧ f.indents = [] ∧ f.vertical = false := by
  induction src with
  | nil => cases h
  | cons a src ih =>
    rcases List.mem_cons.1 h with rfl | h
    · exact ⟨a, List.mem_cons_self, rfl, rfl, rfl, rfl⟩
    · obtain ⟨v, hv, h⟩ := ih h
      exact ⟨v, List.mem_cons_of_mem _ hv, h⟩

theorem start_mem {src : List V} {v : V} (h : v ∈ src) : ∃ f ∈ start src, f.item = .node v := by
  induction src with
  | nil => cases h
  | cons a src ih =>
    rcases List.mem_cons.1 h with rfl | h
    · exact ⟨_, List.mem_cons_self, rfl⟩
    · obtain ⟨f, h1, h2⟩ := ih h
      exact ⟨f, List.mem_cons_of_mem _ h1, h2⟩

theorem start_apart (src : List V) : (start src).Pairwise Apart := by
  induction src with
  | nil => exact List.Pairwise.nil
  | cons a src ih =>
    refine List.pairwise_cons.2 ⟨?_, ih⟩
    intro f hf
    obtain ⟨v, -, h1, h2, h3, h4⟩ := mem_start hf
    exact ⟨by rw [h3], fun h => (by cases h), fun _ _ _ h => absurd rfl h⟩

theorem inv_start (g : Graph V) (src : List V) : Inv g src Reader.init ⟨start src, [], []⟩ := by
  refine ⟨rfl, rfl, trivial, start_apart src, ?_, ?_, ?_, ?_, ?_, ?_, ?_, ?_⟩
  · intro f hf
    obtain ⟨v, hv, h1, h2, h3, h4⟩ := mem_start hf
    refine ⟨fun _ => h4, fun h => ?_, fun w hw _ => ⟨h3, ?_⟩, fun w p _ h => ?_, fun w _ h => ?_, fun w p _ h => ?_⟩
    · rw [h1] at h; cases h
    · rw [h1] at hw; cases hw; exact hv
    · rw [h2] at h; cases h
    · rw [h4] at h; cases h
    · rw [h4] at h; cases h
  · intro f hf
    obtain ⟨v, hv, h1, h2, h3, h4⟩ := mem_start hf
    rw [h3]; simp
  · exact fun v hv => .inr (start_mem hv)
  · intro p hp; cases hp
  · intro p hp; cases hp
  · intro p hp; cases hp
  · intro f hf p _ _ h
    obtain ⟨v, hv, h1, h2, h3, h4⟩ := mem_start hf
    rw [h2] at h; cases h
  · intro e he; cases he

end NetText
end Verif
