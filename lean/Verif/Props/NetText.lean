/-
C42: printing graphs as text.
-/
import Verif.NetTextLemmas
import Mathlib.Data.List.Perm.Subperm
import Mathlib.Tactic.FinCases
import Mathlib.Tactic.IntervalCases

namespace Verif
namespace Props

open NetText

variable {V : Type} [DecidableEq V]

/-- Reachable along edges. -/
def Reach (g : Graph V) : V → V → Prop := Relation.ReflTransGen (fun a b => b ∈ g.succ a)

/-- The properties of the final state, in the order of the lines. -/
theorem generate_inv {g : Graph V} {src : List V} {o : Options} (hg : Valid g) (ho : o.maxDepth = none)
    (hcol : ∀ v, g.collapse v = false) (hsrc : ∀ v ∈ src, v ∈ g.nodes) (hne : g.nodes ≠ []) :
    ∃ ls s, generate g o src = .ok (some ls) ∧ s.stack = [] ∧
      Inv g src (ls.foldl Reader.read Reader.init) s := by
  obtain ⟨ls, s, h1, h2, h3⟩ := loop_inv hg ho hcol hsrc _ _ (inv_start g src)
  refine ⟨ls, s, ?_, h2, h3⟩
  unfold generate
  rw [if_neg (by rw [ho]; simp), if_neg (by simpa using hne), h1]

theorem shown_read (ls : List (Line V)) : shown ls = nodesOf (readAll ls) := by
  have := nodesOf_fold ls Reader.init
  have h2 : nodesOf (readAll ls) = (nodesOf (ls.foldl Reader.read Reader.init).out).reverse := by
    simp [readAll, nodesOf, List.filterMap_reverse]
  rw [h2, this]
  simp [Reader.init, nodesOf]

theorem HistOk.nodup {g : Graph V} {src : List V} {es : List (Entry V)} (h : HistOk g src es) :
    (nodesOf es).Nodup := by
  induction es with
  | nil => exact List.nodup_nil
  | cons e es ih =>
    obtain ⟨h1, h2⟩ := h
    have := ih h2
    unfold EntryOk at h1
    cases hi : e.item with
    | dots => simpa [nodesOf, hi, Item.toOption] using this
    | node v =>
      rw [hi] at h1
      have he : nodesOf (e :: es) = v :: nodesOf es := by simp [nodesOf, hi, Item.toOption]
      rw [he]
      exact List.nodup_cons.2 ⟨h1.1, this⟩

theorem HistOk.reach {g : Graph V} {src : List V} {es : List (Entry V)} (h : HistOk g src es) :
    ∀ v ∈ nodesOf es, ∃ s ∈ src, Reach g s v := by
  induction es with
  | nil => intro v hv; cases hv
  | cons e es ih =>
    obtain ⟨h1, h2⟩ := h
    have ih := ih h2
    unfold EntryOk at h1
    cases hi : e.item with
    | dots =>
      have he : nodesOf (e :: es) = nodesOf es := by simp [nodesOf, hi, Item.toOption]
      rw [he]; exact ih
    | node w =>
      rw [hi] at h1
      have he : nodesOf (e :: es) = w :: nodesOf es := by simp [nodesOf, hi, Item.toOption]
      rw [he]
      intro v hv
      rcases List.mem_cons.1 hv with rfl | hv
      · cases hp : e.parent with
        | none => exact ⟨v, h1.2.2.2.1 hp, Relation.ReflTransGen.refl⟩
        | some p =>
          obtain ⟨h3, h4⟩ := h1.2.2.1 p hp
          obtain ⟨s, hs, hr⟩ := ih p h3
          exact ⟨s, hs, hr.tail h4⟩
      · exact ih v hv

/-- At the end everything reachable has been seen. -/
theorem Inv.complete {g : Graph V} {src : List V} {r : Reader V} {s : State V} (hI : Inv g src r s)
    (hst : s.stack = []) : ∀ a ∈ src, ∀ v, Reach g a v → v ∈ s.seen := by
  intro a ha v hr
  induction hr with
  | refl =>
    rcases hI.srcs a ha with h | ⟨f, hf, _⟩
    · exact h
    · rw [hst] at hf; cases hf
  | tail _ he ih =>
    rcases hI.cover _ ih _ he with ⟨f, hf, _⟩ | ⟨e, he, h1, _⟩ | ⟨_, h⟩ | ⟨_, h⟩
    · rw [hst] at hf; cases hf
    · rw [hI.seen]; exact mem_nodesOf.2 ⟨e, he, h1⟩
    · exact h
    · exact (List.dropWhile_sublist _).subset h

/-- **C42**: printing a graph ends, and every node that can be reached from the given sources has exactly
one line; no other node has one. -/
theorem C42_each_node_once (g : Graph V) (o : Options) (src : List V) (hg : Valid g)
    (ho : o.maxDepth = none) (hcol : ∀ v, g.collapse v = false) (hsrc : ∀ v ∈ src, v ∈ g.nodes)
    (hne : g.nodes ≠ []) :
    ∃ ls, generate g o src = .ok (some ls) ∧ (shown ls).Nodup ∧
      ∀ v, v ∈ shown ls ↔ ∃ s ∈ src, Reach g s v := by
  obtain ⟨ls, s, h1, h2, h3⟩ := generate_inv hg ho hcol hsrc hne
  have hsh : shown ls = (nodesOf (ls.foldl Reader.read Reader.init).out).reverse := by
    rw [shown_read]; simp [readAll, nodesOf, List.filterMap_reverse]
  refine ⟨ls, h1, ?_, ?_⟩
  · rw [hsh, List.nodup_reverse]; exact HistOk.nodup h3.hist
  · intro v
    rw [hsh, List.mem_reverse]
    constructor
    · exact HistOk.reach h3.hist v
    · rintro ⟨a, ha, hr⟩
      rw [← h3.seen]
      exact Inv.complete h3 h2 a ha v hr

/-- A graph on numbers from its edges, as networkx stores it. -/
def ofEdges (directed : Bool) (nodes : List Nat) (es : List (Nat × Nat)) : Graph Nat :=
  let all := if directed then es else es ++ es.map Prod.swap
  { directed := directed
    nodes := nodes
    succ := fun v => (all.filterMap (fun e => if e.1 = v then some e.2 else none)).dedup
    pred := fun v =>
      if directed then (all.filterMap (fun e => if e.2 = v then some e.1 else none)).dedup
      else (all.filterMap (fun e => if e.1 = v then some e.2 else none)).dedup
    collapse := fun _ => false }

theorem mem_ofEdges_succ {d : Bool} {ns : List Nat} {es : List (Nat × Nat)} {u v : Nat} :
    v ∈ (ofEdges d ns es).succ u ↔ (u, v) ∈ es ∨ (d = false ∧ (v, u) ∈ es) := by
  cases d <;> simp [ofEdges, List.mem_filterMap]

theorem mem_ofEdges_pred {d : Bool} {ns : List Nat} {es : List (Nat × Nat)} {u v : Nat} :
    u ∈ (ofEdges d ns es).pred v ↔ (u, v) ∈ es ∨ (d = false ∧ (v, u) ∈ es) := by
  cases d
  · simp [ofEdges, List.mem_filterMap]; tauto
  · simp [ofEdges, List.mem_filterMap]

/-- Every graph is valid when its edges join its nodes. -/
theorem ofEdges_valid {d : Bool} {ns : List Nat} {es : List (Nat × Nat)} (h : ∀ e ∈ es, e.1 ∈ ns ∧ e.2 ∈ ns) :
    Valid (ofEdges d ns es) where
  nodupSucc := fun _ => List.nodup_dedup _
  nodupPred := fun _ => by
    cases d <;> exact List.nodup_dedup _
  mem := fun v c hc => by
    rcases mem_ofEdges_succ.1 hc with hc | ⟨_, hc⟩
    · exact (h _ hc).2
    · exact (h _ hc).1
  memPred := fun u v hu => by
    rcases mem_ofEdges_pred.1 hu with hu | ⟨_, hu⟩
    · exact (h _ hu).1
    · exact (h _ hu).2
  pred := fun u v => by rw [mem_ofEdges_succ, mem_ofEdges_pred]
  sym := fun h _ => by
    have : d = false := h
    subst this; rfl

/-- A cycle `0 → 1 → 2 → 0` with `2 → 3` and a loop at `3`. -/
def loopy : Graph Nat := ofEdges true [0, 1, 2, 3, 4] [(0, 1), (1, 2), (2, 0), (2, 3), (3, 3), (0, 3)]

theorem loopy_valid : Valid loopy := ofEdges_valid (by decide)

example : ∃ ls, generate loopy ⟨none, false⟩ [0] = .ok (some ls) ∧ (shown ls).Nodup ∧
    ∀ v, v ∈ shown ls ↔ ∃ s ∈ [0], Reach loopy s v :=
  C42_each_node_once loopy ⟨none, false⟩ [0] loopy_valid rfl (fun _ => rfl) (by decide) (by decide)

/-! ### Edges -/

theorem HistOk.split {g : Graph V} {src : List V} {a b : List (Entry V)} {e : Entry V}
    (h : HistOk g src (a ++ e :: b)) : EntryOk g src e (nodesOf b) := by
  induction a with
  | nil => exact h.1
  | cons x a ih => exact ih h.2

theorem perm_of_filter {l : List V} (hl : l.Nodup) (p : Option V) (hp : ∀ q, p = some q → q ∈ l)
    (k : V → Bool) (hk : ∀ q, p = some q → k q = true) :
    (p.toList ++ l.filter (fun q => decide (p ≠ some q) && k q)).Perm (l.filter k) := by
  refine (List.perm_ext_iff_of_nodup ?_ (hl.filter _)).2 ?_
  · refine List.nodup_append'.2 ⟨?_, hl.filter _, ?_⟩
    · cases p <;> simp
    · intro a ha hb
      rw [Option.mem_toList] at ha
      rw [List.mem_filter] at hb
      simp only [Bool.and_eq_true, decide_eq_true_eq] at hb
      exact hb.2.1 ha
  · intro a
    rw [List.mem_append, List.mem_filter, List.mem_filter, Option.mem_toList]
    simp only [Bool.and_eq_true, decide_eq_true_eq, Option.mem_def]
    constructor
    · rintro (h | ⟨h1, _, h2⟩)
      · exact ⟨hp a h, hk a h⟩
      · exact ⟨h1, h2⟩
    · rintro ⟨h1, h2⟩
      by_cases h : p = some a
      · exact .inl h
      · exact .inr ⟨h1, h, h2⟩

/-- **C42**: the line of a node shows its edges: the node it hangs below together with the nodes listed to
the right are its predecessors, each once.  In an undirected graph they are the neighbours on this line or
on a line above, so that each edge is drawn once. -/
theorem C42_edges (g : Graph V) (o : Options) (src : List V) (hg : Valid g)
    (ho : o.maxDepth = none) (hcol : ∀ v, g.collapse v = false) (hsrc : ∀ v ∈ src, v ∈ g.nodes)
    (hne : g.nodes ≠ []) :
    ∃ ls, generate g o src = .ok (some ls) ∧ ∀ pre e post v, readAll ls = pre ++ e :: post →
      e.item = .node v →
      (e.parent.toList ++ e.others).Perm
        ((g.pred v).filter (fun q => g.directed || decide (q ∈ v :: nodesOf pre))) ∧
      (∀ p, e.parent = some p → p ∈ nodesOf pre) ∧ (e.parent = none → v ∈ src) := by
  obtain ⟨ls, s, h1, h2, h3⟩ := generate_inv hg ho hcol hsrc hne
  refine ⟨ls, h1, ?_⟩
  intro pre e post v he hi
  have hout : (ls.foldl Reader.read Reader.init).out = post.reverse ++ e :: pre.reverse := by
    rw [← List.reverse_reverse (ls.foldl Reader.read Reader.init).out]
    rw [show (ls.foldl Reader.read Reader.init).out.reverse = readAll ls from rfl, he]
    simp
  have hh := h3.hist
  rw [hout] at hh
  have := HistOk.split hh
  unfold EntryOk at this
  rw [hi] at this
  obtain ⟨e1, e2, e3, e4, e5⟩ := this
  have hrev : ∀ q, q ∈ nodesOf pre.reverse ↔ q ∈ nodesOf pre := by
    intro q; simp [mem_nodesOf]
  refine ⟨?_, fun p hp => (hrev p).1 (e3 p hp).1, e4⟩
  rw [e5]
  have hf : (fun q => decide (e.parent ≠ some q) && (g.directed || decide (q ∈ v :: nodesOf pre.reverse))) =
      (fun q => decide (e.parent ≠ some q) && (g.directed || decide (q ∈ v :: nodesOf pre))) := by
    funext q
    congr 2
    rw [decide_eq_decide, List.mem_cons, List.mem_cons, hrev]
  rw [hf]
  refine perm_of_filter (hg.nodupPred v) e.parent ?_ _ ?_
  · intro q hq
    rw [hg.pred]; exact (e3 q hq).2
  · intro q hq
    have := (hrev q).1 (e3 q hq).1
    simp [this]

/-- **C42**, undirected: an edge between two different nodes is drawn at exactly one of them, and a loop is
drawn at its node. -/
theorem C42_edges_once (g : Graph V) (o : Options) (src : List V) (hg : Valid g) (hd : g.directed = false)
    (ho : o.maxDepth = none) (hcol : ∀ v, g.collapse v = false) (hsrc : ∀ v ∈ src, v ∈ g.nodes)
    (hne : g.nodes ≠ []) :
    ∃ ls, generate g o src = .ok (some ls) ∧ ∀ e ∈ readAll ls, ∀ e' ∈ readAll ls, ∀ u v,
      e.item = .node u → e'.item = .node v → v ∈ g.succ u →
      (u = v → v ∈ e.parent.toList ++ e.others) ∧
      (u ≠ v → (v ∈ e.parent.toList ++ e.others ↔ u ∉ e'.parent.toList ++ e'.others)) := by
  obtain ⟨ls, h1, h2⟩ := C42_edges g o src hg ho hcol hsrc hne
  obtain ⟨ls', h1', h3, -⟩ := C42_each_node_once g o src hg ho hcol hsrc hne
  rw [h1] at h1'; cases h1'
  refine ⟨ls, h1, ?_⟩
  intro e he e' he' u v hu hv huv
  rw [shown_read] at h3
  obtain ⟨a, b, hab⟩ := List.append_of_mem he
  obtain ⟨a', b', hab'⟩ := List.append_of_mem he'
  have p1 := (h2 a e b u hab hu).1
  have p2 := (h2 a' e' b' v hab' hv).1
  have hvu : u ∈ g.succ v := by rw [← hg.pred, hg.sym hd]; exact huv
  have huv' : v ∈ g.pred u := by rw [hg.sym hd]; exact huv
  have hvu' : u ∈ g.pred v := by rw [hg.sym hd]; exact hvu
  rw [p1.mem_iff, p2.mem_iff, List.mem_filter, List.mem_filter]
  simp only [hd, Bool.false_or, decide_eq_true_eq, List.mem_cons, huv', hvu', true_and]
  constructor
  · rintro rfl; exact .inl rfl
  · intro hne'
    have hne2 : ¬ v = u := fun h => hne' h.symm
    simp only [hne', hne2, false_or]
    -- the order of the two lines
    have key : ∀ {a b a' b' : List (Entry V)} {e e' : Entry V} {u v : V}, (nodesOf (a ++ e :: b)).Nodup →
        a ++ e :: b = a' ++ e' :: b' → e.item = .node u → e'.item = .node v → u ≠ v →
        (v ∈ nodesOf a ↔ u ∉ nodesOf a') := by
      intro a
      induction a with
      | nil =>
        intro b a' b' e e' u v hn heq hu hv hne
        refine ⟨fun h => (by cases h), fun h => ?_⟩
        cases a' with
        | nil =>
          simp only [List.nil_append, List.cons.injEq] at heq
          rw [heq.1, hv] at hu; cases hu; exact absurd rfl hne
        | cons x a' =>
          simp only [List.nil_append, List.cons_append, List.cons.injEq] at heq
          exact absurd (mem_nodesOf.2 ⟨x, List.mem_cons_self, by rw [← heq.1, hu]⟩) h
      | cons x a ih =>
        intro b a' b' e e' u v hn heq hu hv hne
        cases a' with
        | nil =>
          simp only [List.nil_append, List.cons_append, List.cons.injEq] at heq
          refine ⟨fun _ => (by simp [nodesOf]), fun _ => ?_⟩
          exact mem_nodesOf.2 ⟨x, List.mem_cons_self, by rw [heq.1, hv]⟩
        | cons y a' =>
          simp only [List.cons_append, List.cons.injEq] at heq
          obtain ⟨rfl, heq⟩ := heq
          have hn' : (nodesOf (a ++ e :: b)).Nodup := by
            refine List.Nodup.sublist ?_ hn
            unfold nodesOf
            exact (List.sublist_cons_self _ _).filterMap _
          have := ih hn' heq hu hv hne
          -- the first line is neither of the two
          have hx1 : x.item ≠ .node u := by
            intro hx
            have : nodesOf (x :: a ++ e :: b) = u :: nodesOf (a ++ e :: b) := by
              simp [nodesOf, hx, Item.toOption]
            rw [this] at hn
            exact (List.nodup_cons.1 hn).1 (mem_nodesOf.2 ⟨e, by simp, hu⟩)
          have hx2 : x.item ≠ .node v := by
            intro hx
            have : nodesOf (x :: a ++ e :: b) = v :: nodesOf (a ++ e :: b) := by
              simp [nodesOf, hx, Item.toOption]
            rw [this] at hn
            refine (List.nodup_cons.1 hn).1 (mem_nodesOf.2 ⟨e', ?_, hv⟩)
            rw [heq]; simp
          have c1 : v ∈ nodesOf (x :: a) ↔ v ∈ nodesOf a := by
            rw [mem_nodesOf, mem_nodesOf]
            constructor
            · rintro ⟨z, hz, h⟩
              rcases List.mem_cons.1 hz with rfl | hz
              · exact absurd h hx2
              · exact ⟨z, hz, h⟩
            · rintro ⟨z, hz, h⟩; exact ⟨z, List.mem_cons_of_mem _ hz, h⟩
          have c2 : u ∈ nodesOf (x :: a') ↔ u ∈ nodesOf a' := by
            rw [mem_nodesOf, mem_nodesOf]
            constructor
            · rintro ⟨z, hz, h⟩
              rcases List.mem_cons.1 hz with rfl | hz
              · exact absurd h hx1
              · exact ⟨z, hz, h⟩
            · rintro ⟨z, hz, h⟩; exact ⟨z, List.mem_cons_of_mem _ hz, h⟩
          rw [c1, c2]; exact this
    exact key (by rw [← hab]; exact h3) (hab.symm.trans hab') hu hv hne'

/-! ### Ellipses -/

theorem mem_dropWhile_reverse {l : List V} (hl : l.Nodup) {p c : V} (hp : p ∈ l) :
    c ∈ l.reverse.dropWhile (fun x => decide (x ≠ p)) ↔ l.idxOf c ≤ l.idxOf p := by
  obtain ⟨a, b, rfl⟩ := List.append_of_mem hp
  rw [List.nodup_append'] at hl
  obtain ⟨h1, h2, h3⟩ := hl
  have hpa : p ∉ a := fun h => h3 h List.mem_cons_self
  have hpb : p ∉ b := (List.nodup_cons.1 h2).1
  have e1 : (a ++ p :: b).reverse.dropWhile (fun x => decide (x ≠ p)) = p :: a.reverse := by
    rw [List.reverse_append, List.reverse_cons, List.append_assoc, List.dropWhile_append_of_pos]
    · simp
    · intro x hx
      simp only [List.mem_reverse] at hx
      simp only [ne_eq, decide_eq_true_eq]
      rintro rfl
      exact hpb hx
  rw [e1]
  have e2 : (a ++ p :: b).idxOf p = a.length := by
    rw [List.idxOf_append_of_notMem hpa]; simp
  rw [e2]
  by_cases hc : c ∈ a
  · rw [List.idxOf_append_of_mem hc]
    refine ⟨fun _ => le_of_lt (List.idxOf_lt_length_iff.2 hc), fun _ => by simp [hc]⟩
  · rw [List.idxOf_append_of_notMem hc]
    by_cases hcp : c = p
    · subst hcp; simp
    · have : (p :: b).idxOf c = b.idxOf c + 1 := by
        rw [List.idxOf_cons_ne _ (fun h => hcp h.symm)]
      rw [this]
      simp only [List.mem_cons, List.mem_reverse, hcp, hc, or_self, false_iff]
      omega

/-- **C42**: an ellipsis hangs below a node exactly when one of its successors (in an undirected graph: one
of the neighbours on lines further down) does not hang below it. -/
theorem C42_ellipsis (g : Graph V) (o : Options) (src : List V) (hg : Valid g)
    (ho : o.maxDepth = none) (hcol : ∀ v, g.collapse v = false) (hsrc : ∀ v ∈ src, v ∈ g.nodes)
    (hne : g.nodes ≠ []) :
    ∃ ls, generate g o src = .ok (some ls) ∧ (∀ e ∈ readAll ls, e.item = .dots →
        ∃ p ∈ shown ls, e.parent = some p) ∧
      ∀ p ∈ shown ls,
        ((∃ e ∈ readAll ls, e.item = .dots ∧ e.parent = some p) ↔
          ∃ c ∈ g.succ p, (g.directed = false → (shown ls).idxOf p < (shown ls).idxOf c) ∧
            ∀ e ∈ readAll ls, e.item = .node c → e.parent ≠ some p) := by
  obtain ⟨ls, s, h1, h2, h3⟩ := generate_inv hg ho hcol hsrc hne
  have hsh : shown ls = (nodesOf (ls.foldl Reader.read Reader.init).out).reverse := by
    rw [shown_read]; simp [readAll, nodesOf, List.filterMap_reverse]
  have hseen : s.seen = (shown ls).reverse := by rw [hsh, List.reverse_reverse, h3.seen]
  have hnd : (shown ls).Nodup := by rw [hsh, List.nodup_reverse]; exact HistOk.nodup h3.hist
  have hmem : ∀ e, e ∈ readAll ls ↔ e ∈ (ls.foldl Reader.read Reader.init).out := by
    intro e; unfold readAll; rw [List.mem_reverse]
  have hone : ∀ e ∈ readAll ls, ∀ e' ∈ readAll ls, ∀ c, e.item = .node c → e'.item = .node c → e = e' := by
    have : ∀ l : List (Entry V), (nodesOf l).Nodup → ∀ e ∈ l, ∀ e' ∈ l, ∀ c, e.item = .node c →
        e'.item = .node c → e = e' := by
      intro l
      induction l with
      | nil => intro _ e he; cases he
      | cons x l ih =>
        intro hn e he e' he' c h h'
        have hn' : (nodesOf l).Nodup := by
          refine List.Nodup.sublist ?_ hn
          exact (List.sublist_cons_self _ _).filterMap _
        have hx : x.item = .node c → c ∉ nodesOf l := by
          intro hx
          have hh : nodesOf (x :: l) = c :: nodesOf l := by simp [nodesOf, hx, Item.toOption]
          rw [hh] at hn
          exact (List.nodup_cons.1 hn).1
        rcases List.mem_cons.1 he with h1 | h1
        · rcases List.mem_cons.1 he' with h2 | h2
          · rw [h1, h2]
          · exact absurd (mem_nodesOf.2 ⟨e', h2, h'⟩) (hx (h1 ▸ h))
        · rcases List.mem_cons.1 he' with h2 | h2
          · exact absurd (mem_nodesOf.2 ⟨e, h1, h⟩) (hx (h2 ▸ h'))
          · exact ih hn' e h1 e' h2 c h h'
    exact this _ (by rw [← shown_read]; exact hnd)
  refine ⟨ls, h1, ?_, ?_⟩
  · intro e he hi
    obtain ⟨p, hp, hs⟩ := h3.drawn e ((hmem e).1 he) hi
    refine ⟨p, ?_, hp⟩
    have := (h3.skipSeen p hs).1
    rw [hseen, List.mem_reverse] at this
    exact this
  · intro p hp
    constructor
    · rintro ⟨e, he, hi, hep⟩
      obtain ⟨q, hq, hs⟩ := h3.drawn e ((hmem e).1 he) hi
      rw [hep] at hq; cases hq
      obtain ⟨-, c, hc, e', he', h4, h5, h6⟩ := h3.skipSeen p hs
      refine ⟨c, hc, ?_, ?_⟩
      · intro hd
        have := h6 hd
        rw [hseen, mem_dropWhile_reverse hnd hp] at this
        omega
      · intro e'' he'' h7
        rw [hone e'' he'' e' ((hmem e').2 he') c h7 h4]
        exact h5
    · rintro ⟨c, hc, hd, he⟩
      have hps : p ∈ s.seen := by rw [hseen, List.mem_reverse]; exact hp
      rcases h3.cover p hps c hc with ⟨f, hf, _⟩ | ⟨e, he', h4, h5⟩ | ⟨h4, _⟩ | ⟨h4, h5⟩
      · rw [h2] at hf; cases hf
      · exact absurd h5 (he e ((hmem e).2 he') h4)
      · rcases h3.pend p h4 with ⟨f, hf, _⟩ | ⟨e, he', h⟩
        · rw [h2] at hf; cases hf
        · exact ⟨e, (hmem e).2 he', h⟩
      · rw [hseen, mem_dropWhile_reverse hnd hp] at h5
        have := hd h4
        omega

/-- An undirected square with a diagonal and a loop. -/
def square : Graph Nat := ofEdges false [0, 1, 2, 3] [(0, 1), (1, 2), (2, 3), (3, 0), (0, 2), (1, 1)]

theorem square_valid : Valid square := ofEdges_valid (by decide)

example : ∃ ls, generate square ⟨none, false⟩ [0] = .ok (some ls) ∧ ∀ e ∈ readAll ls, ∀ e' ∈ readAll ls,
    ∀ u v, e.item = .node u → e'.item = .node v → v ∈ square.succ u →
      (u = v → v ∈ e.parent.toList ++ e.others) ∧
      (u ≠ v → (v ∈ e.parent.toList ++ e.others ↔ u ∉ e'.parent.toList ++ e'.others)) :=
  C42_edges_once square ⟨none, false⟩ [0] square_valid rfl rfl (fun _ => rfl) (by decide) (by decide)

/-! ### Sources -/

/-- What networkx returns as the (strongly) connected components. -/
structure Components (g : Graph V) (comps : List (List V)) : Prop where
  all : ∀ v ∈ g.nodes, ∃ c ∈ comps, v ∈ c
  nonempty : ∀ c ∈ comps, c ≠ []
  nodes : ∀ c ∈ comps, ∀ v ∈ c, v ∈ g.nodes
  reach : ∀ c ∈ comps, ∀ u ∈ c, ∀ v ∈ c, Reach g u v
  max : ∀ c ∈ comps, ∀ u ∈ c, ∀ v, Reach g u v → Reach g v u → v ∈ c
  disjoint : comps.Pairwise List.Disjoint

theorem minBy_mem (key : V → Nat) (a : V) (l : List V) : minBy key a l ∈ a :: l := by
  induction l generalizing a with
  | nil => simp [minBy]
  | cons b l ih =>
    unfold minBy
    split
    · exact List.mem_cons_of_mem _ (ih b)
    · rcases List.mem_cons.1 (ih a) with h | h
      · rw [h]; exact List.mem_cons_self
      · exact List.mem_cons_of_mem _ (List.mem_cons_of_mem _ h)

theorem minAll_ok (key : V → Nat) (cs : List (List V)) (h : ∀ c ∈ cs, c ≠ []) :
    ∃ vs, minAll key cs = .ok vs ∧ List.Forall₂ (fun c v => v ∈ c) cs vs := by
  induction cs with
  | nil => exact ⟨[], rfl, .nil⟩
  | cons c cs ih =>
    obtain ⟨vs, h1, h2⟩ := ih (fun c hc => h c (List.mem_cons_of_mem _ hc))
    cases c with
    | nil => exact absurd rfl (h [] List.mem_cons_self)
    | cons a l =>
      refine ⟨minBy key a l :: vs, ?_, .cons (minBy_mem key a l) h2⟩
      simp [minAll, minOf, h1]

theorem insertBy_perm (key : V → Nat) (a : V) (l : List V) : (insertBy key a l).Perm (a :: l) := by
  induction l with
  | nil => exact List.Perm.refl _
  | cons b l ih =>
    unfold insertBy
    split
    · exact List.Perm.refl _
    · exact (ih.cons b).trans (List.Perm.swap _ _ _)

theorem sortBy_perm (key : V → Nat) (l : List V) : (sortBy key l).Perm l := by
  have : ∀ l acc : List V, (l.foldl (fun acc v => insertBy key v acc) acc).Perm (acc ++ l) := by
    intro l
    induction l with
    | nil => intro acc; simp
    | cons a l ih =>
      intro acc
      refine (ih _).trans ?_
      refine ((insertBy_perm key a acc).append_right l).trans ?_
      exact (List.perm_middle (a := a) (l₁ := acc) (l₂ := l)).symm
  have h := this l []
  rw [List.nil_append] at h
  exact h

/-- From every node one comes backwards to a component that nothing enters. -/
theorem source_component {g : Graph V} (hg : Valid g) {comps : List (List V)} (hc : Components g comps) :
    ∀ v ∈ g.nodes, ∃ c ∈ comps, (∀ u ∈ c, ∀ p ∈ g.pred u, p ∈ g.nodes → p ∈ c) ∧ ∀ u ∈ c, Reach g u v := by
  classical
  -- strictly fewer nodes lead to a node of an earlier component
  let anc : V → Nat := fun v => (g.nodes.filter (fun u => decide (Reach g u v))).length
  have key : ∀ n v, anc v ≤ n → v ∈ g.nodes → ∃ c ∈ comps,
      (∀ u ∈ c, ∀ p ∈ g.pred u, p ∈ g.nodes → p ∈ c) ∧ ∀ u ∈ c, Reach g u v := by
    intro n
    induction n with
    | zero =>
      intro v h hv
      have : v ∈ g.nodes.filter (fun u => decide (Reach g u v)) := by
        rw [List.mem_filter]; exact ⟨hv, decide_eq_true (Relation.ReflTransGen.refl : Reach g v v)⟩
      have := List.length_pos_of_mem this
      simp only [anc] at h
      omega
    | succ n ih =>
      intro v h hv
      obtain ⟨c, hcm, hvc⟩ := hc.all v hv
      by_cases hex : ∃ u ∈ c, ∃ p ∈ g.pred u, p ∈ g.nodes ∧ p ∉ c
      · obtain ⟨u, hu, p, hp, hpn, hpc⟩ := hex
        have hpv : Reach g p v :=
          Relation.ReflTransGen.head ((hg.pred p u).1 hp) (hc.reach c hcm u hu v hvc)
        have hlt : anc p < anc v := by
          simp only [anc]
          refine lt_of_le_of_ne ?_ ?_
          · refine (List.monotone_filter_right _ ?_).length_le
            intro w hw
            simp only [decide_eq_true_eq] at hw ⊢
            exact hw.trans hpv
          · intro heq
            have hsub : (g.nodes.filter (fun u => decide (Reach g u p))).Sublist
                (g.nodes.filter (fun u => decide (Reach g u v))) := by
              refine List.monotone_filter_right _ ?_
              intro w hw
              simp only [decide_eq_true_eq] at hw ⊢
              exact hw.trans hpv
            have := hsub.eq_of_length heq
            have hv' : v ∈ g.nodes.filter (fun u => decide (Reach g u v)) := by
              rw [List.mem_filter]; exact ⟨hv, decide_eq_true (Relation.ReflTransGen.refl : Reach g v v)⟩
            rw [← this, List.mem_filter, decide_eq_true_eq] at hv'
            exact hpc (hc.max c hcm v hvc p hv'.2 hpv)
        obtain ⟨c', h1, h2, h3⟩ := ih p (by omega) hpn
        exact ⟨c', h1, h2, fun u hu => (h3 u hu).trans hpv⟩
      · refine ⟨c, hcm, ?_, fun u hu => hc.reach c hcm u hu v hvc⟩
        intro u hu p hp hpn
        by_contra hpc
        exact hex ⟨u, hu, p, hp, hpn, hpc⟩
  intro v hv
  exact key _ v le_rfl hv

theorem reach_into {g : Graph V} (hg : Valid g) {c : List V}
    (hc : ∀ u ∈ c, ∀ p ∈ g.pred u, p ∈ g.nodes → p ∈ c) {t v : V} (h : Reach g t v) (hv : v ∈ c) : t ∈ c := by
  induction h using Relation.ReflTransGen.head_induction_on with
  | refl => exact hv
  | head h1 _ ih =>
    have := (hg.pred _ _).2 h1
    exact hc _ ih _ this (hg.memPred _ _ this)

/-- The components that `_find_sources` takes one node of. -/
theorem findSources_spec {g : Graph V} (hg : Valid g)
    {comps : List (List V)} (hc : Components g comps) :
    ∃ cs src vs, findSources g comps = .ok src ∧ src.Perm vs ∧ cs.Sublist comps ∧
      List.Forall₂ (fun c v => v ∈ c) cs vs ∧
      (∀ c ∈ comps, c ∈ cs ↔ ∀ u ∈ c, ∀ p ∈ g.pred u, p ∈ c) := by
  unfold findSources
  cases hd : g.directed with
  | true =>
    simp only [if_true]
    generalize hcs : comps.filter (fun c => c.all (fun v => (g.pred v).all (fun p => decide (p ∈ c)))) = cs
    have hsub : cs.Sublist comps := by rw [← hcs]; exact List.filter_sublist
    have hcs' : ∀ c ∈ comps, c ∈ cs ↔ ∀ u ∈ c, ∀ p ∈ g.pred u, p ∈ c := by
      intro c hcm
      rw [← hcs, List.mem_filter]
      simp [hcm]
    obtain ⟨vs, h1, h2⟩ := minAll_ok g.inDegree (cs.map (fun c => g.nodes.filter (fun v => decide (v ∈ c)))) (by
      intro c hcm
      obtain ⟨c', hc', rfl⟩ := List.mem_map.1 hcm
      have hm := hsub.subset hc'
      cases hx : c' with
      | nil => exact absurd hx (hc.nonempty c' hm)
      | cons a l =>
        intro h
        have ha : a ∈ c' := by rw [hx]; exact List.mem_cons_self
        have : a ∈ g.nodes.filter (fun v => decide (v ∈ a :: l)) := by
          rw [List.mem_filter]; exact ⟨hc.nodes c' hm a ha, by simp⟩
        rw [h] at this; cases this)
    refine ⟨cs, vs, vs, h1, List.Perm.refl _, hsub, ?_, hcs'⟩
    rw [List.forall₂_map_left_iff] at h2
    exact h2.imp (fun c v h => by
      rw [List.mem_filter, decide_eq_true_eq] at h; exact h.2)
  | false =>
    obtain ⟨vs, h1, h2⟩ := minAll_ok g.degree comps hc.nonempty
    simp only [Bool.false_eq_true, if_false]
    rw [h1]
    refine ⟨comps, _, vs, rfl, sortBy_perm _ _, List.Sublist.refl _, h2, ?_⟩
    intro c hcm
    refine ⟨fun _ u hu p hpp => ?_, fun _ => hcm⟩
    refine hc.max c hcm u hu p (Relation.ReflTransGen.single ?_)
      (Relation.ReflTransGen.single ((hg.pred p u).1 hpp))
    rw [hg.sym hd] at hpp
    exact hpp

theorem forall₂_right {R : List V → V → Prop} {cs : List (List V)} {vs : List V}
    (h : List.Forall₂ R cs vs) : (∀ v ∈ vs, ∃ c ∈ cs, R c v) ∧ ∀ c ∈ cs, ∃ v ∈ vs, R c v := by
  induction h with
  | nil => exact ⟨fun v hv => (by cases hv), fun c hc => (by cases hc)⟩
  | cons h1 _ ih =>
    refine ⟨fun v hv => ?_, fun c hc => ?_⟩
    · rcases List.mem_cons.1 hv with rfl | hv
      · exact ⟨_, List.mem_cons_self, h1⟩
      · obtain ⟨c, hc, h⟩ := ih.1 v hv
        exact ⟨c, List.mem_cons_of_mem _ hc, h⟩
    · rcases List.mem_cons.1 hc with rfl | hc
      · exact ⟨_, List.mem_cons_self, h1⟩
      · obtain ⟨v, hv, h⟩ := ih.2 c hc
        exact ⟨v, List.mem_cons_of_mem _ hv, h⟩

/-- **C42**: from the sources that are chosen when none are given, every node can be reached, and no smaller
list of nodes has this property. -/
theorem C42_sources (g : Graph V) (hg : Valid g)
    (comps : List (List V)) (hc : Components g comps) :
    ∃ src, findSources g comps = .ok src ∧ (∀ s ∈ src, s ∈ g.nodes) ∧
      (∀ v ∈ g.nodes, ∃ s ∈ src, Reach g s v) ∧
      ∀ T : List V, (∀ v ∈ g.nodes, ∃ t ∈ T, Reach g t v) → src.length ≤ T.length := by
  obtain ⟨cs, src, vs, h1, h2, h3, h4, h5⟩ := findSources_spec hg hc
  obtain ⟨h6, h7⟩ := forall₂_right h4
  refine ⟨src, h1, ?_, ?_, ?_⟩
  · intro s hs
    obtain ⟨c, hcm, h⟩ := h6 s (h2.subset hs)
    exact hc.nodes c (h3.subset hcm) s h
  · intro v hv
    obtain ⟨c, hcm, h8, h9⟩ := source_component hg hc v hv
    obtain ⟨s, hs, h⟩ := h7 c ((h5 c hcm).2 (fun u hu p hpp => h8 u hu p hpp (hg.memPred p u hpp)))
    exact ⟨s, h2.symm.subset hs, h9 s h⟩
  · intro T hT
    have hlen : src.length = cs.length := by rw [h2.length_eq, h4.length_eq]
    rw [hlen]
    -- each of these components contains an element of `T`
    have hin : ∀ c ∈ cs, ∃ t ∈ T, t ∈ c := by
      intro c hcm
      obtain ⟨v, -, hv⟩ := h7 c hcm
      obtain ⟨t, ht, hr⟩ := hT v (hc.nodes c (h3.subset hcm) v hv)
      refine ⟨t, ht, reach_into hg ?_ hr hv⟩
      intro u hu p hpp _
      exact (h5 c (h3.subset hcm)).1 hcm u hu p hpp
    have hdis : cs.Pairwise List.Disjoint := hc.disjoint.sublist h3
    clear h1 h2 h3 h4 h5 h6 h7 hlen hT
    induction cs generalizing T with
    | nil => simp
    | cons c cs ih =>
      obtain ⟨hd1, hd2⟩ := List.pairwise_cons.1 hdis
      obtain ⟨t, ht, htc⟩ := hin c List.mem_cons_self
      have := ih (T.erase t) (fun c' hc' => by
        obtain ⟨t', ht', htc'⟩ := hin c' (List.mem_cons_of_mem _ hc')
        refine ⟨t', ?_, htc'⟩
        have hne : t' ≠ t := by
          rintro rfl
          exact hd1 c' hc' htc htc'
        exact (List.mem_erase_of_ne hne).2 ht') hd2
      rw [List.length_erase_of_mem ht] at this
      have hpos := List.length_pos_of_mem ht
      simp only [List.length_cons]
      omega

/-- The first of the elements with the smallest key. -/
def FirstMin (key : V → Nat) (c : List V) (v : V) : Prop :=
  ∃ l r, c = l ++ v :: r ∧ (∀ x ∈ l, key v < key x) ∧ ∀ x ∈ r, key v ≤ key x

theorem minBy_first (key : V → Nat) (r : List V) : ∀ (a : V) (l m : List V), (∀ x ∈ l, key a < key x) →
    (∀ x ∈ m, key a ≤ key x) → FirstMin key (l ++ a :: (m ++ r)) (minBy key a r) := by
  induction r with
  | nil =>
    intro a l m h1 h2
    exact ⟨l, m, by simp [minBy], h1, h2⟩
  | cons b r ih =>
    intro a l m h1 h2
    unfold minBy
    split
    · rename_i hlt
      have := ih b (l ++ a :: m) [] (by
        intro x hx
        rcases List.mem_append.1 hx with hx | hx
        · exact lt_trans hlt (h1 x hx)
        · rcases List.mem_cons.1 hx with rfl | hx
          · exact hlt
          · exact lt_of_lt_of_le hlt (h2 x hx)) (by simp)
      simpa using this
    · rename_i hge
      have := ih a l (m ++ [b]) h1 (by
        intro x hx
        rcases List.mem_append.1 hx with hx | hx
        · exact h2 x hx
        · rw [List.mem_singleton] at hx
          subst hx
          omega)
      simpa using this

theorem minAll_first (key : V → Nat) : ∀ (cs : List (List V)) (vs : List V), minAll key cs = .ok vs →
    List.Forall₂ (FirstMin key) cs vs
  | [], vs, h => by cases h; exact .nil
  | c :: cs, vs, h => by
    cases c with
    | nil => simp [minAll, minOf] at h
    | cons a l =>
      simp only [minAll, minOf] at h
      cases hr : minAll key cs with
      | error e => rw [hr] at h; cases h
      | ok ws =>
        rw [hr] at h
        cases h
        exact .cons (by simpa using minBy_first key l a [] [] (by simp) (by simp)) (minAll_first key cs ws hr)

theorem insertBy_sorted (key : V → Nat) (a : V) : ∀ l : List V, l.Pairwise (fun x y => key x ≤ key y) →
    (insertBy key a l).Pairwise (fun x y => key x ≤ key y) ∧
    ∀ d, (insertBy key a l).filter (fun x => decide (key x = d)) =
      l.filter (fun x => decide (key x = d)) ++ (if key a = d then [a] else [])
  | [], _ => by
    refine ⟨by simp [insertBy], fun d => ?_⟩
    by_cases h : key a = d <;> simp [insertBy, h]
  | b :: l, hl => by
    obtain ⟨hb, hl'⟩ := List.pairwise_cons.1 hl
    obtain ⟨h1, h2⟩ := insertBy_sorted key a l hl'
    unfold insertBy
    by_cases hlt : key a < key b
    · rw [if_pos hlt]
      refine ⟨List.pairwise_cons.2 ⟨?_, hl⟩, fun d => ?_⟩
      · intro x hx
        rcases List.mem_cons.1 hx with rfl | hx
        · omega
        · have := hb x hx
          omega
      · by_cases hd : key a = d
        · have : (b :: l).filter (fun x => decide (key x = d)) = [] := by
            rw [List.filter_eq_nil_iff]
            intro x hx
            rcases List.mem_cons.1 hx with rfl | hx
            · simp; omega
            · have := hb x hx
              simp; omega
          rw [List.filter_cons, this]
          simp [hd]
        · rw [List.filter_cons]
          simp [hd]
    · rw [if_neg hlt]
      refine ⟨List.pairwise_cons.2 ⟨?_, h1⟩, fun d => ?_⟩
      · intro x hx
        rcases List.mem_cons.1 ((insertBy_perm key a l).subset hx) with rfl | hx
        · omega
        · exact hb x hx
      · rw [List.filter_cons, List.filter_cons, h2 d]
        split <;> simp

theorem sortBy_sorted (key : V → Nat) (l : List V) : (sortBy key l).Pairwise (fun x y => key x ≤ key y) ∧
    ∀ d, (sortBy key l).filter (fun x => decide (key x = d)) = l.filter (fun x => decide (key x = d)) := by
  have : ∀ (l acc : List V), acc.Pairwise (fun x y => key x ≤ key y) →
      (l.foldl (fun acc v => insertBy key v acc) acc).Pairwise (fun x y => key x ≤ key y) ∧
      ∀ d, (l.foldl (fun acc v => insertBy key v acc) acc).filter (fun x => decide (key x = d)) =
        acc.filter (fun x => decide (key x = d)) ++ l.filter (fun x => decide (key x = d)) := by
    intro l
    induction l with
    | nil => intro acc h; exact ⟨h, fun d => by simp⟩
    | cons a l ih =>
      intro acc h
      obtain ⟨h1, h2⟩ := insertBy_sorted key a acc h
      obtain ⟨h3, h4⟩ := ih _ h1
      refine ⟨h3, fun d => ?_⟩
      rw [List.foldl_cons, h4 d, h2 d, List.filter_cons]
      by_cases hd : key a = d <;> simp [hd]
  simpa [sortBy] using this l [] List.Pairwise.nil

/-- How many ends of edges are at `v`; a loop has both ends there. -/
def ends (g : Graph V) (v : V) : Nat := ((g.succ v).map fun u => if u = v then 2 else 1).sum

theorem ends_eq {g : Graph V} (h : ∀ v, (g.succ v).Nodup) : g.degree = ends g := by
  funext v
  have key : ∀ l : List V, l.Nodup →
      (l.map fun u => if u = v then 2 else 1).sum = l.length + if v ∈ l then 1 else 0 := by
    intro l hl
    induction l with
    | nil => simp
    | cons a l ih =>
      obtain ⟨h1, h2⟩ := List.nodup_cons.1 hl
      rw [List.map_cons, List.sum_cons, ih h2, List.length_cons]
      by_cases e : a = v
      · subst e
        simp [h1]
        omega
      · have : (v ∈ a :: l) ↔ v ∈ l := by simp [Ne.symm e]
        simp only [e, if_false, this]
        omega
  exact (key _ (h v)).symm

/-- **C42**: which sources are chosen, and in which order.  In a directed graph every strongly connected component
that no edge enters has one source, the first of its nodes (in the order of the graph) with the smallest in-degree, and the
sources are in the order of the components.  In an undirected graph every connected component has one source, the first of
its nodes with the smallest degree, and the sources are ordered by degree, those of the same degree in the order of the
components. -/
theorem C42_source_order (g : Graph V) (hs : ∀ v, (g.succ v).Nodup) (comps : List (List V)) (src : List V)
    (h : findSources g comps = .ok src) :
    (g.directed = true → ∃ cs : List (List V), cs.Sublist comps ∧
      (∀ c ∈ comps, c ∈ cs ↔ ∀ v ∈ c, ∀ p ∈ g.pred v, p ∈ c) ∧
      List.Forall₂ (fun c v => FirstMin (fun u => (g.pred u).length) (g.nodes.filter (fun u => decide (u ∈ c))) v) cs src) ∧
    (g.directed = false → ∃ vs, List.Forall₂ (FirstMin (ends g)) comps vs ∧
      src.Pairwise (fun u v => ends g u ≤ ends g v) ∧
      ∀ d, src.filter (fun v => decide (ends g v = d)) = vs.filter (fun v => decide (ends g v = d))) := by
  rw [← ends_eq hs]
  unfold findSources at h
  refine ⟨fun hd => ?_, fun hd => ?_⟩
  · rw [if_pos hd] at h
    refine ⟨_, List.filter_sublist, ?_, List.forall₂_map_left_iff.1 (minAll_first _ _ _ h)⟩
    intro c hc
    rw [List.mem_filter]
    simp [hc]
  · rw [if_neg (by simp [hd])] at h
    cases hv : minAll g.degree comps with
    | error e => rw [hv] at h; cases h
    | ok vs =>
      rw [hv] at h
      cases h
      obtain ⟨h1, h2⟩ := sortBy_sorted g.degree vs
      exact ⟨vs, minAll_first _ _ _ hv, h1, h2⟩

/-- A triangle and an edge: the source of the edge is first. -/
example : findSources (ofEdges false [0, 1, 2, 3, 4] [(0, 1), (1, 2), (2, 0), (3, 4)]) [[0, 1, 2], [3, 4]] = .ok [3, 0] := by
  decide

/-- A loop counts twice: of the nodes 0 with a loop and an edge and 1 with an edge, 1 is the source. -/
example : findSources (ofEdges false [0, 1] [(0, 0), (0, 1)]) [[0, 1]] = .ok [1] ∧
    ends (ofEdges false [0, 1] [(0, 0), (0, 1)]) 0 = 3 ∧ ∀ v, ((ofEdges false [0, 1] [(0, 0), (0, 1)]).succ v).Nodup :=
  ⟨by decide, by decide, fun _ => List.nodup_dedup _⟩

/-- **C42**: when no sources are given every node of the graph has exactly one line. -/
theorem C42_whole_graph (g : Graph V) (o : Options) (hg : Valid g)
    (ho : o.maxDepth = none) (hcol : ∀ v, g.collapse v = false) (hne : g.nodes ≠ [])
    (comps : List (List V)) (hc : Components g comps) :
    ∃ src ls, findSources g comps = .ok src ∧ generate g o src = .ok (some ls) ∧ (shown ls).Nodup ∧
      ∀ v, v ∈ shown ls ↔ v ∈ g.nodes := by
  obtain ⟨src, h1, h2, h3, -⟩ := C42_sources g hg comps hc
  obtain ⟨ls, h4, h5, h6⟩ := C42_each_node_once g o src hg ho hcol h2 hne
  refine ⟨src, ls, h1, h4, h5, ?_⟩
  intro v
  rw [h6]
  refine ⟨?_, h3 v⟩
  rintro ⟨s, hs, hr⟩
  have := h2 s hs
  induction hr with
  | refl => exact this
  | tail _ h _ => exact hg.mem _ _ h

theorem reach_closed {g : Graph V} {S : List V} (hS : ∀ u ∈ S, ∀ v ∈ g.succ u, v ∈ S) {u v : V}
    (h : Reach g u v) (hu : u ∈ S) : v ∈ S := by
  induction h with
  | refl => exact hu
  | tail _ h ih => exact hS _ ih _ h

theorem loopy_components : Components loopy [[0, 1, 2], [3], [4]] := by
  have h01 : Reach loopy 0 1 := Relation.ReflTransGen.single (by decide)
  have h12 : Reach loopy 1 2 := Relation.ReflTransGen.single (by decide)
  have h20 : Reach loopy 2 0 := Relation.ReflTransGen.single (by decide)
  have r : ∀ v, Reach loopy v v := fun _ => Relation.ReflTransGen.refl
  have hto : ∀ u ∈ [0, 1, 2], Reach loopy u 0 := by
    intro u hu
    fin_cases hu
    · exact r 0
    · exact h12.trans h20
    · exact h20
  have hfrom : ∀ u ∈ [0, 1, 2], Reach loopy 0 u := by
    intro u hu
    fin_cases hu
    · exact r 0
    · exact h01
    · exact h01.trans h12
  refine ⟨by decide, by decide, by decide, ?_, ?_, by simp [List.Disjoint]⟩
  · intro c hc u hu v hv
    fin_cases hc
    · exact (hto u hu).trans (hfrom v hv)
    · rw [List.mem_singleton.1 hu, List.mem_singleton.1 hv]; exact r _
    · rw [List.mem_singleton.1 hu, List.mem_singleton.1 hv]; exact r _
  · intro c hc u hu v h1 h2
    fin_cases hc
    · have hv : v ∈ [0, 1, 2, 3] := reach_closed (S := [0, 1, 2, 3]) (by decide) h1 (by
        fin_cases hu <;> decide)
      fin_cases hv
      · decide
      · decide
      · decide
      · have := reach_closed (S := [3]) (by decide) h2 (by decide)
        rw [List.mem_singleton.1 this] at hu
        exact absurd hu (by decide)
    · rw [List.mem_singleton.1 hu] at h1
      exact reach_closed (S := [3]) (by decide) h1 (by decide)
    · rw [List.mem_singleton.1 hu] at h1
      exact reach_closed (S := [4]) (by decide) h1 (by decide)

example : ∃ src ls, findSources loopy [[0, 1, 2], [3], [4]] = .ok src ∧
    generate loopy ⟨none, true⟩ src = .ok (some ls) ∧ (shown ls).Nodup ∧ ∀ v, v ∈ shown ls ↔ v ∈ loopy.nodes :=
  C42_whole_graph loopy ⟨none, true⟩ loopy_valid rfl (fun _ => rfl) (by decide) _ loopy_components

example : findSources loopy [[0, 1, 2], [3], [4]] = .ok [0, 4] := by decide

/-! ### Limits on the depth -/

theorem loop_forall {g : Graph V} {o : Options} (P : State V → Prop) (Q : Line V → Prop)
    (hstep : ∀ s ls s', P s → step g o s = .ok (some (ls, s')) → P s' ∧ ∀ l ∈ ls, Q l) :
    ∀ s, P s → ∀ ls, loop g o s = .ok ls → ∀ l ∈ ls, Q l := by
  intro s
  induction s using loop.induct (g := g) (o := o) with
  | case1 s e he =>
    intro _ ls h
    rw [loop] at h
    split at h <;> simp_all
  | case2 s he =>
    intro _ ls h
    rw [loop] at h
    split at h <;> simp_all
  | case3 s ls s' he e he' ih =>
    intro _ ls h
    rw [loop] at h
    split at h <;> simp_all
  | case4 s ls s' he l' he' ih =>
    intro hP ls' h
    have hh : ls' = ls ++ l' := by
      rw [loop] at h
      split at h <;> simp_all
    subst hh
    obtain ⟨h1, h2⟩ := hstep s ls s' hP he
    intro l hl
    rcases List.mem_append.1 hl with hl | hl
    · exact h2 l hl
    · exact ih h1 l' he' l hl

/-- Reachable in exactly `n` steps. -/
inductive Steps (g : Graph V) (u : V) : Nat → V → Prop where
  | refl : Steps g u 0 u
  | tail {n v w} : Steps g u n v → w ∈ g.succ v → Steps g u (n + 1) w

theorem expand_child {g : Graph V} {o : Options} {seen : List V} {f : Frame V} {v w : V}
    (h : Item.node w ∈ (expand g o seen f v).1) :
    w ∈ g.succ v ∧ o.maxDepth ≠ some ((f.indents.length : Int) + 1) := by
  unfold expand at h
  simp only at h
  generalize hk : (if g.directed = true then g.succ v
    else (g.succ v).filter (fun c => decide (c ∉ seen))) = kids at h
  have hsub : ∀ w ∈ kids, w ∈ g.succ v := by
    intro w hw
    rw [← hk] at hw
    split at hw
    · exact hw
    · exact (List.mem_filter.1 hw).1
  by_cases hcut : ((decide (o.maxDepth = some ((f.indents.length : Int) + 1)) || g.collapse v) &&
      !kids.isEmpty) = true
  · rw [if_pos hcut] at h; simp at h
  · rw [if_neg hcut] at h
    obtain ⟨w', hw', hh⟩ := List.mem_map.1 h
    cases hh
    refine ⟨hsub w hw', ?_⟩
    intro hm
    apply hcut
    rw [hm]
    cases kids with
    | nil => cases hw'
    | cons x l => simp

/-- **C42**, `max_depth`: without vertical chains every line of a node is indented by at most `max_depth`
levels, and the node can be reached from a source in fewer than `max_depth` steps. -/
theorem C42_depth (g : Graph V) (o : Options) (src : List V) (d : Nat) (hd : 0 < d)
    (ho : o.maxDepth = some (d : Int)) (hv : o.vertical = false) (ls : List (Line V))
    (h : generate g o src = .ok (some ls)) :
    ∀ pre v others, Line.entry pre (.node v) others ∈ ls →
      pre.length ≤ d ∧ ∃ s ∈ src, ∃ n < d, Steps g s n v := by
  unfold generate at h
  rw [if_neg (by rw [ho]; intro h; injection h with h; omega)] at h
  split at h
  · cases h
  · split at h
    · cases h
    · rename_i ls' hl
      cases h
      have := loop_forall (g := g) (o := o)
        (fun s => ∀ f ∈ s.stack, f.vertical = false ∧ ∀ v, f.item = .node v →
          f.indents.length < d ∧ ∃ a ∈ src, Steps g a f.indents.length v)
        (fun l => ∀ pre v others, l = Line.entry pre (.node v) others →
          pre.length ≤ d ∧ ∃ s ∈ src, ∃ n < d, Steps g s n v) ?_ ⟨start src, [], []⟩ ?_ _ hl
      · intro pre v others hm
        exact this _ hm pre v others rfl
      · intro s ls s' hP hs
        unfold step at hs
        split at hs
        · cases hs
        · rename_i f rest hst
          have hf := hP f (by rw [hst]; exact List.mem_cons_self)
          have hrest : ∀ f' ∈ rest, _ := fun f' h => hP f' (by rw [hst]; exact List.mem_cons_of_mem _ h)
          split at hs
          · cases hs
            refine ⟨hrest, ?_⟩
            intro l hl pre v others hle
            subst hle
            rcases List.mem_append.1 hl with hl | hl
            · split at hl
              · simp at hl
              · cases hl
            · simp at hl
          · rename_i v hi
            simp only at hs
            split at hs
            · cases hs
              refine ⟨?_, fun l hl => by cases hl⟩
              intro f' h'
              rcases List.mem_cons.1 h' with rfl | h'
              · exact hf
              · rcases List.mem_cons.1 h' with rfl | h'
                · exact ⟨rfl, fun w hw => by cases hw⟩
                · exact hrest f' h'
            · split at hs
              · cases hs
                exact ⟨hrest, fun l hl => by cases hl⟩
              · split at hs
                · cases hs
                · cases hs
                  obtain ⟨hf1, a, ha, hf2⟩ := hf.2 v hi
                  have hkeep : f.keep = f.indents.length := by unfold Frame.keep; simp [hf.1]
                  have hlen : (prefixes f).1.length = f.indents.length + 1 := by
                    obtain ⟨par, it, ind, lst, ver⟩ := f
                    have : ver = false := hf.1
                    subst this
                    unfold prefixes
                    cases lst <;> cases ind <;> simp
                  refine ⟨?_, ?_⟩
                  · intro f' h'
                    rcases List.mem_append.1 h' with h' | h'
                    · obtain ⟨m1, m2, m3, m4⟩ := mem_frames h'
                      refine ⟨by rw [m4]; simp [nextVertical, hv], ?_⟩
                      intro w hw
                      rw [m3, next_length f (fun _ => hf.1), hkeep]
                      rw [hw] at m2
                      obtain ⟨hw2, hne⟩ := expand_child m2
                      refine ⟨?_, a, ha, hf2.tail hw2⟩
                      rw [ho] at hne
                      by_contra hge
                      apply hne
                      congr 1
                      omega
                    · exact hrest f' h'
                  · intro l hl pre w others hle
                    subst hle
                    rcases List.mem_append.1 hl with hl | hl
                    · split at hl
                      · simp at hl
                      · cases hl
                    · simp only [List.mem_singleton, Line.entry.injEq, Item.node.injEq] at hl
                      obtain ⟨rfl, rfl, -⟩ := hl
                      exact ⟨by rw [hlen]; omega, a, ha, _, hf1, hf2⟩
      · intro f hf
        obtain ⟨v, hv1, h1, h2, h3, h4⟩ := mem_start hf
        refine ⟨h4, ?_⟩
        intro w hw
        rw [h1] at hw; cases hw
        rw [h3]
        exact ⟨hd, v, hv1, .refl⟩

/-- The loop with a bound on the number of rounds, to evaluate examples. -/
def run (g : Graph V) (o : Options) : Nat → State V → Option (List (Line V))
  | 0, _ => none
  | n + 1, s =>
    match step g o s with
    | .error _ => none
    | .ok none => some []
    | .ok (some (ls, s')) =>
      match run g o n s' with
      | none => none
      | some r => some (ls ++ r)

theorem run_loop {g : Graph V} {o : Options} {n : Nat} {s : State V} {ls : List (Line V)}
    (h : run g o n s = some ls) : loop g o s = .ok ls := by
  induction n generalizing s ls with
  | zero => cases h
  | succ n ih =>
    unfold run at h
    rw [loop]
    split at h
    · cases h
    · cases h; split <;> simp_all
    · rename_i l s' hs
      split at h
      · cases h
      · rename_i r hr
        cases h
        have := ih hr
        split <;> simp_all

theorem generate_run {g : Graph V} {o : Options} {n : Nat} {src : List V} (f : List (Line V) → Bool)
    (h : (run g o n ⟨start src, [], []⟩).any f = true) (h0 : o.maxDepth ≠ some 0) (h1 : g.nodes ≠ []) :
    ∃ ls, generate g o src = .ok (some ls) ∧ f ls = true := by
  cases hr : run g o n ⟨start src, [], []⟩ with
  | none => rw [hr] at h; cases h
  | some ls =>
    rw [hr] at h
    refine ⟨ls, ?_, h⟩
    unfold generate
    rw [if_neg h0, if_neg (by simpa using h1), run_loop hr]

/-- A path of five nodes. -/
def chain5 : Graph Nat := ofEdges true [0, 1, 2, 3, 4] [(0, 1), (1, 2), (2, 3), (3, 4)]

example : ∃ ls, generate chain5 ⟨some 3, false⟩ [0] = .ok (some ls) ∧
    decide (shown ls = [0, 1, 2]) = true :=
  generate_run (n := 20) _ (by decide +kernel) (by decide) (by decide)

example : ∃ ls, generate square ⟨none, false⟩ [0] = .ok (some ls) ∧
    decide ((readAll ls).map (fun e => (e.parent, e.item, e.others)) =
      [(none, .node 0, []), (some 0, .node 1, [1]), (some 1, .node 2, [0]), (some 2, .node 3, [0]),
        (some 0, .dots, [])]) = true :=
  generate_run (n := 20) _ (by decide +kernel) (by decide) (by decide)

/-- **C42**, `max_depth`: with vertical chains the limit does not hold, because the nodes of a chain are not
indented: on a path of five nodes everything is printed at `max_depth=3`. -/
theorem C42_depth_violated : ∃ ls, generate chain5 ⟨some 3, true⟩ [0] = .ok (some ls) ∧
    4 ∈ shown ls ∧ ¬ ∃ n < 3, Steps chain5 0 n 4 := by
  obtain ⟨ls, h1, h2⟩ := generate_run (g := chain5) (o := ⟨some 3, true⟩) (src := [0]) (n := 20)
    (fun ls => decide (4 ∈ shown ls)) (by decide +kernel) (by decide) (by decide)
  refine ⟨ls, h1, by simpa using h2, ?_⟩
  have key : ∀ n v, Steps chain5 0 n v → v = n ∧ n ≤ 4 := by
    intro n v h
    induction h with
    | refl => exact ⟨rfl, by omega⟩
    | tail _ h ih =>
      rename_i n v w _
      obtain ⟨rfl, hn⟩ := ih
      interval_cases v <;> revert h <;> simp +decide [chain5, ofEdges]
  rintro ⟨n, hn, h⟩
  have := key n 4 h
  omega

end Props
end Verif
