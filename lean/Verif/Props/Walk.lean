/-
C40: the loops over operation trees.
-/
import Verif.Walk

namespace Verif.Props

open Tree Helpers Node

/-! #### positions -/

/-- The sub image number `i` of an operation; images have none. -/
def childAt (n : Node) (i : Nat) : Option Node :=
  match n with
  | .leaf _ => none
  | .concat ps _ => ps[i]?
  | .warp s _ _ _ => if i = 0 then some s else none
  | .crop s _ _ _ _ _ => if i = 0 then some s else none
  | .overview s _ _ => if i = 0 then some s else none
  | .dequant s _ _ => if i = 0 then some s else none

/-- The node at the end of a path from the root, given by the numbers of the parts. -/
def nodeAt (n : Node) : List Nat → Option Node
  | [] => some n
  | i :: a =>
    match childAt n i with
    | none => none
    | some c => nodeAt c a

/-- The node above the end of a path. -/
def parentAt (n : Node) (a : List Nat) : Option Node := if a = [] then none else nodeAt n a.dropLast

/-! #### the order of the loops -/

theorem childAt_eq (n : Node) (i : Nat) : childAt n i = (children n)[i]? := by
  cases n <;> simp only [childAt, children] <;> cases i <;> simp

theorem forall_singleton {P : Node → Prop} {s : Node} (h : P s) : ∀ c ∈ [s], P c := by
  intro c hc
  rw [List.mem_singleton] at hc
  rw [hc]
  exact h

theorem forall_cons {P : Node → Prop} {s : Node} {ps : List Node} (h : P s) (h' : ∀ c ∈ ps, P c) :
    ∀ c ∈ s :: ps, P c := by
  intro c hc
  rcases List.mem_cons.1 hc with hc | hc
  · rw [hc]; exact h
  · exact h' c hc

mutual
theorem childInd' {P : Node → Prop} (h : ∀ n, (∀ c ∈ children n, P c) → P n) : ∀ n, P n
  | .leaf l => h _ (by simp [children])
  | .concat ps d => h _ (childIndL h ps)
  | .warp s tf d a => h _ (forall_singleton (childInd' h s))
  | .crop s _ _ _ _ _ => h _ (forall_singleton (childInd' h s))
  | .overview s _ _ => h _ (forall_singleton (childInd' h s))
  | .dequant s _ _ => h _ (forall_singleton (childInd' h s))
theorem childIndL {P : Node → Prop} (h : ∀ n, (∀ c ∈ children n, P c) → P n) : ∀ ps : List Node, ∀ c ∈ ps, P c
  | [] => by simp
  | p :: ps => forall_cons (childInd' h p) (childIndL h ps)
end

mutual
/-- Positions in the order of `_traverse`: parts from the last to the first. -/
def addrs : Node → List (List Nat)
  | .leaf _ => [[]]
  | .concat ps _ => [] :: addrsL 0 ps
  | .warp s _ _ _ => [] :: (addrs s).map (0 :: ·)
  | .crop s _ _ _ _ _ => [] :: (addrs s).map (0 :: ·)
  | .overview s _ _ => [] :: (addrs s).map (0 :: ·)
  | .dequant s _ _ => [] :: (addrs s).map (0 :: ·)
def addrsL : Nat → List Node → List (List Nat)
  | _, [] => []
  | k, p :: ps => addrsL (k + 1) ps ++ (addrs p).map (k :: ·)
end

theorem addrs_eq (n : Node) : addrs n = [] :: addrsL 0 (children n) := by
  cases n <;> simp [addrs, addrsL, children]

theorem addrsL_head {k : Nat} {ps : List Node} {a : List Nat} (h : a ∈ addrsL k ps) :
    ∃ i b, a = i :: b ∧ k ≤ i := by
  induction ps generalizing k with
  | nil => simp [addrsL] at h
  | cons p ps ih =>
    rw [addrsL, List.mem_append] at h
    rcases h with h | h
    · obtain ⟨i, b, rfl, hi⟩ := ih h
      exact ⟨i, b, rfl, by omega⟩
    · obtain ⟨b, _, rfl⟩ := List.mem_map.1 h
      exact ⟨k, b, rfl, le_refl _⟩

theorem addrs_nodup : ∀ n, (addrs n).Nodup := by
  apply childInd'
  intro n ih
  rw [addrs_eq]
  generalize children n = ps at ih
  have : ∀ k, (addrsL k ps).Nodup := by
    induction ps with
    | nil => intro k; simp [addrsL]
    | cons p ps ih2 =>
      intro k
      rw [addrsL, List.nodup_append]
      refine ⟨ih2 (fun c hc => ih c (List.mem_cons_of_mem _ hc)) _, ?_, ?_⟩
      · exact (ih p (List.mem_cons_self ..)).map (fun a b h => (List.cons.inj h).2)
      · intro a ha b hb e
        subst e
        obtain ⟨i, c, rfl, hi⟩ := addrsL_head ha
        obtain ⟨d, _, e⟩ := List.mem_map.1 hb
        have := (List.cons.inj e).1
        omega
  rw [List.nodup_cons]
  refine ⟨?_, this 0⟩
  intro h
  obtain ⟨i, b, e, _⟩ := addrsL_head h
  cases e

theorem mem_addrs : ∀ n a, a ∈ addrs n ↔ (nodeAt n a).isSome := by
  apply childInd' (P := fun n => ∀ a, a ∈ addrs n ↔ (nodeAt n a).isSome)
  intro n ih a
  rw [addrs_eq]
  have key : ∀ (ps : List Node) (k : Nat), (∀ c ∈ ps, ∀ a, a ∈ addrs c ↔ (nodeAt c a).isSome) →
      ∀ i b, (i :: b ∈ addrsL k ps ↔ k ≤ i ∧ ∃ c, ps[i - k]? = some c ∧ (nodeAt c b).isSome) := by
    intro ps
    induction ps with
    | nil => intro k _ i b; simp [addrsL]
    | cons p ps ih2 =>
      intro k hp i b
      rw [addrsL, List.mem_append, ih2 (k + 1) (fun c hc => hp c (List.mem_cons_of_mem _ hc)) i b]
      constructor
      · rintro (⟨h1, c, h2, h3⟩ | h)
        · refine ⟨by omega, c, ?_, h3⟩
          rw [show i - k = (i - (k + 1)) + 1 from by omega, List.getElem?_cons_succ]
          exact h2
        · obtain ⟨d, hd, e⟩ := List.mem_map.1 h
          obtain ⟨rfl, rfl⟩ := List.cons.inj e
          exact ⟨le_refl _, p, by simp, (hp p (List.mem_cons_self ..) d).1 hd⟩
      · rintro ⟨h1, c, h2, h3⟩
        by_cases hk : i = k
        · subst hk
          rw [Nat.sub_self, List.getElem?_cons_zero] at h2
          cases h2
          exact .inr (List.mem_map.2 ⟨b, (hp p (List.mem_cons_self ..) b).2 h3, rfl⟩)
        · refine .inl ⟨by omega, c, ?_, h3⟩
          rw [show i - k = (i - (k + 1)) + 1 from by omega, List.getElem?_cons_succ] at h2
          exact h2
  cases a with
  | nil => simp [nodeAt]
  | cons i b =>
    rw [List.mem_cons, key (children n) 0 ih i b, nodeAt, childAt_eq]
    simp only [reduceCtorEq, false_or, Nat.zero_le, true_and, Nat.sub_zero]
    constructor
    · rintro ⟨c, h1, h2⟩
      rw [h1]
      exact h2
    · intro h
      split at h
      · cases h
      · rename_i c hc
        exact ⟨c, hc, h⟩

/-- No position is before one of its prefixes. -/
theorem addrs_sorted : ∀ n, (addrs n).Pairwise (fun a b => ¬ b <+: a) := by
  apply childInd'
  intro n ih
  rw [addrs_eq]
  generalize children n = ps at ih
  have : ∀ k, (addrsL k ps).Pairwise (fun a b => ¬ b <+: a) := by
    induction ps with
    | nil => intro k; simp [addrsL]
    | cons p ps ih2 =>
      intro k
      rw [addrsL, List.pairwise_append]
      refine ⟨ih2 (fun c hc => ih c (List.mem_cons_of_mem _ hc)) _, ?_, ?_⟩
      · rw [List.pairwise_map]
        refine (ih p (List.mem_cons_self ..)).imp ?_
        intro a b h h'
        exact h ((List.cons_prefix_cons.1 h').2)
      · intro a ha b hb h
        obtain ⟨i, c, rfl, hi⟩ := addrsL_head ha
        obtain ⟨d, _, rfl⟩ := List.mem_map.1 hb
        have := (List.cons_prefix_cons.1 h).1
        omega
  rw [List.pairwise_cons]
  refine ⟨?_, this 0⟩
  intro a ha h
  obtain ⟨i, b, rfl, _⟩ := addrsL_head ha
  simp at h

/-- What `_traverse` yields below a node. -/
def entry (par : Option Node) (n : Node) (a : List Nat) : Option Node × Option Node :=
  (if a = [] then par else nodeAt n a.dropLast, nodeAt n a)

theorem entry_cons {n c : Node} {i : Nat} (h : childAt n i = some c) (par : Option Node) (a : List Nat) :
    entry par n (i :: a) = entry (some n) c a := by
  unfold entry
  simp only [reduceCtorEq, if_false, nodeAt, h]
  cases a with
  | nil => simp [nodeAt]
  | cons j b => simp [nodeAt, h]

theorem traverse_entries : ∀ (n : Node) (par : Option Node) (st : List (Option Node × Node)),
    (traverseLoop ((par, n) :: st)).map (fun e => (e.1, some e.2)) =
      (addrs n).map (entry par n) ++ (traverseLoop st).map (fun e => (e.1, some e.2)) := by
  apply childInd' (P := fun n => ∀ par st, (traverseLoop ((par, n) :: st)).map (fun e => (e.1, some e.2)) =
      (addrs n).map (entry par n) ++ (traverseLoop st).map (fun e => (e.1, some e.2)))
  intro n ih par st
  rw [traverseLoop, addrs_eq]
  simp only [List.map_cons, List.cons_append]
  congr 1
  have key : ∀ (ps : List Node) (k : Nat), (∀ i c, ps[i]? = some c → childAt n (k + i) = some c) →
      (∀ c ∈ ps, ∀ par st, (traverseLoop ((par, c) :: st)).map (fun e => (e.1, some e.2)) =
        (addrs c).map (entry par c) ++ (traverseLoop st).map (fun e => (e.1, some e.2))) → ∀ st,
      (traverseLoop ((ps.map fun c => (some n, c)).reverse ++ st)).map (fun e => (e.1, some e.2)) =
        (addrsL k ps).map (entry par n) ++ (traverseLoop st).map (fun e => (e.1, some e.2)) := by
    intro ps
    induction ps with
    | nil => intro k _ _ st; simp [addrsL]
    | cons p ps ih2 =>
      intro k hk hp st
      rw [List.map_cons, List.reverse_cons, List.append_assoc, List.singleton_append,
        ih2 (k + 1) (fun i c h => by rw [show k + 1 + i = k + (i + 1) from by omega]; exact hk _ _ (by simpa using h))
          (fun c hc => hp c (List.mem_cons_of_mem _ hc)), hp p (List.mem_cons_self ..), addrsL, List.map_append,
        List.append_assoc]
      congr 2
      rw [List.map_map]
      refine List.map_congr_left ?_
      intro a _
      exact (entry_cons (hk 0 p (by simp)) par a).symm
  exact key (children n) 0 (fun i c h => by rw [childAt_eq, Nat.zero_add]; exact h) ih st

/-- C40: `_traverse` yields, in some order, exactly the nodes at the ends of the paths from the root, one
for each path, together with the node above, and no node before the nodes above it. -/
theorem C40_traverse (n : Node) : ∃ as : List (List Nat), as.Nodup ∧ (∀ a, a ∈ as ↔ (nodeAt n a).isSome) ∧
    as.Pairwise (fun a b => ¬ b <+: a) ∧
    (traverse n).map (fun e => (e.1, some e.2)) = as.map (fun a => (parentAt n a, nodeAt n a)) := by
  refine ⟨addrs n, addrs_nodup n, mem_addrs n, addrs_sorted n, ?_⟩
  rw [traverse, traverse_entries]
  simp [traverseLoop]
  intro a _
  rfl

theorem leafs_traverse (st : List (Option Node × Node)) :
    leafsLoop (st.map (·.2)) = ((traverseLoop st).map (·.2)).filter (fun x => (children x).isEmpty) := by
  induction st using traverseLoop.induct with
  | case1 => simp [leafsLoop, traverseLoop]
  | case2 par n st ih =>
    rw [traverseLoop, List.map_cons, List.map_cons, leafsLoop]
    rw [List.map_append, List.map_reverse, List.map_map, show ((fun x : Option Node × Node => x.2) ∘
      fun c => (some n, c)) = _root_.id from rfl, List.map_id] at ih
    by_cases h : (children n).isEmpty = true
    · rw [if_pos h, List.filter_cons_of_pos (by exact h), ← ih, List.isEmpty_iff.1 h]
      rfl
    · rw [if_neg h, List.filter_cons_of_neg (by exact h), ← ih]

open Classical in
/-- C40: `leafs()` yields exactly the leafs, once for each path from the root to them. -/
theorem C40_leafs (n : Node) (hn : WF n) : ∃ as : List (List Nat), as.Nodup ∧
    (∀ a, a ∈ as ↔ ∃ l, nodeAt n a = some (.leaf l)) ∧ (leafs n).map some = as.map (nodeAt n) := by
  refine ⟨(addrs n).filter (fun a => decide (∃ l, nodeAt n a = some (.leaf l))), (addrs_nodup n).filter _, ?_, ?_⟩
  · intro a
    rw [List.mem_filter, mem_addrs]
    simp only [decide_eq_true_eq, and_iff_right_iff_imp]
    rintro ⟨l, h⟩
    rw [h]
    rfl
  · have hwf : ∀ (a : List Nat) (n c : Node), WF n → nodeAt n a = some c → WF c := by
      intro a
      induction a with
      | nil => intro n c h e; cases e; exact h
      | cons i a ih =>
        intro n c h e
        rw [nodeAt] at e
        split at e
        · cases e
        · rename_i x hx
          refine ih x c ?_ e
          rw [childAt_eq] at hx
          have hm : x ∈ children n := List.mem_of_getElem? hx
          cases n with
          | leaf l => cases hm
          | concat ps d => exact ((WFL_iff _ _).1 h.2 x hm).1
          | warp s tf d a => rw [children, List.mem_singleton] at hm; subst hm; exact h.1
          | crop s _ _ _ _ _ => rw [children, List.mem_singleton] at hm; subst hm; exact h.1
          | overview s k d => rw [children, List.mem_singleton] at hm; subst hm; exact h
          | dequant s q d => rw [children, List.mem_singleton] at hm; subst hm; exact h
    have e1 := traverse_entries n none []
    rw [show traverseLoop [] = [] from by rw [traverseLoop]] at e1
    simp only [List.map_nil, List.append_nil] at e1
    have e2 : ((traverseLoop [(none, n)]).map (·.2)).map some = (addrs n).map (nodeAt n) := by
      have := congrArg (List.map (·.2)) e1
      simp only [List.map_map] at this ⊢
      exact this
    have e3 := leafs_traverse [(none, n)]
    simp only [List.map_cons, List.map_nil] at e3
    rw [leafs, e3]
    generalize (traverseLoop [(none, n)]).map (·.2) = xs at e2
    have hsub : ∀ a ∈ addrs n, True := fun _ _ => trivial
    clear e1 e3 hsub
    generalize addrs n = as at e2
    induction xs generalizing as with
    | nil =>
      cases as with
      | nil => rfl
      | cons a as => simp at e2
    | cons x xs ih =>
      cases as with
      | nil => simp at e2
      | cons a as =>
        simp only [List.map_cons, List.cons.injEq] at e2
        have hx := hwf a n x hn e2.1.symm
        have : (children x).isEmpty = true ↔ ∃ l, nodeAt n a = some (.leaf l) := by
          rw [← e2.1]
          cases x with
          | leaf l => simp [children]
          | concat ps d =>
            have := hx.1
            simp [children, this]
          | _ => simp [children]
        by_cases h : (children x).isEmpty = true
        · rw [List.filter_cons_of_pos (by exact h), List.filter_cons_of_pos (by simpa using this.1 h), List.map_cons,
            List.map_cons, ih as e2.2, e2.1]
        · rw [List.filter_cons_of_neg (by exact h), List.filter_cons_of_neg (by simpa using fun h' => h (this.2 h')), ih as e2.2]

/-! #### the graph -/

mutual
/-- Positions in the order of the graph: parts from the first to the last. -/
def gaddrs : Node → List (List Nat)
  | .leaf _ => [[]]
  | .concat ps _ => [] :: gaddrsL 0 ps
  | .warp s _ _ _ => [] :: (gaddrs s).map (0 :: ·)
  | .crop s _ _ _ _ _ => [] :: (gaddrs s).map (0 :: ·)
  | .overview s _ _ => [] :: (gaddrs s).map (0 :: ·)
  | .dequant s _ _ => [] :: (gaddrs s).map (0 :: ·)
def gaddrsL : Nat → List Node → List (List Nat)
  | _, [] => []
  | k, p :: ps => (gaddrs p).map (k :: ·) ++ gaddrsL (k + 1) ps
end

theorem gaddrs_eq (n : Node) : gaddrs n = [] :: gaddrsL 0 (children n) := by
  cases n <;> simp [gaddrs, gaddrsL, children]

theorem gaddrs_perm : ∀ n, (gaddrs n).Perm (addrs n) := by
  apply childInd'
  intro n ih
  rw [gaddrs_eq, addrs_eq]
  refine List.Perm.cons _ ?_
  generalize children n = ps at ih
  have : ∀ k, (gaddrsL k ps).Perm (addrsL k ps) := by
    induction ps with
    | nil => intro k; simp [gaddrsL, addrsL]
    | cons p ps ih2 =>
      intro k
      rw [gaddrsL, addrsL]
      exact (List.perm_append_comm).trans
        ((ih2 (fun c hc => ih c (List.mem_cons_of_mem _ hc)) _).append ((ih p (List.mem_cons_self ..)).map _))
  exact this 0

/-- What the nodes of the graph are. -/
structure GraphOf (k : Nat) (par : Option Nat) (n : Node) (es : List (Option Nat × Node)) : Prop where
  len : es.length = (gaddrs n).length
  node : ∀ (i : Nat) (a : List Nat), (gaddrs n)[i]? = some a → ∃ e : Option Nat × Node, es[i]? = some e ∧ some e.2 = nodeAt n a ∧
    (a = [] → e.1 = par) ∧ (a ≠ [] → ∃ j, e.1 = some (k + j) ∧ (gaddrs n)[j]? = some a.dropLast)

theorem graph_loop : ∀ (n : Node) (k : Nat) (par : Option Nat) (st : List (Option Nat × Node)), ∃ es,
    graphLoop k ((par, n) :: st) = es ++ graphLoop (k + es.length) st ∧ GraphOf k par n es := by
  apply childInd' (P := fun n => ∀ (k : Nat) (par : Option Nat) (st : List (Option Nat × Node)), ∃ es,
    graphLoop k ((par, n) :: st) = es ++ graphLoop (k + es.length) st ∧ GraphOf k par n es)
  intro n ih k par st
  have key : ∀ (ps : List Node) (m : Nat), (∀ i c, ps[i]? = some c → childAt n (m + i) = some c) →
      (∀ c ∈ ps, ∀ (k : Nat) (par : Option Nat) (st : List (Option Nat × Node)), ∃ es,
        graphLoop k ((par, c) :: st) = es ++ graphLoop (k + es.length) st ∧ GraphOf k par c es) →
      ∀ k' : Nat, ∃ es : List (Option Nat × Node), graphLoop k' ((ps.map fun c => (some k, c)) ++ st) =
        es ++ graphLoop (k' + es.length) st ∧ es.length = (gaddrsL m ps).length ∧
        ∀ (i : Nat) (a : List Nat), (gaddrsL m ps)[i]? = some a → ∃ e : Option Nat × Node, es[i]? = some e ∧ some e.2 = nodeAt n a ∧ a ≠ [] ∧
          (a.dropLast = [] → e.1 = some k) ∧
          (a.dropLast ≠ [] → ∃ j, e.1 = some (k' + j) ∧ (gaddrsL m ps)[j]? = some a.dropLast) := by
    intro ps
    induction ps with
    | nil => intro m _ _ k'; exact ⟨[], by simp, by simp [gaddrsL], by simp [gaddrsL]⟩
    | cons p ps ih2 =>
      intro m hm hp k'
      obtain ⟨es1, h1, g1⟩ := hp p (List.mem_cons_self ..) k' (some k) ((ps.map fun c => (some k, c)) ++ st)
      obtain ⟨es2, h2, l2, g2⟩ := ih2 (m + 1)
        (fun i c h => by rw [show m + 1 + i = m + (i + 1) from by omega]; exact hm _ _ (by simpa using h))
        (fun c hc => hp c (List.mem_cons_of_mem _ hc)) (k' + es1.length)
      have hc : childAt n m = some p := hm 0 p (by simp)
      have hl : ((gaddrs p).map (m :: ·)).length = es1.length := by rw [List.length_map, g1.len]
      refine ⟨es1 ++ es2, ?_, ?_, ?_⟩
      · rw [List.map_cons, List.cons_append, h1, h2, List.length_append, List.append_assoc, Nat.add_assoc]
      · rw [gaddrsL, List.length_append, List.length_append, hl, l2]
      · intro i a ha
        rw [gaddrsL] at ha ⊢
        by_cases hi : i < es1.length
        · rw [List.getElem?_append_left (by omega), List.getElem?_map] at ha
          obtain ⟨b, hb, rfl⟩ := Option.map_eq_some_iff.1 ha
          obtain ⟨e, e1, e2, e3, e4⟩ := g1.node i b hb
          refine ⟨e, by rw [List.getElem?_append_left hi]; exact e1, by rw [nodeAt, hc]; exact e2, by simp, ?_, ?_⟩
          · intro h
            apply e3
            cases b with
            | nil => rfl
            | cons x b => simp at h
          · intro h
            have hb : b ≠ [] := by rintro rfl; simp at h
            obtain ⟨j, j1, j2⟩ := e4 hb
            refine ⟨j, j1, ?_⟩
            have hj : j < (gaddrs p).length := (List.getElem?_eq_some_iff.1 j2).1
            rw [List.getElem?_append_left (by rw [List.length_map]; exact hj), List.getElem?_map, j2]
            cases b with
            | nil => exact absurd rfl hb
            | cons x b => rfl
        · rw [List.getElem?_append_right (by omega), hl] at ha
          obtain ⟨e, e1, e2, e3, e4, e5⟩ := g2 _ a ha
          refine ⟨e, by rw [List.getElem?_append_right (by omega)]; exact e1, e2, e3, e4, ?_⟩
          intro h
          obtain ⟨j, j1, j2⟩ := e5 h
          refine ⟨es1.length + j, by rw [j1]; congr 1; omega, ?_⟩
          rw [List.getElem?_append_right (by omega), hl, Nat.add_sub_cancel_left]
          exact j2
  rw [graphLoop, List.map_reverse, List.reverse_reverse]
  obtain ⟨es, h1, h2, h3⟩ := key (children n) 0 (fun i c h => by rw [childAt_eq, Nat.zero_add]; exact h) ih (k + 1)
  refine ⟨(par, n) :: es, ?_, ?_, ?_⟩
  · rw [h1, List.cons_append, List.length_cons, show k + 1 + es.length = k + (es.length + 1) from by omega]
  · rw [gaddrs_eq, List.length_cons, List.length_cons, h2]
  · intro i a ha
    rw [gaddrs_eq] at ha ⊢
    cases i with
    | zero =>
      rw [List.getElem?_cons_zero] at ha
      cases ha
      exact ⟨_, rfl, rfl, fun _ => rfl, fun h => absurd rfl h⟩
    | succ i =>
      rw [List.getElem?_cons_succ] at ha
      obtain ⟨e, e1, e2, e3, e4, e5⟩ := h3 i a ha
      refine ⟨e, by rw [List.getElem?_cons_succ]; exact e1, e2, fun h => absurd h e3, ?_⟩
      intro _
      by_cases hd : a.dropLast = []
      · exact ⟨0, by rw [e4 hd]; rfl, by rw [hd]; rfl⟩
      · obtain ⟨j, j1, j2⟩ := e5 hd
        exact ⟨j + 1, by rw [j1]; congr 1; omega, by rw [List.getElem?_cons_succ]; exact j2⟩

/-- C40, the graph that is printed: its nodes, numbered in the order in which they are added, are the nodes
of the tree, one for each path from the root, and the edges go from the node above to each node but the
root. -/
theorem C40_graph (n : Node) : ∃ as : List (List Nat), as.Nodup ∧ (∀ a, a ∈ as ↔ (nodeAt n a).isSome) ∧
    (graph n).length = as.length ∧ ∀ (i : Nat) (a : List Nat), as[i]? = some a → ∃ par c, (graph n)[i]? = some (par, c) ∧
      nodeAt n a = some c ∧ (a = [] → par = none) ∧
      (a ≠ [] → ∃ j, par = some j ∧ as[j]? = some a.dropLast) := by
  obtain ⟨es, h, g⟩ := graph_loop n 0 none []
  rw [show graphLoop (0 + es.length) [] = [] from by rw [graphLoop], List.append_nil] at h
  refine ⟨gaddrs n, (gaddrs_perm n).nodup_iff.2 (addrs_nodup n), ?_, by rw [graph, h, g.len], ?_⟩
  · intro a
    rw [(gaddrs_perm n).mem_iff, mem_addrs]
  · intro i a ha
    obtain ⟨e, e1, e2, e3, e4⟩ := g.node i a ha
    refine ⟨e.1, e.2, by rw [graph, h]; exact e1, e2.symm, e3, ?_⟩
    intro hne
    obtain ⟨j, j1, j2⟩ := e4 hne
    exact ⟨j, by rw [j1, Nat.zero_add], j2⟩

/-- A shared leaf is visited once for each path. -/
example (l : Leaf) : leafs (.concat [.leaf l, .crop (.leaf l) 0 1 0 1 none] (1, 1)) = [.leaf l, .leaf l] ∧
    (traverse (.concat [.leaf l, .crop (.leaf l) 0 1 0 1 none] (1, 1))).length = 4 := by
  simp [leafs, leafsLoop, traverse, traverseLoop, children]

end Verif.Props
