/-
The loops over operation trees in delayed_base.py and `get_transform_from`.
-/
import Verif.Sem
import Verif.Opt

namespace Verif
namespace Tree

open Helpers Node

/-- `children()`, delayed_base.py:486-491 and 507-513. -/
def children : Node → List Node
  | .leaf _ => []
  | .concat ps _ => ps
  | .warp s _ _ _ => [s]
  | .crop s _ _ _ _ _ => [s]
  | .overview s _ _ => [s]
  | .dequant s _ _ => [s]

mutual
/-- Number of nodes; the measure of the loops. -/
def count : Node → Nat
  | .leaf _ => 1
  | .concat ps _ => countL ps + 1
  | .warp s _ _ _ => count s + 1
  | .crop s _ _ _ _ _ => count s + 1
  | .overview s _ _ => count s + 1
  | .dequant s _ _ => count s + 1
def countL : List Node → Nat
  | [] => 0
  | p :: ps => count p + countL ps
end

theorem countL_eq (ps : List Node) : countL ps = (ps.map count).sum := by
  induction ps with
  | nil => rfl
  | cons p ps ih => simp [countL, ih]

theorem count_children (n : Node) : count n = ((children n).map count).sum + 1 := by
  cases n <;> simp [count, children, countL_eq]

/-- `_traverse`, delayed_base.py:162-184: the list of what the generator yields.  The end of the Python
list, where it appends and pops, is the head of this list. -/
def traverseLoop : List (Option Node × Node) → List (Option Node × Node)
  | [] => []
  | (parent, item) :: stack =>
    (parent, item) :: traverseLoop (((children item).map fun c => (some item, c)).reverse ++ stack)
termination_by stack => (stack.map fun e => count e.2).sum
decreasing_by
  simp only [List.map_append, List.map_reverse, List.map_map, List.sum_append, List.sum_reverse,
    List.map_cons, List.sum_cons]
  rw [count_children item, show ((fun e : Option Node × Node => count e.2) ∘ fun c => (some item, c)) = count
    from rfl]
  omega

def traverse (n : Node) : List (Option Node × Node) := traverseLoop [(none, n)]

/-- `_traversed_graph`, delayed_base.py:271-306: the nodes of the graph in the order in which they are
added, as pairs of the number of the parent (the edge) and the object (`node_data['obj']`); the position in
the list is the value of the counter, which is a part of the identifier and makes it unique. -/
def graphLoop : Nat → List (Option Nat × Node) → List (Option Nat × Node)
  | _, [] => []
  | counter, (parent, item) :: stack =>
    (parent, item) :: graphLoop (counter + 1)
      ((((children item).reverse).map fun c => (some counter, c)).reverse ++ stack)
termination_by _ stack => (stack.map fun e => count e.2).sum
decreasing_by
  simp only [List.map_append, List.map_reverse, List.map_map, List.sum_append, List.reverse_reverse,
    List.map_cons, List.sum_cons]
  rw [count_children item, show ((fun e : Option Nat × Node => count e.2) ∘ fun c => (some counter, c)) = count
    from rfl]
  omega

def graph (n : Node) : List (Option Nat × Node) := graphLoop 0 [(none, n)]

/-- `leafs`, delayed_base.py:186-203. -/
def leafsLoop : List Node → List Node
  | [] => []
  | item :: stack =>
    if (children item).isEmpty then item :: leafsLoop stack
    else leafsLoop ((children item).reverse ++ stack)
termination_by stack => (stack.map count).sum
decreasing_by
  · simp only [List.map_cons, List.sum_cons]
    rw [count_children item]
    omega
  · simp only [List.map_append, List.map_reverse, List.sum_append, List.sum_reverse,
      List.map_cons, List.sum_cons]
    rw [count_children item]
    omega

def leafs (n : Node) : List Node := leafsLoop [n]

/-- The loop `for part in path[::-1]` of `_leaf_paths`, delayed_base.py:250-267; the argument is
`path[::-1]`.  After the loop `part` is always `prev`. -/
def contract : Option Node → List Node → Py (Option Node)
  | prev, [] => .ok prev
  | prev, part :: rest =>
    match part with
    | .concat _ _ =>
      match prev with
      | none => .error .assertionError
      | some _ => contract prev rest
    | part =>
      match prev with
      | none => contract (some part) rest
      | some x => contract (some (setSub part x)) rest

/-- `_leaf_paths`, delayed_base.py:207-269; a path is stored from its end to the root. -/
def leafPathsLoop : List (Node × List Node) → Py (List (Node × Node))
  | [] => .ok []
  | (item, above) :: stack =>
    if (children item).isEmpty then
      match contract none (item :: above) with
      | .error e => .error e
      | .ok none => .error .generic
      | .ok (some part) =>
        match leafPathsLoop stack with
        | .error e => .error e
        | .ok r => .ok ((item, part) :: r)
    else leafPathsLoop (((children item).map fun c => (c, item :: above)).reverse ++ stack)
termination_by stack => (stack.map fun e => count e.1).sum
decreasing_by
  · simp only [List.map_cons, List.sum_cons]
    rw [count_children item]
    omega
  · simp only [List.map_append, List.map_reverse, List.map_map, List.sum_append, List.sum_reverse,
      List.map_cons, List.sum_cons]
    rw [count_children item, show ((fun e : Node × List Node => count e.1) ∘ fun c => (c, item :: above)) = count
      from rfl]
    omega

def leafPaths (n : Node) : Py (List (Node × Node)) := leafPathsLoop [(n, [])]

/-- `get_transform_from_leaf`, delayed_nodes.py:1467-1474 and delayed_leafs.py:22-29; concats do not have
it. -/
def leafTf : Node → Py Affine
  | .leaf _ => .ok .id
  | .concat _ _ => .error .attributeError
  | .warp s tf d a =>
    match leafTf s with
    | .error e => .error e
    | .ok t => .ok (tfSub (.warp s tf d a) * t)
  | .crop s y0 y1 x0 x1 c =>
    match leafTf s with
    | .error e => .error e
    | .ok t => .ok (tfSub (.crop s y0 y1 x0 x1 c) * t)
  | .overview s k d =>
    match leafTf s with
    | .error e => .error e
    | .ok t => .ok (tfSub (.overview s k d) * t)
  | .dequant s q d =>
    match leafTf s with
    | .error e => .error e
    | .ok t => .ok (tfSub (.dequant s q d) * t)

/-- `id(leaf)`: the number of the leaf stands for the object. -/
def leafKey : Node → Option Nat
  | .leaf l => some l.id
  | _ => none

/-- The value of a key in `{id(k): v for k, v in paths}`: the last one. -/
def lookup (ps : List (Node × Node)) (k : Option Nat) : Option Node :=
  (ps.reverse.find? fun e => decide (leafKey e.1 = k)).map (·.2)

/-- The `except AttributeError` part of `get_transform_from`, delayed_nodes.py:651-672, without the
disabled code. `dst & src` keeps the order of `dst`, `peek_key` gives the first key (ubelt, external). -/
def transformFromPaths (dst src : Node) : Py Affine :=
  match leafPaths src with
  | .error e => .error e
  | .ok sp =>
    match leafPaths dst with
    | .error e => .error e
    | .ok dp =>
      match (dp.map fun e => leafKey e.1).find? (fun k => decide (k ∈ sp.map fun e => leafKey e.1)) with
      | none => .error .generic
      | some k =>
        match lookup sp k, lookup dp k with
        | some s, some d =>
          match leafTf s with
          | .error e => .error e
          | .ok ts =>
            match leafTf d with
            | .error e => .error e
            | .ok td => .ok (td * ts.inv)
        | _, _ => .error .keyError

/-- `dst.get_transform_from(src)`, delayed_nodes.py:610-674. -/
def transformFrom (dst src : Node) : Py Affine :=
  match leafTf src with
  | .error .attributeError => transformFromPaths dst src
  | .error e => .error e
  | .ok s =>
    match leafTf dst with
    | .error .attributeError => transformFromPaths dst src
    | .error e => .error e
    | .ok d => .ok (d * s.inv)

end Tree
end Verif
