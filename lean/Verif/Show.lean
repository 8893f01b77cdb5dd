/-
`as_graph`, `print_graph` and `write_network_text` of an image, delayed_base.py:117-160 and 271-351: the
graph of `Walk.lean` printed by `NetText.lean`.

Simplified: the labels (`ub.urepr` of the metadata) are a parameter, and what `rich.print` makes of a line
when that package is installed is left out.
-/
import Verif.Walk
import Verif.NetParse

namespace Verif
namespace Show

open _root_.Verif.Tree NetText

/-- The classes of leaves, delayed_leafs.py:43, 362, 446 and 492. -/
inductive LeafClass where
  | load | nans | nodata | identity
deriving DecidableEq

/-- `item.__class__.__name__`. -/
def className (kind : Leaf → LeafClass) : Node → Str
  | .leaf l =>
    match kind l with
    | .load => p! "DelayedLoad"
    | .nans => p! "DelayedNans"
    | .nodata => p! "DelayedNodata"
    | .identity => p! "DelayedIdentity"
  | .concat _ _ => p! "DelayedChannelConcat"
  | .warp _ _ _ _ => p! "DelayedWarp"
  | .crop _ _ _ _ _ _ => p! "DelayedCrop"
  | .overview _ _ _ => p! "DelayedOverview"
  | .dequant _ _ _ => p! "DelayedDequantize"

/-- `node_id`, delayed_base.py:290; `ndigits` is computed from the graph while it is empty and is 1. -/
def nodeId (kind : Leaf → LeafClass) (counter : Nat) (item : Node) : Str :=
  className kind item ++ '_' :: natStr counter

/-- The ends of the edges from node `v`, in the order in which `add_edge` is called, delayed_base.py:292-294;
the list starts with node `i`. -/
def targets (v : Nat) : Nat → List (Option Nat × Node) → List Nat
  | _, [] => []
  | i, e :: es => if e.1 = some v then i :: targets v (i + 1) es else targets v (i + 1) es

/-- `_traversed_graph` as a `networkx.DiGraph`, delayed_base.py:271-306; nodes are named by the counter. -/
def diGraph (es : List (Option Nat × Node)) : Graph Nat where
  directed := true
  nodes := List.range es.length
  succ v := targets v 0 es
  pred v := ((es[v]?).bind Prod.fst).toList
  collapse _ := false

/-- `write_network_text` of an image, delayed_base.py:332-351, with the sources of
util_network_text.py:248-258; `label` is the label of the node, or its identifier with `with_labels=False`;
`comps` are the strongly connected components that networkx finds. -/
def printGraph (n : Node) (vertical ascii : Bool) (label : Nat → Str) (comps : List (List Nat)) : Py (List Str) :=
  match findSources (diGraph (graph n)) comps with
  | .error e => .error e
  | .ok src => generateText (diGraph (graph n)) ⟨none, vertical⟩ src ascii label

/-- The labels with `with_labels=False`: the identifiers of the nodes. -/
def idLabel (kind : Leaf → LeafClass) (n : Node) (k : Nat) : Str :=
  match (graph n)[k]? with
  | some e => nodeId kind k e.2
  | none => []

end Show
end Verif
