/-
`delayed_image/util/util_network_text.py`: the text of a graph, and reading it back with
`parse_network_text`.
-/
import Verif.NetText

namespace Verif
namespace NetText

variable {V : Type} [DecidableEq V]

/-- The attributes of the glyph classes, lines 17-73. -/
structure Glyphs where
  empty : Str
  newtreeLast : Str
  newtreeMid : Str
  endofForest : Str
  withinForest : Str
  withinTree : Str
  last : Str
  mid : Str
  backedge : Str
  verticalEdge : Str

/-- `AsciiDirectedGlyphs`, lines 27-40. -/
def asciiDirected : Glyphs where
  empty := p! "+"
  newtreeLast := p! "+-- "
  newtreeMid := p! "+-- "
  endofForest := p! "    "
  withinForest := p! ":   "
  withinTree := p! "|   "
  last := p! "L-> "
  mid := p! "|-> "
  backedge := p! "<-"
  verticalEdge := p! "!"

/-- `AsciiUndirectedGlyphs`, lines 27-33 and 43-47. -/
def asciiUndirected : Glyphs where
  empty := p! "+"
  newtreeLast := p! "+-- "
  newtreeMid := p! "+-- "
  endofForest := p! "    "
  withinForest := p! ":   "
  withinTree := p! "|   "
  last := p! "L-- "
  mid := p! "|-- "
  backedge := p! "-"
  verticalEdge := p! "|"

/-- `UtfDirectedGlyphs`, lines 50-66. -/
def utfDirected : Glyphs where
  empty := p! "╙"
  newtreeLast := p! "╙── "
  newtreeMid := p! "╟── "
  endofForest := p! "    "
  withinForest := p! "╎   "
  withinTree := p! "│   "
  last := p! "└─╼ "
  mid := p! "├─╼ "
  backedge := p! "╾"
  verticalEdge := p! "╽"

/-- `UtfUndirectedGlyphs`, lines 50-59 and 69-73. -/
def utfUndirected : Glyphs where
  empty := p! "╙"
  newtreeLast := p! "╙── "
  newtreeMid := p! "╟── "
  endofForest := p! "    "
  withinForest := p! "╎   "
  withinTree := p! "│   "
  last := p! "└── "
  mid := p! "├── "
  backedge := p! "─"
  verticalEdge := p! "│"

/-- Lines 220-229 and 820-825: the glyphs in use. -/
def glyphsFor (ascii directed : Bool) : Glyphs :=
  if ascii then if directed then asciiDirected else asciiUndirected
  else if directed then utfDirected else utfUndirected

/-- `glyphs.values()`, lines 18-24. -/
def Glyphs.values (g : Glyphs) : List Str :=
  [g.backedge, g.empty, g.endofForest, g.last, g.mid, g.newtreeLast, g.newtreeMid, g.verticalEdge,
    g.withinForest, g.withinTree]

/-- The text of a glyph. -/
def Glyphs.text (g : Glyphs) : Glyph → Str
  | .newtreeLast => g.newtreeLast
  | .newtreeMid => g.newtreeMid
  | .endofForest => g.endofForest
  | .withinForest => g.withinForest
  | .withinTree => g.withinTree
  | .last => g.last
  | .mid => g.mid

/-- `sep.join(ws)`. -/
def joinStr (sep : Str) : List Str → Str
  | [] => []
  | [w] => w
  | w :: ws => w ++ sep ++ joinStr sep ws

/-- `suffix`, lines 375-398. -/
def suffixText (gl : Glyphs) (others : List Str) : Str :=
  if others.isEmpty then [] else p! " " ++ gl.backedge ++ p! " " ++ joinStr (p! ", ") others

/-- A line, lines 327-330 and 400-406; `label` is `str(node)` or the label of the node. -/
def render (gl : Glyphs) (label : V → Str) : Line V → Str
  | .edge pre => pre.flatMap gl.text ++ gl.verticalEdge
  | .entry pre .dots _ => pre.flatMap gl.text ++ p! " ..."
  | .entry pre (.node v) others => pre.flatMap gl.text ++ label v ++ suffixText gl (others.map label)

/-- `list(generate_network_text(graph, ...))`, lines 76-426. -/
def generateText (g : Graph V) (o : Options) (sources : List V) (ascii : Bool) (label : V → Str) : Py (List Str) :=
  let gl := glyphsFor ascii g.directed
  match generate g o sources with
  | .error e => .error e
  | .ok none => .ok [if o.maxDepth = some 0 then gl.empty ++ p! " ..." else gl.empty]
  | .ok (some ls) => .ok (ls.map (render gl label))

/-! #### strings -/

/-- `a in s`. -/
def isSub (a : Str) : Str → Bool
  | [] => a.isEmpty
  | c :: s => a.isPrefixOf (c :: s) || isSub a s

/-- The text before and after the first occurrence. -/
def cut (sep : Str) : Str → Option (Str × Str)
  | [] => if sep.isEmpty then some ([], []) else none
  | c :: s =>
    if sep.isPrefixOf (c :: s) then some ([], (c :: s).drop sep.length)
    else (cut sep s).map fun r => (c :: r.1, r.2)

theorem cut_length {sep : Str} (hs : sep ≠ []) : ∀ {s a b : Str}, cut sep s = some (a, b) → b.length < s.length
  | [], a, b, h => by
    cases sep with
    | nil => exact absurd rfl hs
    | cons => simp [cut] at h
  | c :: s, a, b, h => by
    rw [cut] at h
    split at h
    · cases h
      have : 0 < sep.length := List.length_pos_of_ne_nil hs
      simp only [List.length_drop, List.length_cons]
      omega
    · simp only [Option.map_eq_some_iff, Prod.mk.injEq] at h
      obtain ⟨⟨a', b'⟩, h1, _, h3⟩ := h
      have := cut_length hs h1
      simp only at h3
      subst h3
      simp only [List.length_cons]
      omega

/-- `s.split(sep)` for a separator that is not empty. -/
def splitStr (sep : Str) (hs : sep ≠ []) (s : Str) : List Str :=
  match h : cut sep s with
  | none => [s]
  | some (a, b) => a :: splitStr sep hs b
termination_by s.length
decreasing_by exact cut_length hs h

/-- `s.rsplit(' ', 1)` as a pair; Python raises `ValueError` when there is no space. -/
def rsplitSpace : Str → Py (Str × Str)
  | [] => .error .valueError
  | c :: s =>
    match rsplitSpace s with
    | .ok (a, b) => .ok (c :: a, b)
    | .error e => if c = ' ' then .ok ([], s) else .error e

/-- `s.rstrip()`. -/
def rstrip (s : Str) : Str := (s.reverse.dropWhile isWs).reverse

/-! #### `parse_network_text`, lines 757-961 -/

/-- `ParseStackFrame`, lines 779-782; the node is `none` for `noparent`. -/
structure PFrame where
  node : Option Str
  indent : Int
  vert : Bool

/-- The variables of the parsing pass; the end of the stack is the head. -/
structure PState where
  stack : List PFrame
  nodes : List Str
  edges : List (Str × Str)
  isEmpty : Bool

/-- Lines 831-844: glyphs that never appear in the other ones. -/
def unambiguous (gl other : Glyphs) : List Str :=
  gl.values.filter fun item => !(other.values.any fun o => isSub item o)

/-- Lines 846-857. -/
def detect (dir und : List Str) : List Str → Bool
  | [] => false
  | line :: rest =>
    if und.any (fun item => isSub item line) then false
    else if dir.any (fun item => isSub item line) then true
    else detect dir und rest

/-- Lines 797-818: whether it is an ASCII text. -/
def isAscii : List Str → Py Bool
  | [] => .ok false
  | [] :: _ => .error .indexError
  | (c :: _) :: _ =>
    if c = '╙' ∨ c = '╟' then .ok false
    else if c = '+' then .ok true
    else .error .assertionError

/-- Lines 888-904: the text before the node, the node, and the nodes of the backedges.  Unpacking raises
`ValueError` when the backedge symbol occurs twice. -/
def lineParts (gl : Glyphs) (line : Str) : Py (Str × Str × List Str) :=
  match cut (p! " " ++ gl.backedge ++ p! " ") line with
  | some (nodePart, rest) =>
    if isSub (p! " " ++ gl.backedge ++ p! " ") rest then .error .valueError
    else
      match rsplitSpace (rstrip nodePart) with
      | .error e => .error e
      | .ok (pre, node) => .ok (pre, strip node, (splitStr (p! ", ") (by decide) rest).map strip)
  | none =>
    match rsplitSpace line with
    | .error e => .error e
    | .ok (pre, node) => .ok (pre, strip node, [])

/-- Lines 937-938. -/
def popUntil (indent : Int) (prev : PFrame) : List PFrame → Py (PFrame × List PFrame)
  | [] => if indent ≤ prev.indent then .error .indexError else .ok (prev, [])
  | p :: rest => if indent ≤ prev.indent then popUntil indent p rest else .ok (prev, p :: rest)

/-- One round of the loop, lines 881-954. -/
def parseLine (gl : Glyphs) (st : PState) (line : Str) : Py PState :=
  if line = gl.empty then .ok { st with isEmpty := true }
  else
    match lineParts gl line with
    | .error e => .error e
    | .ok (pre, node, backs) =>
      let edges := st.edges ++ backs.map fun u => (u, node)
      match st.stack with
      | [] => .error .indexError
      | prev :: stack =>
        if isSub node gl.verticalEdge then
          .ok { st with stack := { prev with vert := true } :: stack, edges := edges }
        else
          let indent : Int := pre.length
          match (if prev.vert then .ok (prev, stack) else popUntil indent prev stack) with
          | .error e => .error e
          | .ok (prev, stack) =>
            if node = p! "..." then .ok { st with stack := prev :: stack, edges := edges }
            else
              .ok { st with
                stack := ⟨some node, indent, false⟩ :: prev :: stack
                nodes := st.nodes ++ [node]
                edges := edges ++ (match prev.node with
                  | some p => [(p, node)]
                  | none => []) }

def parseLines (gl : Glyphs) : PState → List Str → Py PState
  | st, [] => .ok st
  | st, line :: rest =>
    match parseLine gl st line with
    | .error e => .error e
    | .ok st' => parseLines gl st' rest

/-- The graph that is built, lines 960-965: whether it is directed, the nodes and the edges that are
added. -/
structure Parsed where
  directed : Bool
  nodes : List Str
  edges : List (Str × Str)

/-- `parse_network_text(lines)`, lines 757-961.  networkx is external. -/
def parse (lines : List Str) : Py Parsed :=
  match isAscii lines with
  | .error e => .error e
  | .ok ascii =>
    let directed := detect (unambiguous (glyphsFor ascii true) (glyphsFor ascii false))
      (unambiguous (glyphsFor ascii false) (glyphsFor ascii true)) lines.tail
    match parseLines (glyphsFor ascii directed) ⟨[⟨none, -1, false⟩], [], [], false⟩ lines with
    | .error e => .error e
    | .ok st =>
      if st.isEmpty && !st.nodes.isEmpty then .error .assertionError
      else .ok ⟨directed, st.nodes, st.edges⟩

end NetText
end Verif
