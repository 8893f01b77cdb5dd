/-
C81: what the channels are called, which files are shown and how they are quantized does not influence what is done
with an image.
-/
import Verif.Raster
import Verif.Props.Opt
import Verif.Built

namespace Verif.Props

open Helpers Tree Node

/-! #### specification -/

/-- Other names for channels, other files in place of the files, other quantizations. -/
structure Change (Q Q' : Type) where
  name : Str → Str
  file : Nat → Nat
  quant : Q → Q'

variable {Q Q' : Type}

/-- A leaf with other names and another file of the same size. -/
def Change.leaf (χ : Change Q Q') (l : Leaf) : Leaf :=
  { l with id := χ.file l.id, names := l.names.map (List.map χ.name) }

mutual
/-- The same operations on other leaves. -/
def Change.node (χ : Change Q Q') : Node Q → Node Q'
  | .leaf l => .leaf (χ.leaf l)
  | .concat ps d => .concat (χ.nodes ps) d
  | .warp s tf d a => .warp (χ.node s) tf d a
  | .crop s y0 y1 x0 x1 c => .crop (χ.node s) y0 y1 x0 x1 c
  | .overview s k d => .overview (χ.node s) k d
  | .dequant s q d => .dequant (χ.node s) (χ.quant q) d
def Change.nodes (χ : Change Q Q') : List (Node Q) → List (Node Q')
  | [] => []
  | p :: ps => χ.node p :: χ.nodes ps
end

/-- The other files have the same pixels, and the other quantizations do the same. -/
structure Change.Alike {V : Type} (χ : Change Quantization Quantization) (E E' : Env V) : Prop where
  img : ∀ k, E'.img (χ.file k) = E.img k
  deq : ∀ q v, E'.deq (χ.quant q) v = E.deq q v
  overview : ∀ n k i, E'.overview (χ.node n) k i = E.overview n k i
  nan : E'.nan = E.nan
  border : E'.border = E.border
  warp : E'.warp = E.warp
  resize : E'.resize = E.resize
  finite : E'.finite = E.finite
  unique : E'.unique = E.unique

/-! #### proofs -/

namespace Change

variable (χ : Change Q Q')

theorem nodes_eq : ∀ ps : List (Node Q), χ.nodes ps = ps.map χ.node
  | [] => rfl
  | p :: ps => by rw [Change.nodes, nodes_eq ps, List.map_cons]

theorem dsize (n : Node Q) : (χ.node n).dsize = n.dsize := by
  cases n <;> rfl

mutual
theorem nchan : ∀ n : Node Q, (χ.node n).nchan = n.nchan
  | .leaf l => rfl
  | .concat ps d => by simpa only [Change.node, Node.nchan] using nchans ps
  | .warp s tf d a => by simpa only [Change.node, Node.nchan] using nchan s
  | .crop s y0 y1 x0 x1 c => by
    cases c with
    | none => simpa only [Change.node, Node.nchan] using nchan s
    | some c => simp only [Change.node, Node.nchan]
  | .overview s k d => by simpa only [Change.node, Node.nchan] using nchan s
  | .dequant s q d => by simpa only [Change.node, Node.nchan] using nchan s
theorem nchans : ∀ ps : List (Node Q), Node.nchans (χ.nodes ps) = Node.nchans ps
  | [] => rfl
  | p :: ps => by simp only [Change.nodes, Node.nchans, nchan p, nchans ps]
end

mutual
/-- How many names there are, if there are names. -/
theorem count : ∀ n : Node Q, (χ.node n).channels.map List.length = n.channels.map List.length
  | .leaf l => by
    simp only [Change.node, Node.channels, Change.leaf, Option.map_map]
    congr 1
    funext x; simp
  | .concat ps d => by simpa only [Change.node, Node.channels] using counts ps
  | .warp s tf d a => by simpa only [Change.node, Node.channels] using count s
  | .crop s y0 y1 x0 x1 c => by
    cases c with
    | none => simpa only [Change.node, Node.channels] using count s
    | some c =>
      have h := count s
      simp only [Change.node, Node.channels]
      cases h1 : (χ.node s).channels <;> cases h2 : s.channels <;> rw [h1, h2] at h <;> simp_all [pick]
  | .overview s k d => by simpa only [Change.node, Node.channels] using count s
  | .dequant s q d => by simpa only [Change.node, Node.channels] using count s
theorem counts : ∀ ps : List (Node Q),
    (Node.channelsL (χ.nodes ps)).map List.length = (Node.channelsL ps).map List.length
  | [] => rfl
  | p :: ps => by
    have h := count p
    have hs := counts ps
    simp only [Change.nodes, Node.channelsL]
    cases h1 : (χ.node p).channels <;> cases h2 : p.channels <;> rw [h1, h2] at h <;>
      cases h3 : Node.channelsL (χ.nodes ps) <;> cases h4 : Node.channelsL ps <;> rw [h3, h4] at hs <;> simp_all
end

mutual
theorem numOverviews : ∀ n : Node Q, (χ.node n).numOverviews = n.numOverviews
  | .leaf l => rfl
  | .concat ps d => by simp only [Change.node, Node.numOverviews, numOverviewsL ps]
  | .warp s tf d a => by simp only [Change.node, Node.numOverviews, numOverviews s]
  | .crop s y0 y1 x0 x1 c => by simp only [Change.node, Node.numOverviews, numOverviews s]
  | .overview s k d => by simp only [Change.node, Node.numOverviews, numOverviews s]
  | .dequant s q d => by simp only [Change.node, Node.numOverviews, numOverviews s]
theorem numOverviewsL : ∀ ps : List (Node Q), Node.numOverviewsL (χ.nodes ps) = Node.numOverviewsL ps
  | [] => rfl
  | p :: ps => by simp only [Change.nodes, Node.numOverviewsL, numOverviews p, numOverviewsL ps]
end

/-- Two computations, the second with changed results. -/
abbrev Like {α β : Type} (g : α → β) (x : Py α) (y : Py β) : Prop := y = x.map g

theorem mapAll_like {α β α' β' : Type} {f : α → Py β} {f' : α' → Py β'} {g : α → α'} {h : β → β'} :
    ∀ (l : List α), (∀ x ∈ l, f' (g x) = (f x).map h) → mapAll f' (l.map g) = (mapAll f l).map (List.map h)
  | [], _ => rfl
  | x :: xs, hx => by
    have ih := mapAll_like (f := f) (f' := f') (g := g) (h := h) xs fun y hy => hx y (by simp [hy])
    simp only [List.map_cons, mapAll, hx x (by simp), ih]
    cases f x with
    | error e => rfl
    | ok y => cases mapAll f xs <;> rfl

theorem mkConcat (ps : List (Node Q)) : Tree.mkConcat (χ.nodes ps) = (Tree.mkConcat ps).map χ.node := by
  cases ps with
  | nil => rfl
  | cons p ps =>
    simp only [Change.nodes, Tree.mkConcat, nodes_eq, List.all_map, Function.comp_def, dsize]
    split
    · simp [Except.map, Change.node, Change.nodes, nodes_eq]
    · rfl

theorem chanCheck (s : Node Q) (c : Option (List Nat)) : Tree.chanCheck (χ.node s) c = Tree.chanCheck s c := by
  cases c with
  | none => rfl
  | some c =>
    have h := χ.count s
    unfold Tree.chanCheck
    cases h1 : (χ.node s).channels <;> cases h2 : s.channels <;> rw [h1, h2] at h <;> simp_all

theorem mkCrop (s : Node Q) (sl : Option Space) (c : Option (List Nat)) :
    Tree.mkCrop (χ.node s) sl c = (Tree.mkCrop s sl c).map χ.node := by
  unfold Tree.mkCrop
  rw [chanCheck, dsize]
  cases Tree.chanCheck s c with
  | error e => rfl
  | ok u => cases sl <;> rfl

theorem mkOverview (s : Node Q) (k : Int) : Tree.mkOverview (χ.node s) k = χ.node (Tree.mkOverview s k) := by
  simp only [Tree.mkOverview, dsize, Change.node]

theorem mkDequant (s : Node Q) (q : Q) : Tree.mkDequant (χ.node s) (χ.quant q) = χ.node (Tree.mkDequant s q) := by
  simp only [Tree.mkDequant, dsize, Change.node]

theorem mkWarp (s : Node Q) (tf : Affine) (d : Option (Int × Int)) (a : Algo) :
    Tree.mkWarp (χ.node s) tf d a = χ.node (Tree.mkWarp s tf d a) := by
  simp only [Tree.mkWarp, dsize, Change.node]

theorem paddedCrop (s : Node Q) (y0 y1 x0 x1 : Int) (pad : (Int × Int) × (Int × Int)) :
    Tree.paddedCrop (χ.node s) y0 y1 x0 x1 pad = (Tree.paddedCrop s y0 y1 x0 x1 pad).map χ.node := by
  simp only [Tree.paddedCrop, dsize, mkCrop]
  cases embedSlice y0 y1 s.dsize.2 pad.1.1 pad.1.2 with
  | error e => rfl
  | ok y =>
    obtain ⟨ysl, yex⟩ := y
    cases embedSlice x0 x1 s.dsize.1 pad.2.1 pad.2.2 with
    | error e => rfl
    | ok x =>
      obtain ⟨xsl, xex⟩ := x
      simp only
      cases Tree.mkCrop s (ints ysl.1 ysl.2 xsl.1 xsl.2) none with
      | error e => rfl
      | ok new =>
        simp only [Except.map]
        split
        · rw [mkWarp]
        · rfl

theorem nanLeaf (kind : Nat) (d : Int × Int) (names : Option (List Str)) :
    Tree.nanLeaf (χ.file kind) d (names.map (List.map χ.name)) = χ.node (Tree.nanLeaf kind d names) := by
  cases names <;> simp [Tree.nanLeaf, Change.node, Change.leaf]

/-! the optimizer -/

theorem subOf (n : Node Q) : Tree.subOf (χ.node n) = (Tree.subOf n).map (Option.map χ.node) := by
  cases n <;> rfl

theorem setSub (n s : Node Q) : Tree.setSub (χ.node n) (χ.node s) = χ.node (Tree.setSub n s) := by
  cases n <;> rfl

theorem reapply (op p : Node Q) : Tree.reapply (χ.node op) (χ.node p) = (Tree.reapply op p).map χ.node := by
  cases op with
  | leaf l => rfl
  | concat ps d => rfl
  | warp s tf d a => rfl
  | crop s y0 y1 x0 x1 c => simp only [Tree.reapply, Change.node, mkCrop]
  | overview s k d => simp [Tree.reapply, Change.node, mkOverview, Except.map]
  | dequant s q d => simp [Tree.reapply, Change.node, mkDequant, Except.map]

theorem pushUnder (op : Node Q) (ps : List (Node Q)) :
    Tree.pushUnder (χ.node op) (χ.nodes ps) = (Tree.pushUnder op ps).map (Option.map χ.node) := by
  unfold Tree.pushUnder
  rw [nodes_eq, mapAll_like (f := Tree.reapply op) ps fun p _ => reapply χ op p]
  cases mapAll (Tree.reapply op) ps with
  | error e => rfl
  | ok qs =>
    simp only [Except.map]
    rw [← nodes_eq, mkConcat]
    cases Tree.mkConcat qs with
    | error e => cases e <;> rfl
    | ok c => rfl

/-- The same operation on the way. -/
def link : Link Q → Link Q'
  | .deq q d => .deq (χ.quant q) d
  | .crop y0 y1 x0 x1 c => .crop y0 y1 x0 x1 c

theorem look : ∀ (f : Nat) (n : Node Q), Tree.look f (χ.node n) =
    (Tree.look f n).map fun r => (r.1.map χ.link, χ.node r.2.1, r.2.2)
  | 0, _ => rfl
  | f + 1, .overview s k d => rfl
  | f + 1, .dequant s q d => by
    simp only [Change.node, Tree.look, look f s]
    cases Tree.look f s <;> rfl
  | f + 1, .crop s y0 y1 x0 x1 c => by
    simp only [Change.node, Tree.look, look f s]
    cases Tree.look f s <;> rfl
  | f + 1, .leaf l => rfl
  | f + 1, .concat ps d => rfl
  | f + 1, .warp s tf d a => rfl

theorem warpAfterCrop (s : Node Q) (tf : Affine) (y0 y1 x0 x1 : Int) (c : Option (List Nat)) :
    Tree.warpAfterCrop (χ.node s) tf y0 y1 x0 x1 c =
      (Tree.warpAfterCrop s tf y0 y1 x0 x1 c).map (Option.map fun r => (χ.node r.1, r.2)) := by
  unfold Tree.warpAfterCrop
  split
  · rfl
  · simp only [dsize, mkCrop]
    cases Tree.mkCrop s _ c <;> rfl

theorem relink : ∀ (ls : List (Link Q)) (n : Node Q),
    Tree.relink (ls.map χ.link) (χ.node n) = (Tree.relink ls n).map χ.node
  | [], _ => rfl
  | .deq q d :: ls, n => by
    simp only [List.map_cons, link, Tree.relink, relink ls n, dsize]
    cases Tree.relink ls n <;> rfl
  | .crop .. :: ls, n => rfl

theorem isCrop (l : Link Q) : (χ.link l).isCrop = l.isCrop := by cases l <;> rfl

theorem absorb (H : Heur) (s : Node Q) (tf : Affine) (d : Int × Int) (a : Algo) :
    Tree.absorb H (χ.node s) tf d a = (Tree.absorb H s tf d a).map χ.node := by
  unfold Tree.absorb
  split
  · rfl
  · rw [look]
    cases Tree.look 4 s with
    | none => rfl
    | some r =>
      obtain ⟨chain, osub, k, dk⟩ := r
      have hl : ((chain.map χ.link).filter Link.isCrop).length = (chain.filter Link.isCrop).length := by
        rw [List.filter_map, List.length_map]
        congr 2
        funext l
        exact χ.isCrop l
      simp only [Option.map, hl]
      split
      · rfl
      · rw [List.getLast?_map, ← List.map_dropLast]
        cases hg : chain.getLast? with
        | none =>
          simp only [Option.map, relink]
          cases Tree.relink chain osub <;> rfl
        | some l =>
          cases l with
          | deq q dq =>
            simp only [Option.map, link, relink]
            cases Tree.relink chain osub <;> rfl
          | crop y0 y1 x0 x1 c =>
            simp only [Option.map, link, warpAfterCrop]
            cases Tree.warpAfterCrop osub (ovScale k) y0 y1 x0 x1 c with
            | error e => rfl
            | ok o =>
              cases o with
              | none => rfl
              | some r =>
                simp only [Except.map, Option.map, relink]
                cases Tree.relink chain.dropLast r.1 <;> rfl

theorem fuseCrops (s : Node Q) (iy0 iy1 ix0 ix1 : Int) (ic : Option (List Nat)) (y0 y1 x0 x1 : Int)
    (c : Option (List Nat)) : Tree.fuseCrops (χ.node s) iy0 iy1 ix0 ix1 ic y0 y1 x0 x1 c =
      (Tree.fuseCrops s iy0 iy1 ix0 ix1 ic y0 y1 x0 x1 c).map χ.node := by
  unfold Tree.fuseCrops
  cases fuseChans ic c with
  | error e => rfl
  | ok nc => simp only [mkCrop]

theorem map_pick {l : List Str} : ∀ {c : List Nat}, c.all (fun i => decide (i < l.length)) = true →
    pick [] (l.map χ.name) c = (pick [] l c).map χ.name
  | [], _ => rfl
  | i :: c, h => by
    simp only [List.all_cons, Bool.and_eq_true, decide_eq_true_eq] at h
    have ih := map_pick h.2
    simp only [pick, List.map_cons, List.map_map] at ih ⊢
    rw [ih, List.getD_eq_getElem _ _ (by simpa using h.1), List.getD_eq_getElem _ _ h.1, List.getElem_map]

theorem nanCrop (l : Leaf) (y0 y1 x0 x1 : Int) (c : Option (List Nat)) :
    Tree.nanCrop (χ.leaf l) y0 y1 x0 x1 c = (Tree.nanCrop l y0 y1 x0 x1 c : Py (Node Q)).map χ.node := by
  have e : ∀ (names : Option (List Str)) (d : Int × Int),
      Tree.nanLeaf (χ.leaf l).id d (names.map (List.map χ.name)) = χ.node (Tree.nanLeaf l.id d names) :=
    fun names d => nanLeaf χ l.id d names
  simp only [Tree.nanCrop, show (χ.leaf l).dsize = l.dsize from rfl,
    show (χ.leaf l).names = l.names.map (List.map χ.name) from rfl]
  cases c with
  | none =>
    simp only [e]
    cases embedSlice y0 y1 l.dsize.2 0 0 with
    | error e => rfl
    | ok y => cases embedSlice x0 x1 l.dsize.1 0 0 <;> rfl
  | some c =>
    cases hn : l.names with
    | none => rfl
    | some names =>
      simp only [Option.map_some, List.length_map]
      by_cases h : c.all (fun i => decide (i < names.length)) = true
      · simp only [if_pos h, map_pick χ h]
        have e' := e (some (pick [] names c))
        simp only [Option.map_some] at e'
        simp only [e']
        cases embedSlice y0 y1 l.dsize.2 0 0 with
        | error e => rfl
        | ok y => cases embedSlice x0 x1 l.dsize.1 0 0 <;> rfl
      · simp only [if_neg h]
        rfl

theorem cropAfterOverview (H : Heur) (s : Node Q) (y0 y1 x0 x1 : Int) (c : Option (List Nat)) (k : Int) :
    Tree.cropAfterOverview H (χ.node s) y0 y1 x0 x1 c k = (Tree.cropAfterOverview H s y0 y1 x0 x1 c k).map χ.node := by
  simp only [Tree.cropAfterOverview, mkOverview, mkCrop]
  cases Tree.mkCrop (Tree.mkOverview s k) _ c with
  | error e => rfl
  | ok cr =>
    simp only [Except.map]
    split
    · rfl
    · rw [mkWarp]

theorem warpAfterOverview (s : Node Q) (tf : Affine) (k : Int) :
    Tree.warpAfterOverview (χ.node s) tf k = χ.node (Tree.warpAfterOverview s tf k) := by
  simp only [Tree.warpAfterOverview, mkOverview, mkWarp]

/-! selecting -/

/-- The names of a segment. -/
def seg (s : Seg) : Seg := { s with codes := s.codes.map (List.map χ.name) }

theorem seg_add (s : Seg) (i : Nat) (code : Option Str) :
    (χ.seg s).add i (code.map χ.name) = χ.seg (s.add i code) := by
  unfold Seg.add seg
  cases s.start <;> cases s.codes <;> cases code <;> simp

theorem seg_extend (st : Acc) (comp : Option Nat) (i : Nat) (code : Option Str) :
    extend (st.1.map χ.seg, st.2.map χ.seg) comp i (code.map χ.name) =
      ((extend st comp i code).1.map χ.seg, (extend st comp i code).2.map χ.seg) := by
  obtain ⟨done, curr⟩ := st
  have hn : (Seg.new comp).add i (code.map χ.name) = χ.seg ((Seg.new comp).add i code) := seg_add χ (Seg.new comp) i code
  unfold extend
  cases curr with
  | none => simp [hn]
  | some c =>
    simp only [Option.map_some, show (χ.seg c).comp = c.comp from rfl]
    split <;> simp [hn, seg_add]

theorem accLoop (sizes : List Nat) : ∀ (rs : List (Option Nat × Option Str)) (st : Acc),
    Tree.accLoop sizes (st.1.map χ.seg, st.2.map χ.seg) (rs.map fun r => (r.1, r.2.map χ.name)) =
      (Tree.accLoop sizes st rs).map (List.map χ.seg)
  | [], st => by
    simp only [List.map_nil, Tree.accLoop, Except.map, List.map_append]
    cases st.2 <;> rfl
  | r :: rs, st => by
    have hl : locate sizes (st.2.map χ.seg) r.1 = locate sizes st.2 r.1 := by
      unfold locate
      cases r.1 with
      | none => cases st.2 <;> rfl
      | some i => rfl
    simp only [List.map_cons, Tree.accLoop, hl]
    cases locate sizes st.2 r.1 with
    | error e => rfl
    | ok p =>
      obtain ⟨comp, inner⟩ := p
      simp only
      rw [seg_extend]
      exact accLoop sizes rs _

theorem concatTake (d : Int × Int) {parts : List (Node Q × (List Nat → Py (Node Q)))}
    {parts' : List (Node Q' × (List Nat → Py (Node Q')))}
    (hp : List.Forall₂ (fun p p' => p'.1 = χ.node p.1 ∧ ∀ is, p'.2 is = (p.2 is).map χ.node) parts parts')
    (hfile : χ.file 0 = 0) (rs : List (Option Nat × Option Str)) :
    Tree.concatTake d parts' (rs.map fun r => (r.1, r.2.map χ.name)) = (Tree.concatTake d parts rs).map χ.node := by
  unfold Tree.concatTake
  have hs : parts'.map (fun p => p.1.nchan) = parts.map (fun p => p.1.nchan) := by
    induction hp with
    | nil => rfl
    | cons h _ ih => simp only [List.map_cons, h.1, nchan, ih]
  rw [hs]
  have ha := χ.accLoop (parts.map fun p => p.1.nchan) rs ([], none)
  simp only [List.map_nil, Option.map_none] at ha
  rw [ha]
  cases Tree.accLoop (parts.map fun p => p.1.nchan) ([], none) rs with
  | error e => rfl
  | ok segs =>
    simp only [Except.map]
    rw [mapAll_like (f := Seg.sub d parts) (h := χ.node) segs]
    · cases mapAll (Seg.sub d parts) segs with
      | error e => rfl
      | ok comps => simp only [Except.map]; rw [← nodes_eq, mkConcat]; rfl
    · intro s _
      unfold Seg.sub
      simp only [show (χ.seg s).comp = s.comp from rfl]
      cases s.comp with
      | none =>
        simp only [seg, Except.map]
        rw [← nanLeaf, hfile]
      | some o =>
        have ho : ∀ {ps : List (Node Q × (List Nat → Py (Node Q)))}
            {ps' : List (Node Q' × (List Nat → Py (Node Q')))} (k : Nat),
            List.Forall₂ (fun p p' => p'.1 = χ.node p.1 ∧ ∀ is, p'.2 is = (p.2 is).map χ.node) ps ps' →
            (ps[k]? = none ∧ ps'[k]? = none) ∨ ∃ p p', ps[k]? = some p ∧ ps'[k]? = some p' ∧ p'.1 = χ.node p.1 ∧
              ∀ is, p'.2 is = (p.2 is).map χ.node := by
          intro ps ps' k h
          induction h generalizing k with
          | nil => exact .inl ⟨rfl, rfl⟩
          | cons h _ ih =>
            cases k with
            | zero => exact .inr ⟨_, _, rfl, rfl, h.1, h.2⟩
            | succ k => simpa using ih k
        rcases ho o hp with ⟨h1, h2⟩ | ⟨p, p', h1, h2, h3, h4⟩
        · simp only [h1, h2]; rfl
        · simp only [h1, h2]
          rw [h3, nchan, show (χ.seg s).indexer p.1.nchan = s.indexer p.1.nchan from rfl]
          cases s.indexer p.1.nchan with
          | error e => rfl
          | ok o => cases o with
            | none => simp only [h3]; rfl
            | some is => exact h4 is

variable (hfile : χ.file 0 = 0)
include hfile

mutual
theorem takeIdx : ∀ (n : Node Q) (is : List Nat), Tree.takeIdx (χ.node n) is = (Tree.takeIdx n is).map χ.node
  | .concat ps d, is => by
    have hc := χ.counts ps
    simp only [Change.node, Tree.takeIdx]
    cases h1 : Node.channelsL (χ.nodes ps) <;> cases h2 : Node.channelsL ps <;> rw [h1, h2] at hc
    · rfl
    · cases hc
    · cases hc
    · have := χ.concatTake d (takers ps) hfile (is.map fun i => (some i, none))
      simpa [List.map_map, Function.comp_def] using this
  | .leaf l, is => mkCrop χ (.leaf l) none (some is)
  | .warp s tf d a, is => mkCrop χ (.warp s tf d a) none (some is)
  | .crop s y0 y1 x0 x1 c, is => mkCrop χ (.crop s y0 y1 x0 x1 c) none (some is)
  | .overview s k d, is => mkCrop χ (.overview s k d) none (some is)
  | .dequant s q d, is => mkCrop χ (.dequant s q d) none (some is)
theorem takers : ∀ ps : List (Node Q), List.Forall₂
    (fun p p' => p'.1 = χ.node p.1 ∧ ∀ is, p'.2 is = (p.2 is).map χ.node) (Tree.takers ps) (Tree.takers (χ.nodes ps))
  | [] => .nil
  | p :: ps => by
    simp only [Change.nodes, Tree.takers]
    exact .cons ⟨rfl, takeIdx p⟩ (takers ps)
end

omit hfile

section rec
variable {rec : Node Q → Py (Node Q)} {rec' : Node Q' → Py (Node Q')}
  (hrec : ∀ n, rec' (χ.node n) = (rec n).map χ.node)
include hrec

theorem finish (n : Node Q) : Tree.finish rec' (χ.node n) = (Tree.finish rec n).map χ.node := by
  unfold Tree.finish
  rw [subOf]
  cases h : Tree.subOf n with
  | error e => rfl
  | ok o =>
    cases o with
    | none => rfl
    | some s =>
      cases s with
      | concat ps d =>
        simp only [Except.map, Option.map, Change.node, pushUnder]
        cases Tree.pushUnder n ps with
        | error e => rfl
        | ok o => cases o with
          | none => rfl
          | some p => exact hrec p
      | _ => rfl

theorem split (H : Heur) (s : Node Q) (tf : Affine) (d : Int × Int) (a : Algo) :
    Tree.split H rec' (χ.node s) tf d a = (Tree.split H rec s tf d a).map (Option.map χ.node) := by
  unfold Tree.split
  rw [numOverviews]
  cases s.numOverviews with
  | error e => rfl
  | ok o =>
    cases o with
    | none => rfl
    | some num =>
      simp only
      by_cases h1 : num = 0
      · simp only [if_pos h1]; rfl
      simp only [if_neg h1]
      by_cases h2 : (!H.canSplit tf) = true
      · simp only [if_pos h2]; rfl
      simp only [if_neg h2]
      by_cases h3 : min num (H.downs tf) = 0
      · simp only [if_pos h3]; rfl
      simp only [if_neg h3, mkOverview, dsize, paddedCrop]
      by_cases h4 : H.closeId (tf * (ovScale (min num (H.downs tf))).inv) = true
      · simp only [if_pos h4]
        by_cases h5 : (Tree.mkOverview s (min num (H.downs tf))).dsize ≠ d
        · simp only [if_pos h5]
          cases Tree.paddedCrop (Tree.mkOverview s (min num (H.downs tf))) 0 d.2 0 d.1 ((0, 0), (0, 0)) with
          | error e => rfl
          | ok c =>
            simp only [Except.map, hrec]
            cases rec c <;> rfl
        · simp only [if_neg h5]; rfl
      · simp only [if_neg h4]; rfl

theorem warpRest (H : Heur) (s : Node Q) (tf : Affine) (d : Int × Int) (a : Algo) :
    Tree.warpRest H rec' (χ.node s) tf d a = (Tree.warpRest H rec s tf d a).map χ.node := by
  have rest : (match Tree.split H rec' (χ.node s) tf d a with
        | .error e => .error e
        | .ok none => Tree.absorb H (χ.node s) tf d a
        | .ok (some new) =>
          match Tree.subOf new with
          | .error e => .error e
          | .ok none => .error .attributeError
          | .ok (some x) =>
            match rec' x with
            | .error e => .error e
            | .ok x' => rec' (Tree.setSub new x') : Py (Node Q')) =
      (match Tree.split H rec s tf d a with
        | .error e => .error e
        | .ok none => Tree.absorb H s tf d a
        | .ok (some new) =>
          match Tree.subOf new with
          | .error e => .error e
          | .ok none => .error .attributeError
          | .ok (some x) =>
            match rec x with
            | .error e => .error e
            | .ok x' => rec (Tree.setSub new x') : Py (Node Q)).map χ.node := by
    rw [split χ hrec, absorb]
    cases Tree.split H rec s tf d a with
    | error e => rfl
    | ok o =>
      cases o with
      | none => rfl
      | some new =>
        simp only [Except.map, Option.map, subOf]
        cases Tree.subOf new with
        | error e => rfl
        | ok o =>
          cases o with
          | none => rfl
          | some x =>
            simp only [Except.map, Option.map, hrec]
            cases rec x with
            | error e => rfl
            | ok x' => simp only [Except.map, setSub]; exact hrec _
  by_cases hd : d = s.dsize ∧ H.negl a.noopEps tf = true
  · unfold Tree.warpRest
    rw [dsize, if_pos hd, if_pos hd]
    rfl
  · cases s with
    | concat ps dc =>
      have := pushUnder χ (.warp (.concat ps dc) tf d a) ps
      simp only [Change.node] at this
      unfold Tree.warpRest
      rw [dsize, if_neg hd, if_neg hd]
      simp only [Change.node, this]
      cases Tree.pushUnder (.warp (.concat ps dc) tf d a) ps with
      | error e => rfl
      | ok o => cases o with
        | none => rfl
        | some p => exact hrec p
    | leaf l =>
      unfold Tree.warpRest
      rw [dsize, if_neg hd, if_neg hd]
      cases hl : l.nan with
      | true =>
        simp only [Change.node, Change.leaf, hl, if_true]
        rw [nanLeaf]
        exact hrec _
      | false =>
        simp only [Change.node, show (χ.leaf l).nan = l.nan from rfl, hl, Bool.false_eq_true, if_false] at rest ⊢
        exact rest
    | warp x tf' d' a' =>
      unfold Tree.warpRest
      rw [dsize, if_neg hd, if_neg hd]
      exact rest
    | crop x y0 y1 x0 x1 c =>
      unfold Tree.warpRest
      rw [dsize, if_neg hd, if_neg hd]
      exact rest
    | overview x k d' =>
      unfold Tree.warpRest
      rw [dsize, if_neg hd, if_neg hd]
      exact rest
    | dequant x q d' =>
      unfold Tree.warpRest
      rw [dsize, if_neg hd, if_neg hd]
      exact rest

theorem optWarp (H : Heur) (s : Node Q) (tf : Affine) (d : Int × Int) (a : Algo) :
    Tree.optWarp H rec' (χ.node s) tf d a = (Tree.optWarp H rec s tf d a).map χ.node := by
  unfold Tree.optWarp
  rw [hrec]
  cases rec s with
  | error e => rfl
  | ok s' =>
    cases s' <;> exact warpRest χ hrec H _ _ _ _

theorem cropConcat (hfile : χ.file 0 = 0) (ps : List (Node Q)) (d : Int × Int) (y0 y1 x0 x1 : Int)
    (c : Option (List Nat)) : Tree.cropConcat rec' (χ.nodes ps) d y0 y1 x0 x1 c =
      (Tree.cropConcat rec ps d y0 y1 x0 x1 c).map χ.node := by
  have rest : ∀ t : Node Q, (match Tree.mkCrop (χ.node t) (ints y0 y1 x0 x1) none with
      | .error e => .error e
      | .ok cr =>
        match χ.node t with
        | .concat qs _ =>
          match Tree.pushUnder cr qs with
          | .error e => .error e
          | .ok none => rec' cr
          | .ok (some p) => rec' p
        | _ => rec' cr : Py (Node Q')) =
      (match Tree.mkCrop t (ints y0 y1 x0 x1) none with
      | .error e => .error e
      | .ok cr =>
        match t with
        | .concat qs _ =>
          match Tree.pushUnder cr qs with
          | .error e => .error e
          | .ok none => rec cr
          | .ok (some p) => rec p
        | _ => rec cr : Py (Node Q)).map χ.node := by
    intro t
    rw [mkCrop]
    cases Tree.mkCrop t (ints y0 y1 x0 x1) none with
    | error e => rfl
    | ok cr =>
      cases t with
      | concat qs dq =>
        simp only [Except.map, Change.node, pushUnder]
        cases Tree.pushUnder cr qs with
        | error e => rfl
        | ok o => cases o with
          | none => exact hrec cr
          | some p => exact hrec p
      | _ => exact hrec cr
  unfold Tree.cropConcat
  cases c with
  | none => exact rest (.concat ps d)
  | some c =>
    have ht := takeIdx χ hfile (.concat ps d) c
    simp only [Change.node] at ht
    simp only [ht]
    cases Tree.takeIdx (.concat ps d) c with
    | error e => rfl
    | ok t =>
      simp only [Except.map, hrec]
      cases rec t with
      | error e => rfl
      | ok t' => exact rest t'

theorem finishCrop (hfile : χ.file 0 = 0) (n : Node Q) :
    Tree.finishCrop rec' (χ.node n) = (Tree.finishCrop rec n).map χ.node := by
  cases n with
  | crop s y0 y1 x0 x1 c =>
    cases s with
    | concat ps d => exact cropConcat χ hrec hfile ps d y0 y1 x0 x1 c
    | leaf l => exact finish χ hrec (.crop (.leaf l) y0 y1 x0 x1 c)
    | warp s tf d a => exact finish χ hrec (.crop (.warp s tf d a) y0 y1 x0 x1 c)
    | crop s a b e f g => exact finish χ hrec (.crop (.crop s a b e f g) y0 y1 x0 x1 c)
    | overview s k d => exact finish χ hrec (.crop (.overview s k d) y0 y1 x0 x1 c)
    | dequant s q d => exact finish χ hrec (.crop (.dequant s q d) y0 y1 x0 x1 c)
  | leaf l => exact finish χ hrec (.leaf l)
  | concat ps d => exact finish χ hrec (.concat ps d)
  | warp s tf d a => exact finish χ hrec (.warp s tf d a)
  | overview s k d => exact finish χ hrec (.overview s k d)
  | dequant s q d => exact finish χ hrec (.dequant s q d)

theorem cropRest (hfile : χ.file 0 = 0) (s : Node Q) (y0 y1 x0 x1 : Int) (c : Option (List Nat)) :
    Tree.cropRest rec' (χ.node s) y0 y1 x0 x1 c = (Tree.cropRest rec s y0 y1 x0 x1 c).map χ.node := by
  cases s with
  | warp x tf d a =>
    simp only [Change.node, Tree.cropRest, warpAfterCrop]
    by_cases ha : a.interp = .nearest
    · simp only [if_pos ha]; rfl
    · simp only [if_neg ha]
      cases Tree.warpAfterCrop x tf y0 y1 x0 x1 c with
      | error e => rfl
      | ok o =>
        cases o with
        | none => rfl
        | some r =>
          simp only [Except.map, Option.map]
          have := hrec (.warp r.1 r.2 (x1 - x0, y1 - y0) a.common)
          simp only [Change.node] at this
          simp only [this]
          cases rec (.warp r.1 r.2 (x1 - x0, y1 - y0) a.common) with
          | error e => rfl
          | ok r => exact finishCrop χ hrec hfile r
  | dequant x q d =>
    simp only [Change.node, Tree.cropRest]
    have := mkDequant χ (.crop x y0 y1 x0 x1 c) q
    simp only [Change.node] at this
    simp only [this, hrec]
    cases rec (Tree.mkDequant (.crop x y0 y1 x0 x1 c) q) with
    | error e => rfl
    | ok r => exact finishCrop χ hrec hfile r
  | leaf l => exact finishCrop χ hrec hfile (.crop (.leaf l) y0 y1 x0 x1 c)
  | concat ps d => exact finishCrop χ hrec hfile (.crop (.concat ps d) y0 y1 x0 x1 c)
  | crop s a b e f g => exact finishCrop χ hrec hfile (.crop (.crop s a b e f g) y0 y1 x0 x1 c)
  | overview s k d => exact finishCrop χ hrec hfile (.crop (.overview s k d) y0 y1 x0 x1 c)

theorem optCrop (hfile : χ.file 0 = 0) (s : Node Q) (y0 y1 x0 x1 : Int) (c : Option (List Nat)) :
    Tree.optCrop rec' (χ.node s) y0 y1 x0 x1 c = (Tree.optCrop rec s y0 y1 x0 x1 c).map χ.node := by
  have rest : ∀ n : Py (Node Q), (match n.map χ.node with
    | .error e => .error e
    | .ok (.crop s2 y0' y1' x0' x1' c') =>
      match (match s2 with | .leaf l => if l.nan then some l else none | _ => none : Option Leaf) with
      | some l =>
        match Tree.nanCrop l y0 y1 x0 x1 c with
        | .error e => .error e
        | .ok r => rec' r
      | none => Tree.cropRest rec' s2 y0' y1' x0' x1' c'
    | .ok n => .ok n : Py (Node Q')) =
      (match n with
    | .error e => .error e
    | .ok (.crop s2 y0' y1' x0' x1' c') =>
      match (match s2 with | .leaf l => if l.nan then some l else none | _ => none : Option Leaf) with
      | some l =>
        match Tree.nanCrop l y0 y1 x0 x1 c with
        | .error e => .error e
        | .ok r => rec r
      | none => Tree.cropRest rec s2 y0' y1' x0' x1' c'
    | .ok n => .ok n : Py (Node Q)).map χ.node := by
    intro n
    cases n with
    | error e => rfl
    | ok n =>
      cases n with
      | crop s2 a b e f g =>
        cases s2 with
        | leaf l =>
          simp only [Except.map, Change.node, show (χ.leaf l).nan = l.nan from rfl]
          cases hl : l.nan with
          | true =>
            simp only [if_true, nanCrop]
            cases (Tree.nanCrop l y0 y1 x0 x1 c : Py (Node Q)) with
            | error e => rfl
            | ok r => exact hrec r
          | false =>
            simp only [Bool.false_eq_true, if_false]
            exact cropRest χ hrec hfile (.leaf l) a b e f g
        | _ => exact cropRest χ hrec hfile _ a b e f g
      | _ => rfl
  unfold Tree.optCrop
  rw [hrec]
  cases rec s with
  | error e => rfl
  | ok s' =>
    cases s' with
    | crop s1 a b e f g =>
      simp only [Except.map, Change.node, fuseCrops]
      exact rest _
    | leaf l => exact rest (.ok (.crop (.leaf l) y0 y1 x0 x1 c))
    | concat ps d => exact rest (.ok (.crop (.concat ps d) y0 y1 x0 x1 c))
    | warp s tf d a => exact rest (.ok (.crop (.warp s tf d a) y0 y1 x0 x1 c))
    | overview s k d => exact rest (.ok (.crop (.overview s k d) y0 y1 x0 x1 c))
    | dequant s q d => exact rest (.ok (.crop (.dequant s q d) y0 y1 x0 x1 c))

theorem overviewRest (H : Heur) (s : Node Q) (k : Int) (d : Int × Int) :
    Tree.overviewRest H rec' (χ.node s) k d = (Tree.overviewRest H rec s k d).map χ.node := by
  by_cases hk : k = 0
  · simp only [Tree.overviewRest, if_pos hk]
    exact finish χ hrec s
  · simp only [Tree.overviewRest, if_neg hk]
    cases s with
    | crop x y0 y1 x0 x1 c =>
      simp only [Change.node, cropAfterOverview]
      cases Tree.cropAfterOverview H x y0 y1 x0 x1 c k with
      | error e => rfl
      | ok m =>
        simp only [Except.map, hrec]
        cases rec m with
        | error e => rfl
        | ok r => exact finish χ hrec r
    | warp x tf d' a =>
      simp only [Change.node, warpAfterOverview, hrec]
      cases rec (Tree.warpAfterOverview x tf k) with
      | error e => rfl
      | ok r => exact finish χ hrec r
    | dequant x q d' =>
      have := mkDequant χ (.overview x k d) q
      simp only [Change.node] at this
      simp only [Change.node, this, hrec]
      cases rec (Tree.mkDequant (.overview x k d) q) with
      | error e => rfl
      | ok r => exact finish χ hrec r
    | leaf l => exact finish χ hrec (.overview (.leaf l) k d)
    | concat ps dc => exact finish χ hrec (.overview (.concat ps dc) k d)
    | overview x k' d' => exact finish χ hrec (.overview (.overview x k' d') k d)

theorem optOverview (H : Heur) (s : Node Q) (k : Int) (d : Int × Int) :
    Tree.optOverview H rec' (χ.node s) k d = (Tree.optOverview H rec s k d).map χ.node := by
  unfold Tree.optOverview
  rw [hrec]
  cases rec s with
  | error e => rfl
  | ok s' =>
    cases s' with
    | overview s1 k1 d1 =>
      simp only [Except.map, Change.node, mkOverview, dsize]
      exact overviewRest χ hrec H _ _ _
    | _ => exact overviewRest χ hrec H _ _ _

theorem optDequant (s : Node Q) (q : Q) (d : Int × Int) :
    Tree.optDequant rec' (χ.node s) (χ.quant q) d = (Tree.optDequant rec s q d).map χ.node := by
  unfold Tree.optDequant
  rw [hrec]
  cases rec s with
  | error e => rfl
  | ok s' =>
    cases s' with
    | dequant s1 q1 d1 => rfl
    | warp x tf dw a =>
      have := hrec (.warp (Tree.mkDequant x q) tf dw a)
      simp only [Change.node] at this
      simp only [Except.map, Change.node, mkDequant, this]
      cases rec (.warp (Tree.mkDequant x q) tf dw a) with
      | error e => rfl
      | ok r => exact finish χ hrec r
    | leaf l => exact finish χ hrec (.dequant (.leaf l) q d)
    | concat ps dc => exact finish χ hrec (.dequant (.concat ps dc) q d)
    | crop x y0 y1 x0 x1 c => exact finish χ hrec (.dequant (.crop x y0 y1 x0 x1 c) q d)
    | overview x k' d' => exact finish χ hrec (.dequant (.overview x k' d') q d)

theorem optConcat (ps : List (Node Q)) (d : Int × Int) :
    Tree.optConcat rec' (χ.nodes ps) d = (Tree.optConcat rec ps d).map χ.node := by
  unfold Tree.optConcat
  rw [nodes_eq, mapAll_like (f := rec) ps fun p _ => hrec p]
  cases mapAll rec ps with
  | error e => rfl
  | ok qs =>
    simp only [Except.map]
    rw [← nodes_eq, mkConcat, ← nodes_eq]
    cases Tree.mkConcat qs with
    | error e => cases e <;> rfl
    | ok c => rfl

end rec

end Change

/-- C81: `optimize` does the same whatever the channels are called, whichever files of the same sizes are shown, and
however they are quantized.  (A leaf made for missing channels has no file; the number 0 stands for it.) -/
theorem C81_optimize (χ : Change Q Q') (hfile : χ.file 0 = 0) (H : Heur) : ∀ (fuel : Nat) (n : Node Q),
    opt H fuel (χ.node n) = (opt H fuel n).map χ.node
  | 0, _ => rfl
  | fuel + 1, n => by
    have ih := C81_optimize χ hfile H fuel
    unfold opt
    cases n with
    | leaf l => rfl
    | concat ps d => exact Change.optConcat χ ih ps d
    | warp s tf d a => exact Change.optWarp χ ih H s tf d a
    | crop s y0 y1 x0 x1 c => exact Change.optCrop χ ih hfile s y0 y1 x0 x1 c
    | overview s k d => exact Change.optOverview χ ih H s k d
    | dequant s q d => exact Change.optDequant χ ih s q d

namespace Change

section pixels
variable {V : Type} {χ : Change Quantization Quantization} {E E' : Env V} (h : χ.Alike E E')
include h

theorem finWarp (tf : Affine) (d : Int × Int) (a : Algo) (i : Img V) :
    Tree.finWarp E' tf d a i = Tree.finWarp E tf d a i := by
  unfold Tree.finWarp nearestGuess score
  rw [h.border, h.warp, h.resize, h.finite, h.unique]

mutual
theorem fin : ∀ n : Node, Tree.fin E' (χ.node n) = Tree.fin E n
  | .leaf l => by
    simp only [Change.node, Change.leaf, Tree.fin, h.img, h.nan]
  | .concat ps d => by simp only [Change.node, Tree.fin, finL ps]
  | .warp s tf d a => by simp only [Change.node, Tree.fin, fin s, finWarp h]
  | .crop s y0 y1 x0 x1 c => by simp only [Change.node, Tree.fin, fin s]
  | .overview s k d => by simp only [Change.node, Tree.fin, fin s, h.overview]
  | .dequant s q d => by simp only [Change.node, Tree.fin, fin s, h.deq]
theorem finL : ∀ ps : List Node, Tree.finL E' (χ.nodes ps) = Tree.finL E ps
  | [] => rfl
  | p :: ps => by simp only [Change.nodes, Tree.finL, fin p, finL ps]
end

end pixels

variable (χ : Change Quantization Quantization)

theorem distinct (hi : Function.Injective χ.name) : ∀ (names acc : List Str),
    (names.map χ.name).foldl (fun acc c => if c ∈ acc then acc else acc ++ [c]) (acc.map χ.name) =
      (names.foldl (fun acc c => if c ∈ acc then acc else acc ++ [c]) acc).map χ.name
  | [], acc => rfl
  | c :: names, acc => by
    simp only [List.map_cons, List.foldl_cons, List.mem_map_of_injective hi]
    by_cases hc : c ∈ acc
    · simp only [if_pos hc, distinct hi names acc]
    · simp only [if_neg hc]
      rw [← distinct hi names (acc ++ [c])]
      simp

theorem idxOf_map {f : Str → Str} (hi : Function.Injective f) (c : Str) : ∀ l : List Str,
    (l.map f).idxOf (f c) = l.idxOf c
  | [] => rfl
  | x :: l => by
    simp only [List.map_cons, List.idxOf_cons, idxOf_map hi c l]
    by_cases hx : x = c
    · simp [hx]
    · have : f x ≠ f c := fun e => hx (hi e)
      simp [beq_eq_false_iff_ne.2 hx, beq_eq_false_iff_ne.2 this]

theorem osetIndex (hi : Function.Injective χ.name) (names : List Str) (c : Str) :
    Tree.osetIndex (names.map χ.name) (χ.name c) = Tree.osetIndex names c := by
  have hd := χ.distinct hi names []
  simp only [List.map_nil] at hd
  simp only [Tree.osetIndex, hd, List.mem_map_of_injective hi, idxOf_map hi]

mutual
theorem channels : ∀ n : Node, WF n → (χ.node n).channels = n.channels.map (List.map χ.name)
  | .leaf l, _ => rfl
  | .concat ps d, h => by
    simp only [WF] at h
    simpa only [Change.node, Node.channels] using channelsL ps d h.2
  | .warp s tf d a, h => by simpa only [Change.node, Node.channels] using channels s h.1
  | .crop s y0 y1 x0 x1 c, h => by
    have ih := channels s h.1
    cases c with
    | none => simpa only [Change.node, Node.channels] using ih
    | some c =>
      simp only [Change.node, Node.channels, ih]
      cases hs : s.channels with
      | none => rfl
      | some names =>
        simp only [Option.map_some, Option.some.injEq]
        refine map_pick χ ?_
        have hl := channels_length s names h.1 hs
        have hc : IdxOk s.nchan (some c) := h.2.2.2
        rw [hl]
        simpa [IdxOk] using hc
  | .overview s k d, h => by simpa only [Change.node, Node.channels] using channels s h
  | .dequant s q d, h => by simpa only [Change.node, Node.channels] using channels s h
theorem channelsL : ∀ (ps : List Node) (d : Int × Int), WFL d ps →
    Node.channelsL (χ.nodes ps) = (Node.channelsL ps).map (List.map χ.name)
  | [], _, _ => rfl
  | p :: ps, d, h => by
    simp only [Change.nodes, Node.channelsL, channels p h.1, channelsL ps d h.2.2]
    cases p.channels <;> cases Node.channelsL ps <;> simp
end

theorem takeNames (hfile : χ.file 0 = 0) (hi : Function.Injective χ.name) {n : Node} (hw : WF n) (codes : List Str)
    (policy : Policy) :
    Tree.takeNames (χ.node n) (codes.map χ.name) policy = (Tree.takeNames n codes policy).map χ.node := by
  have hc := channels χ n hw
  have hsame : decide ((χ.node n).channels = some (codes.map χ.name)) = decide (n.channels = some codes) := by
    rw [hc]
    cases n.channels with
    | none => simp
    | some names => simp [(List.map_injective_iff.2 hi).eq_iff]
  have hreqs : ∀ names : List Str, (codes.map χ.name).map (fun c => (Tree.osetIndex (names.map χ.name) c, some c)) =
      (codes.map fun c => (Tree.osetIndex names c, some c)).map fun r => (r.1, r.2.map χ.name) := by
    intro names
    simp only [List.map_map, Function.comp_def, osetIndex χ hi, Option.map_some]
  have hany : ∀ names : List Str,
      ((codes.map fun c => (Tree.osetIndex names c, some c)).map fun r => (r.1, r.2.map χ.name)).any (fun r => r.1.isNone) =
        (codes.map fun c => (Tree.osetIndex names c, some c)).any (fun r => r.1.isNone) := by
    intro names
    simp only [List.any_map, Function.comp_def]
  have himg : (∀ ps d, n ≠ .concat ps d) →
      Tree.takeNames (χ.node n) (codes.map χ.name) policy = (Tree.takeNames n codes policy).map χ.node := by
    intro hn
    have e1 : ∀ (same : Bool) (cs : List Str) (m : Node), (∀ ps d, m ≠ .concat ps d) →
        takeNamesIf same m cs policy = (match m.channels with
          | none => .error .valueError
          | some names =>
            if cs.all (fun c => (Tree.osetIndex names c).isSome) then
              Tree.mkCrop m none (some (cs.filterMap (Tree.osetIndex names)))
            else if same then .ok (.concat [m] m.dsize)
            else
              let reqs := cs.map (fun c => (Tree.osetIndex names c, some c))
              if policy = .error ∧ reqs.any (fun r => r.1.isNone) then .error .valueError
              else Tree.concatTake m.dsize [(m, Tree.takeIdx m)] reqs) := by
      intro same cs m hm
      unfold takeNamesIf
      cases m with
      | concat ps d => exact absurd rfl (hm ps d)
      | _ => rfl
    have hn' : ∀ ps d, χ.node n ≠ .concat ps d := by
      intro ps d h
      cases n with
      | concat qs d' => exact hn qs d' rfl
      | _ => simp [Change.node] at h
    unfold Tree.takeNames
    rw [e1 _ _ _ hn', e1 _ _ _ hn, hsame, hc]
    cases hch : n.channels with
    | none => rfl
    | some names =>
      simp only [Option.map_some, hreqs names, hany names, List.all_map, Function.comp_def, List.filterMap_map,
        osetIndex χ hi]
      have hf : List.filterMap (fun x => Tree.osetIndex names x) codes = List.filterMap (Tree.osetIndex names) codes := rfl
      by_cases h1 : (codes.all fun c => (Tree.osetIndex names c).isSome) = true
      · simp only [if_pos h1, mkCrop]
      simp only [if_neg h1]
      by_cases h2 : n.channels = some codes
      · simp only [← hch, decide_eq_true h2, if_true, dsize]
        rfl
      simp only [← hch, decide_eq_false h2, Bool.false_eq_true, if_false]
      by_cases h3 : policy = .error ∧ ((codes.map fun c => (Tree.osetIndex names c, some c)).any fun r => r.1.isNone) = true
      · simp only [if_pos h3]
        rfl
      simp only [if_neg h3, dsize]
      exact χ.concatTake n.dsize (.cons ⟨rfl, takeIdx χ hfile n⟩ .nil) hfile _
  cases n with
  | concat ps d =>
    unfold Tree.takeNames
    rw [hsame]
    by_cases h2 : (Node.concat ps d : Node).channels = some codes
    · simp only [Change.node, takeNamesIf, decide_eq_true h2, if_true]
      rfl
    simp only [Change.node, takeNamesIf, decide_eq_false h2, Bool.false_eq_true, if_false]
    have hc' : Node.channelsL (χ.nodes ps) = (Node.channelsL ps).map (List.map χ.name) := hc
    rw [hc']
    cases hch : Node.channelsL ps with
    | none => rfl
    | some names =>
      simp only [Option.map_some, hreqs names, hany names]
      by_cases h3 : policy = .error ∧ ((codes.map fun c => (Tree.osetIndex names c, some c)).any fun r => r.1.isNone) = true
      · simp only [if_pos h3]
        rfl
      simp only [if_neg h3]
      exact χ.concatTake d (takers χ hfile ps) hfile _
  | _ => exact himg (fun _ _ h => by cases h)

end Change

/-- C81: the changed image has the same size and number of channels, and the changed names. -/
theorem C81_announced (χ : Change Quantization Quantization) {n : Node} (h : Tree.Built n) :
    (χ.node n).dsize = n.dsize ∧ (χ.node n).nchan = n.nchan ∧
      (χ.node n).channels = n.channels.map (List.map χ.name) :=
  ⟨χ.dsize n, χ.nchan n, χ.channels n h.ok.1⟩

/-- C81: if the files show the same and the quantizations do the same, so does the image, with and without
optimization: the names of the channels play no role. -/
theorem C81_pixels {V : Type} (χ : Change Quantization Quantization) (hfile : χ.file 0 = 0) {E E' : Env V}
    (h : χ.Alike E E') (H : Heur) (fuel : Nat) (n : Node) :
    fin E' (χ.node n) = fin E n ∧ finalize H E' fuel (χ.node n) = finalize H E fuel n := by
  refine ⟨Change.fin h n, ?_⟩
  unfold finalize
  rw [C81_optimize χ hfile]
  cases opt H fuel n with
  | error e => rfl
  | ok m => exact Change.fin h m

/-- C81: selecting by position does not depend on names, files and quantizations; selecting by name goes along with a
renaming that keeps different names different. -/
theorem C81_select (χ : Change Quantization Quantization) (hfile : χ.file 0 = 0) {n : Node} (h : Tree.Built n) :
    (∀ is, takeIdx (χ.node n) is = (takeIdx n is).map χ.node) ∧
    (Function.Injective χ.name → ∀ codes policy,
      takeNames (χ.node n) (codes.map χ.name) policy = (takeNames n codes policy).map χ.node) :=
  ⟨χ.takeIdx hfile n, fun hi codes policy => χ.takeNames hfile hi h.ok.1 codes policy⟩

/-- Names written backwards, files numbered otherwise. -/
def backward : Change Quantization Quantization := ⟨List.reverse, fun k => 7 * k, id⟩

example : Function.Injective backward.name ∧ backward.file 0 = 0 :=
  ⟨List.reverse_injective, rfl⟩

/-- A warped crop of two files side by side, one of them with overviews. -/
def twoFiles : Node :=
  .crop (.warp (.concat [.leaf ⟨1, (64, 64), 2, some [p! "ab", p! "cd"], some 2, false⟩,
    .leaf ⟨2, (64, 64), 1, some [p! "ef"], none, false⟩] (64, 64)) (.scale (1 / 4)) (16, 16) .default) 0 16 0 8
    (some [2, 0])

example : ∃ m, opt Heur.exact 20 twoFiles = .ok m ∧ m.channels = some [p! "ef", p! "ab"] ∧
    opt Heur.exact 20 (backward.node twoFiles) = .ok (backward.node m) ∧
    (backward.node m).channels = some [p! "fe", p! "ba"] := by
  have h : holds (opt Heur.exact 20 twoFiles) (fun m => m.channels == some [p! "ef", p! "ab"] &&
      (backward.node m).channels == some [p! "fe", p! "ba"]) = true := by decide +kernel
  obtain ⟨m, hm, hc⟩ := holds_ok h
  simp only [Bool.and_eq_true, beq_iff_eq] at hc
  exact ⟨m, hm, hc.1, by rw [C81_optimize backward rfl, hm]; rfl, hc.2⟩

/-- C81: a renaming that makes names equal changes what is selected by name: of `b` and `c` both called `b`, the
second one cannot be selected any more. -/
theorem C81_equal_names_violated :
    let n : Node := .leaf ⟨1, (4, 4), 3, some [p! "a", p! "b", p! "c"], none, false⟩
    let χ : Change Quantization Quantization := ⟨fun s => if s = p! "c" then p! "b" else s, id, id⟩
    takeNames n [p! "c"] .returnNan = .ok (.crop n 0 4 0 4 (some [2])) ∧
    takeNames (χ.node n) ([p! "c"].map χ.name) .returnNan = .ok (.crop (χ.node n) 0 4 0 4 (some [1])) :=
  ⟨rfl, rfl⟩

end Verif.Props
