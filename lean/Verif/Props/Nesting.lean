/-
C85: the description of an image by `nesting()`.
-/
import Verif.Nesting
import Verif.Props.Written
import Verif.Props.Fused

namespace Verif.Props

open Verif.Tree Verif.Helpers Verif.Tree.Node Verif.Show

/-! #### specification: reading a description -/

/-- The channels that a spec in a description stands for. -/
def readNames (s : Option Str) : Option (List Str) := s.map fun s => expandCodes (Fused.parse s).parsed

/-- An operation, given what it is applied to. -/
def readOp (type : Str) (md : Entries) (parts : List Node) : Option Node :=
  if type = p! "DelayedChannelConcat" then
    match parts with
    | [] => none
    | p :: ps => some (.concat (p :: ps) p.dsize)
  else
    match parts, md.dsize with
    | [s], some d =>
      if type = p! "DelayedWarp" then
        match md.transform, md.algo with
        | some tf, some a => some (.warp s tf d a)
        | _, _ => none
      else if type = p! "DelayedCrop" then md.slices.map fun sl => .crop s sl.1 sl.2.1 sl.2.2.1 sl.2.2.2 md.chanIdxs
      else if type = p! "DelayedOverview" then md.overview.map fun k => .overview s k d
      else if type = p! "DelayedDequantize" then md.quantization.map fun q => .dequant s q d
      else none
    | _, _ => none

/-- A file, or pixels without data. -/
def readLeaf (type : Str) (md : Entries) : Option Node :=
  match md.dsize, md.numChannels with
  | some d, some k =>
    if type = p! "DelayedLoad" then md.file.map fun f => .leaf ⟨f, d, k, readNames md.channels, md.numOverviews, false⟩
    else if type = p! "DelayedNans" ∨ type = p! "DelayedNodata" then
      some (.leaf ⟨0, d, k, readNames md.channels, none, true⟩)
    else none
  | _, _ => none

mutual
/-- The image that a description describes. -/
def readNest : Nest → Option Node
  | .single t md => readLeaf t md
  | .nested t md cs => (readNests cs).bind (readOp t md)
def readNests : List Nest → Option (List Node)
  | [] => some []
  | c :: cs => (readNest c).bind fun p => (readNests cs).map (p :: ·)
end

/-- All leaves are files or without data. -/
def Filed (kind : Leaf → LeafClass) : Node → Prop :=
  Each fun l => kind l ≠ .identity ∧ (l.nan = true ↔ kind l = .nans ∨ kind l = .nodata)

mutual
/-- Images without data have no file: their number does not matter. -/
def unnumber : Node → Node
  | .leaf l => .leaf { l with id := if l.nan then 0 else l.id }
  | .concat ps d => .concat (unnumberL ps) d
  | .warp s tf d a => .warp (unnumber s) tf d a
  | .crop s y0 y1 x0 x1 c => .crop (unnumber s) y0 y1 x0 x1 c
  | .overview s k d => .overview (unnumber s) k d
  | .dequant s q d => .dequant (unnumber s) q d
def unnumberL : List Node → List Node
  | [] => []
  | p :: ps => unnumber p :: unnumberL ps
end

mutual
/-- The image without the names of its channels. -/
def bare : Node → Node
  | .leaf l => .leaf { l with id := if l.nan then 0 else l.id, names := none }
  | .concat ps d => .concat (bareL ps) d
  | .warp s tf d a => .warp (bare s) tf d a
  | .crop s y0 y1 x0 x1 c => .crop (bare s) y0 y1 x0 x1 c
  | .overview s k d => .overview (bare s) k d
  | .dequant s q d => .dequant (bare s) q d
def bareL : List Node → List Node
  | [] => []
  | p :: ps => bare p :: bareL ps
end

/-- Overviews do not depend on how the channels are called. -/
def Nameless {V : Type} (E : Env V) : Prop := ∀ s k i, E.overview (bare s) k i = E.overview s k i

/-- The code has no dot, or one, with an integer behind it. -/
def Suffixed (x : Str) : Prop := '.' ∈ x → ∃ root s i, x = root ++ '.' :: s ∧ '.' ∉ root ∧ '.' ∉ s ∧ pyInt s = .ok i

/-- Names that can be read again: none with a bar, and not just one that is empty. -/
def Legible (l : Leaf) : Prop := ∀ c, l.names = some c → ∃ r, normParts c = .ok r ∧ (∀ x ∈ r, CanonicalCode x ∧ '|' ∉ x) ∧
  r ≠ [[]]

/-! #### proofs -/

/-- The names that are read again. -/
def reNames (c : Option (List Str)) : Option (List Str) :=
  match conciseText c with
  | .ok s => readNames s
  | .error _ => c

mutual
/-- The image that is read. -/
def reNode : Node → Node
  | .leaf l => .leaf { l with id := if l.nan then 0 else l.id, names := reNames l.names }
  | .concat ps d => .concat (reNodes ps) d
  | .warp s tf d a => .warp (reNode s) tf d a
  | .crop s y0 y1 x0 x1 c => .crop (reNode s) y0 y1 x0 x1 c
  | .overview s k d => .overview (reNode s) k d
  | .dequant s q d => .dequant (reNode s) q d
def reNodes : List Node → List Node
  | [] => []
  | p :: ps => reNode p :: reNodes ps
end

theorem reNode_dsize (n : Node) : (reNode n).dsize = n.dsize := by cases n <;> rfl

mutual
theorem reNode_nchan : ∀ n : Node, (reNode n).nchan = n.nchan
  | .leaf _ => rfl
  | .concat ps _ => reNodes_nchan ps
  | .warp s _ _ _ => reNode_nchan s
  | .crop s _ _ _ _ c => by
    cases c with
    | none => exact reNode_nchan s
    | some c => rfl
  | .overview s _ _ => reNode_nchan s
  | .dequant s _ _ => reNode_nchan s
theorem reNodes_nchan : ∀ ps : List Node, nchans (reNodes ps) = nchans ps
  | [] => rfl
  | p :: ps => by rw [reNodes, nchans, nchans, reNode_nchan p, reNodes_nchan ps]
end

theorem nestOver_ok {t : Str} {md : Entries} {x : Py Nest} {d : Nest} (h : nestOver t md x = .ok d) :
    ∃ c, x = .ok c ∧ d = .nested t md [c] := by
  cases x with
  | error e => cases h
  | ok c => exact ⟨c, rfl, by cases h; rfl⟩

mutual
theorem read_nesting (kind : Leaf → LeafClass) : ∀ (n : Node) (d : Nest), WF (expand n) → Filed kind n → nesting kind n = .ok d →
    readNest d = some (reNode n)
  | .leaf l, d, hw, hf, h => by
    rw [nesting] at h
    cases e : conciseText l.names with
    | error x => rw [e] at h; cases h
    | ok s =>
      rw [e] at h
      cases h
      obtain ⟨h1, h2⟩ := hf
      simp only [nestItem, readNest, readLeaf, reNode, reNames, e]
      have hov : l.nan = true → _ ∧ l.overviews = none := hw.2
      cases hk : kind l <;> simp only [hk, className] at h1 h2 ⊢ <;> simp at h1 h2 <;> simp [h2, hov]
  | .concat ps dd, d, hw, hf, h => by
    rw [nesting] at h
    cases e : nestingL kind ps with
    | error x => rw [e] at h; cases h
    | ok cs =>
      rw [e] at h
      cases h
      have := read_nestingL kind ps cs dd hw.2 hf e
      obtain ⟨p, ps, rfl⟩ : ∃ p qs, ps = p :: qs := List.exists_cons_of_ne_nil fun e => hw.1 (by rw [e]; rfl)
      have hd : p.dsize = dd := (expand_dsize p).symm.trans hw.2.2.1
      cases cs with
      | nil => simp [readNests, reNodes] at this
      | cons c cs =>
        simp only [nestItem, readNest, this, Option.bind_some, readOp, className]
        simp only [reNodes, if_true, reNode, reNode_dsize, hd]
  | .warp s tf dd a, d, hw, hf, h => by
    rw [nesting] at h
    obtain ⟨c, hc, rfl⟩ := nestOver_ok h
    have := read_nesting kind s c hw.1 hf hc
    simp [readNest, readNests, this, readOp, className, reNode]
  | .crop s y0 y1 x0 x1 cs, d, hw, hf, h => by
    rw [nesting] at h
    cases e : conciseText (cs.bind fun c => written (.crop s y0 y1 x0 x1 (some c))) with
    | error x => rw [e] at h; cases h
    | ok names =>
      rw [e] at h
      obtain ⟨c, hc, rfl⟩ := nestOver_ok h
      have := read_nesting kind s c hw.1 hf hc
      simp [readNest, readNests, this, readOp, className, reNode]
  | .overview s k dd, d, hw, hf, h => by
    rw [nesting] at h
    obtain ⟨c, hc, rfl⟩ := nestOver_ok h
    have := read_nesting kind s c hw hf hc
    simp [readNest, readNests, this, readOp, className, reNode]
  | .dequant s q dd, d, hw, hf, h => by
    rw [nesting] at h
    obtain ⟨c, hc, rfl⟩ := nestOver_ok h
    have := read_nesting kind s c hw hf hc
    simp [readNest, readNests, this, readOp, className, reNode]
theorem read_nestingL (kind : Leaf → LeafClass) : ∀ (ps : List Node) (ds : List Nest) (d : Int × Int), WFL d (expandL ps) →
    EachL (fun l => kind l ≠ .identity ∧ (l.nan = true ↔ kind l = .nans ∨ kind l = .nodata)) ps →
    nestingL kind ps = .ok ds → readNests ds = some (reNodes ps)
  | [], ds, _, _, _, h => by
    rw [nestingL] at h
    cases h
    rfl
  | p :: ps, ds, d, hw, hf, h => by
    rw [nestingL] at h
    cases e : nesting kind p with
    | error x => rw [e] at h; cases h
    | ok c =>
      rw [e] at h
      cases e2 : nestingL kind ps with
      | error x => simp only [e2] at h; cases h
      | ok cs =>
        simp only [e2] at h
        cases h
        rw [readNests, read_nesting kind p c hw.1 hf.1 e, read_nestingL kind ps cs d hw.2.2 hf.2 e2]
        rfl
end

/-! #### names -/

theorem formatReady_bar {r : Str} (h : '|' ∉ r) (a b : Int) : '|' ∉ Fused.formatReady r a b := by
  have e : ∀ i, '|' ∉ intStr i := fun i => intStr_not_mem (.inr (.inr (.inl rfl)))
  unfold Fused.formatReady
  split_ifs <;> simp [h, e]

theorem conciseStep_bar {st st' : Fused.CState} {p : Str} (hp : '|' ∉ p) (h1 : ∀ x ∈ st.parts, '|' ∉ x)
    (h2 : ∀ r a b, st.acc = some (r, a, b) → '|' ∉ r) (h : Fused.conciseStep st p = .ok st') :
    (∀ x ∈ st'.parts, '|' ∉ x) ∧ ∀ r a b, st'.acc = some (r, a, b) → '|' ∉ r := by
  obtain ⟨parts, acc⟩ := st
  unfold Fused.conciseStep at h
  by_cases hd : '.' ∈ p
  · rw [if_pos hd, Except.bind_eq_ok'] at h
    obtain ⟨⟨root, suf⟩, e1, h⟩ := h
    rw [Except.bind_eq_ok'] at h
    obtain ⟨i, e2, h⟩ := h
    have hroot : '|' ∉ root := fun hm => hp (by rw [(Fused.splitTwo_eq_ok e1).1]; exact List.mem_append_left _ hm)
    cases acc with
    | none =>
      cases h
      refine ⟨h1, fun r a b e => ?_⟩
      cases e
      exact hroot
    | some x =>
      obtain ⟨r, a, b⟩ := x
      have hr := h2 r a b rfl
      have hadd : ∀ x ∈ parts ++ [Fused.formatReady r a b], '|' ∉ x := by
        intro x hx
        rcases List.mem_append.1 hx with hx | hx
        · exact h1 x hx
        · rw [List.mem_singleton.1 hx]; exact formatReady_bar hr a b
      simp only at h
      by_cases hrr : r = root
      · rw [if_pos hrr] at h
        by_cases hib : i = b
        · rw [if_pos hib] at h
          cases h
          refine ⟨h1, fun r a b e => ?_⟩
          cases e
          exact hr
        · rw [if_neg hib] at h
          cases h
          refine ⟨hadd, fun r a b e => ?_⟩
          cases e
          exact hroot
      · rw [if_neg hrr] at h
        cases h
        refine ⟨hadd, fun r a b e => ?_⟩
        cases e
        exact hroot
  · rw [if_neg hd] at h
    cases acc with
    | none =>
      cases h
      refine ⟨fun x hx => ?_, fun r a b e => by cases e⟩
      rcases List.mem_append.1 hx with hx | hx
      · exact h1 x hx
      · rw [List.mem_singleton.1 hx]; exact hp
    | some x =>
      obtain ⟨r, a, b⟩ := x
      cases h
      refine ⟨fun x hx => ?_, fun r a b e => by cases e⟩
      rcases List.mem_append.1 hx with hx | hx
      · exact h1 x hx
      · simp only [List.mem_cons, List.not_mem_nil, or_false] at hx
        rcases hx with rfl | rfl
        · exact formatReady_bar (h2 r a b rfl) a b
        · exact hp

theorem conciseLoop_bar : ∀ {l : List Str} {st st' : Fused.CState}, (∀ x ∈ l, '|' ∉ x) → (∀ x ∈ st.parts, '|' ∉ x) →
    (∀ r a b, st.acc = some (r, a, b) → '|' ∉ r) → Fused.conciseLoop st l = .ok st' → ∀ x ∈ st'.flush, '|' ∉ x
  | [], st, st', _, h1, h2, h => by
    cases h
    intro x hx
    unfold Fused.CState.flush at hx
    split at hx
    · next r a b e =>
      rcases List.mem_append.1 hx with hx | hx
      · exact h1 x hx
      · rw [List.mem_singleton] at hx
        subst hx
        exact formatReady_bar (h2 _ _ _ e) a b
    · exact h1 x hx
  | p :: ps, st, st', hl, h1, h2, h => by
    simp only [Fused.conciseLoop] at h
    rw [Except.bind_eq_ok'] at h
    obtain ⟨s1, e1, e2⟩ := h
    obtain ⟨g1, g2⟩ := conciseStep_bar (hl p (by simp)) h1 h2 e1
    exact conciseLoop_bar (fun x hx => hl x (List.mem_cons_of_mem _ hx)) g1 g2 e2

theorem reNames_legible {c r : List Str} (h : normParts c = .ok r) (hc : ∀ x ∈ r, CanonicalCode x ∧ '|' ∉ x)
    (hr : r ≠ [[]]) : reNames (some c) = some (expandCodes c) := by
  obtain ⟨g, hg, hgl⟩ := C03_concise_lossless (.ofList c) (by rw [Fused.asList_false]; exact h) fun x hx => (hc x hx).1
  have hbar : (∀ x ∈ g.parsed, '|' ∉ x) ∧ g.isNorm = false := by
    unfold Fused.concise at hg
    rw [Fused.normalize_eq (Fused.flagSound_false c), h, Except.map_ok', Except.bind_eq_ok'] at hg
    obtain ⟨n, e, hg⟩ := hg
    cases e
    rw [Except.bind_eq_ok'] at hg
    obtain ⟨st, e, hg⟩ := hg
    cases hg
    exact ⟨conciseLoop_bar (fun x hx => (hc x hx).2) (by simp) (by simp) e, rfl⟩
  have hf : Fused.FlagSound g := fun e => by rw [hbar.2] at e; cases e
  rw [Fused.asList_eq hf] at hgl
  have h2 : g.parsed ≠ [[]] := by
    intro e
    rw [e] at hgl
    have : normParts [[]] = .ok [[]] := by decide
    rw [this] at hgl
    cases hgl
    exact hr rfl
  simp only [reNames, conciseText, hg, readNames, Option.map_some, Fused.spec, C05_codes_roundtrip _ hbar.1 h2,
    expandCodes_ok hgl, expandCodes_ok h]

mutual
theorem reNode_legible : ∀ n : Node, Each Legible n → reNode n = unnumber (expand n)
  | .leaf l, h => by
    simp only [reNode, expand, unnumber]
    cases e : l.names with
    | none => rfl
    | some c =>
      obtain ⟨r, h1, h2, h3⟩ := h c e
      rw [reNames_legible h1 h2 h3]
      rfl
  | .concat ps d, h => by rw [reNode, expand, unnumber, reNodes_legible ps h]
  | .warp s _ _ _, h => by rw [reNode, expand, unnumber, reNode_legible s h]
  | .crop s _ _ _ _ _, h => by rw [reNode, expand, unnumber, reNode_legible s h]
  | .overview s _ _, h => by rw [reNode, expand, unnumber, reNode_legible s h]
  | .dequant s _ _, h => by rw [reNode, expand, unnumber, reNode_legible s h]
theorem reNodes_legible : ∀ ps : List Node, EachL Legible ps → reNodes ps = unnumberL (expandL ps)
  | [], _ => rfl
  | p :: ps, h => by rw [reNodes, expandL, unnumberL, reNode_legible p h.1, reNodes_legible ps h.2]
end

/-- C85: the image can be read from its description again: all operations, in their order, with all parameters, and
all channels. -/
theorem C85_read_back (kind : Leaf → LeafClass) {n : Node} (hb : Tree.Built (expand n)) (hf : Filed kind n)
    (hl : Each Legible n) {d : Nest} (h : nesting kind n = .ok d) : readNest d = some (unnumber (expand n)) := by
  rw [read_nesting kind n d hb.ok.1 hf h, reNode_legible n hl]

/-! #### pixels -/

variable {V : Type} {E : Env V}

mutual
theorem bare_reNode : ∀ n : Node, bare (reNode n) = bare n
  | .leaf l => by
    simp only [reNode, bare]
    by_cases h : l.nan = true <;> simp [h]
  | .concat ps d => by rw [reNode, bare, bare, bareL_reNodes ps]
  | .warp s _ _ _ => by rw [reNode, bare, bare, bare_reNode s]
  | .crop s _ _ _ _ _ => by rw [reNode, bare, bare, bare_reNode s]
  | .overview s _ _ => by rw [reNode, bare, bare, bare_reNode s]
  | .dequant s _ _ => by rw [reNode, bare, bare, bare_reNode s]
theorem bareL_reNodes : ∀ ps : List Node, bareL (reNodes ps) = bareL ps
  | [] => rfl
  | p :: ps => by rw [reNodes, bareL, bareL, bare_reNode p, bareL_reNodes ps]
end

mutual
theorem reNode_fin (hE : Nameless E) : ∀ n : Node, fin E (reNode n) = fin E n
  | .leaf l => by
    simp only [reNode, fin]
    by_cases h : l.nan = true
    · simp [h]
    · simp [h]
  | .concat ps d => by rw [reNode, fin, fin, reNodes_fin hE ps]
  | .warp s _ _ _ => by rw [reNode, fin, fin, reNode_fin hE s]
  | .crop s _ _ _ _ _ => by rw [reNode, fin, fin, reNode_fin hE s]
  | .overview s k _ => by
    have e : ∀ i, E.overview (reNode s) k i = E.overview s k i := fun i => by rw [← hE, bare_reNode, hE]
    rw [reNode, fin, fin, reNode_fin hE s]
    simp only [e]
  | .dequant s _ _ => by rw [reNode, fin, fin, reNode_fin hE s]
theorem reNodes_fin (hE : Nameless E) : ∀ ps : List Node, finL E (reNodes ps) = finL E ps
  | [] => rfl
  | p :: ps => by rw [reNodes, finL, finL, reNode_fin hE p, reNodes_fin hE ps]
end

/-- C85: images of files with the same description have the same pixels, whatever their channels are called. -/
theorem C85_same_pixels (hE : Nameless E) (kind : Leaf → LeafClass) {n m : Node} (hn : Tree.Built (expand n))
    (hm : Tree.Built (expand m)) (fn : Filed kind n) (fm : Filed kind m) {d : Nest} (h : nesting kind n = .ok d)
    (h' : nesting kind m = .ok d) : fin E n = fin E m ∧ n.dsize = m.dsize ∧ n.nchan = m.nchan := by
  have e := (read_nesting kind n d hn.ok.1 fn h).symm.trans (read_nesting kind m d hm.ok.1 fm h')
  rw [Option.some.injEq] at e
  refine ⟨?_, ?_, ?_⟩
  · rw [← reNode_fin hE n, e, reNode_fin hE m]
  · rw [← reNode_dsize n, e, reNode_dsize m]
  · rw [← reNode_nchan n, e, reNode_nchan m]

/-- C85 fails for arrays in memory: their descriptions do not say which array it is. -/
theorem C85_arrays_violated : ∃ (n m : Node) (E : Env Nat) (d : Nest) (a b : Img Nat), Tree.Built (expand n) ∧
    Tree.Built (expand m) ∧ Nameless E ∧ nesting (fun _ => .identity) n = .ok d ∧
    nesting (fun _ => .identity) m = .ok d ∧ fin E n = .ok a ∧ fin E m = .ok b ∧ a.px 0 0 0 ≠ b.px 0 0 0 := by
  refine ⟨.leaf ⟨1, (2, 2), 1, none, none, false⟩, .leaf ⟨2, (2, 2), 1, none, none, false⟩,
    ⟨fun k => ⟨2, 2, 1, fun _ _ _ => k⟩, fun _ v => v, 0, fun _ => 0, fun _ _ _ i => i, fun _ i => i, fun _ => true,
      fun _ => 0, fun _ _ i => i⟩, _, _, _, .leaf _ ?_ ?_, .leaf _ ?_ ?_, fun _ _ _ => rfl, rfl, rfl, rfl, rfl,
      by decide⟩
  all_goals first
    | exact ⟨by decide, by decide⟩
    | exact ⟨fun _ h => by cases h, fun h => by cases h⟩

/-! #### exceptions -/

theorem respell_iff (x : Str) : (∃ y, Fused.respell x = .ok y) ↔ Suffixed x := by
  unfold Fused.respell Suffixed
  by_cases hd : '.' ∈ x
  · rw [if_pos hd]
    simp only [hd, true_implies]
    constructor
    · rintro ⟨y, h⟩
      rw [Except.bind_eq_ok'] at h
      obtain ⟨⟨r, s⟩, e1, h⟩ := h
      rw [Except.bind_eq_ok'] at h
      obtain ⟨i, e2, -⟩ := h
      obtain ⟨h1, h2, h3⟩ := Fused.splitTwo_eq_ok e1
      exact ⟨r, s, i, h1, h2, h3, e2⟩
    · rintro ⟨r, s, i, rfl, h2, h3, h4⟩
      have e : Fused.splitTwo (r ++ '.' :: s) = .ok (r, s) := by
        unfold Fused.splitTwo
        rw [splitOn_append_sep h2, splitOn_of_not_mem h3]
      exact ⟨dotted r i, by rw [e]; show (pyInt s >>= fun i => .ok (dotted r i)) = _; rw [h4]; rfl⟩
  · rw [if_neg hd]
    simp [hd]

theorem respellAll_iff : ∀ l : List Str, (∃ r, Fused.respellAll l = .ok r) ↔ ∀ x ∈ l, Suffixed x
  | [] => by simp [Fused.respellAll]
  | p :: ps => by
    simp only [List.mem_cons, forall_eq_or_imp, ← respell_iff p, ← respellAll_iff ps, Fused.respellAll,
      Except.bind_eq_ok']
    constructor
    · rintro ⟨r, q, h1, qs, h2, -⟩
      exact ⟨⟨q, h1⟩, qs, h2⟩
    · rintro ⟨⟨q, h1⟩, qs, h2⟩
      exact ⟨_, q, h1, qs, h2, rfl⟩

theorem respellAll_only : ∀ {l : List Str} {e : PyErr}, Fused.respellAll l = .error e → e = .valueError
  | [], e, h => by cases h
  | p :: ps, e, h => by
    refine bind_only (x := Fused.respell p) h (fun h => ?_) fun h => bind_only h respellAll_only fun h => by cases h
    unfold Fused.respell at h
    split at h
    · refine bind_only h (fun h => ?_) fun h => bind_only h pyInt_only fun h => by cases h
      unfold Fused.splitTwo at h
      split at h <;> cases h
      rfl
    · cases h

theorem conciseText_iff {c r : List Str} (h : normParts c = .ok r) :
    ((∃ s, conciseText (some c) = .ok s) ↔ ∀ x ∈ r, Suffixed x) ∧
    ∀ e, conciseText (some c) = .error e → e = .valueError := by
  obtain ⟨h1, h2⟩ := C03_concise_general (.ofList c) (l := r) (by rw [Fused.asList_false]; exact h)
  rw [← respellAll_iff]
  rw [conciseText]
  cases e : Fused.concise ⟨c, false⟩ with
  | error x =>
    have := (h1 x).1 e
    simp only
    refine ⟨?_, fun y hy => ?_⟩
    · simp [this]
    · cases hy
      exact respellAll_only this
  | ok g =>
    obtain ⟨l, hl, -⟩ := h2 g e
    simp [hl]

/-- The leaf has only codes without a dot, or with one and an integer behind it. -/
def Countable (l : Leaf) : Prop := ∀ c, l.names = some c → ∀ x ∈ expandCodes c, Suffixed x

theorem suffixed_nil : Suffixed [] := by intro h; cases h

mutual
theorem countable_channels : ∀ n : Node, Each Countable n → ∀ l, channels (expand n) = some l → ∀ x ∈ l, Suffixed x
  | .leaf l, h, c, hc, x, hx => by
    simp only [expand, channels, Option.map_eq_some_iff] at hc
    obtain ⟨a, e, rfl⟩ := hc
    exact h a e x hx
  | .concat ps d, h, c, hc, x, hx => countable_channelsL ps h c hc x hx
  | .warp s _ _ _, h, c, hc, x, hx => countable_channels s h c hc x hx
  | .crop s _ _ _ _ idx, h, c, hc, x, hx => by
    cases idx with
    | none => exact countable_channels s h c hc x hx
    | some idx =>
      simp only [expand, channels, Option.map_eq_some_iff] at hc
      obtain ⟨a, e, rfl⟩ := hc
      obtain ⟨i, _, rfl⟩ := List.mem_map.1 hx
      rw [List.getD_eq_getElem?_getD]
      cases e2 : a[i]? with
      | none => exact suffixed_nil
      | some y => exact countable_channels s h a e y (List.mem_of_getElem? e2)
  | .overview s _ _, h, c, hc, x, hx => countable_channels s h c hc x hx
  | .dequant s _ _, h, c, hc, x, hx => countable_channels s h c hc x hx
theorem countable_channelsL : ∀ ps : List Node, EachL Countable ps → ∀ l, channelsL (expandL ps) = some l → ∀ x ∈ l,
    Suffixed x
  | [], _, l, hl, x, hx => by cases hl; cases hx
  | p :: ps, h, l, hl, x, hx => by
    rw [expandL, channelsL] at hl
    cases e1 : channels (expand p) with
    | none => rw [e1] at hl; cases hl
    | some a =>
      cases e2 : channelsL (expandL ps) with
      | none => rw [e1, e2] at hl; cases hl
      | some b =>
        rw [e1, e2] at hl
        cases hl
        rcases List.mem_append.1 hx with hx | hx
        · exact countable_channels p h.1 a e1 x hx
        · exact countable_channelsL ps h.2 b e2 x hx
end

theorem nestOver_iff {t : Str} {md : Entries} {x : Py Nest} : (∃ d, nestOver t md x = .ok d) ↔ ∃ d, x = .ok d := by
  cases x <;> simp [nestOver]

theorem nestOver_error {t : Str} {md : Entries} {x : Py Nest} {e : PyErr} (h : nestOver t md x = .error e) :
    x = .error e := by
  cases x with
  | error _ => exact h
  | ok _ => cases h

/-- The text for the channels of a crop. -/
theorem cropText {s : Node} {y0 y1 x0 x1 : Int} {c : Option (List Nat)} (hs : Spelled s) :
    (Each Countable s → ∃ t, conciseText (c.bind fun c => written (.crop s y0 y1 x0 x1 (some c))) = .ok t) ∧
    ∀ e, conciseText (c.bind fun c => written (.crop s y0 y1 x0 x1 (some c))) = .error e → e = .valueError := by
  cases c with
  | none => exact ⟨fun _ => ⟨none, rfl⟩, fun e h => by cases h⟩
  | some c =>
    simp only [Option.bind_some]
    have hsp : Spelled (.crop s y0 y1 x0 x1 (some c)) := hs
    obtain ⟨h1, h2⟩ := written_expand _ hsp
    cases e : written (.crop s y0 y1 x0 x1 (some c)) with
    | none => exact ⟨fun _ => ⟨none, rfl⟩, fun e h => by cases h⟩
    | some w =>
      obtain ⟨r, hr⟩ := h1 w e
      obtain ⟨g1, g2⟩ := conciseText_iff hr
      refine ⟨fun hc => g1.2 fun x hx => ?_, g2⟩
      rw [e, Option.map_some, expandCodes_ok hr] at h2
      exact countable_channels (.crop s y0 y1 x0 x1 (some c)) hc r h2 x hx

mutual
theorem nesting_iff (kind : Leaf → LeafClass) : ∀ n : Node, Spelled n →
    ((∃ d, nesting kind n = .ok d) ↔ Each Countable n) ∧ ∀ e, nesting kind n = .error e → e = .valueError
  | .leaf l, hs => by
    rw [nesting]
    simp only [Each]
    cases e : l.names with
    | none =>
      refine ⟨⟨fun _ c hc => (by rw [e] at hc; cases hc), fun _ => ⟨_, rfl⟩⟩, fun x h => by cases h⟩
    | some c =>
      obtain ⟨r, hr, _⟩ := hs c e
      obtain ⟨g1, g2⟩ := conciseText_iff hr
      have hcount : Countable l ↔ ∀ x ∈ r, Suffixed x := by
        unfold Countable
        simp [e, expandCodes_ok hr]
      rw [hcount, ← g1]
      cases et : conciseText (some c) with
      | error x => exact ⟨by simp, fun y hy => by cases hy; exact g2 x et⟩
      | ok t => exact ⟨by simp, fun y hy => by cases hy⟩
  | .concat ps d, hs => by
    rw [nesting]
    obtain ⟨g1, g2⟩ := nestingL_iff kind ps hs
    simp only [Each, ← g1]
    cases e : nestingL kind ps with
    | error x => exact ⟨by simp, fun y hy => by cases hy; exact g2 x e⟩
    | ok t => exact ⟨by simp, fun y hy => by cases hy⟩
  | .warp s _ _ _, hs => by
    rw [nesting, nestOver_iff]
    obtain ⟨g1, g2⟩ := nesting_iff kind s hs
    exact ⟨g1, fun e h => g2 e (nestOver_error h)⟩
  | .crop s y0 y1 x0 x1 c, hs => by
    rw [nesting]
    obtain ⟨g1, g2⟩ := nesting_iff kind s hs
    obtain ⟨k1, k2⟩ := cropText (s := s) (y0 := y0) (y1 := y1) (x0 := x0) (x1 := x1) (c := c) hs
    simp only [Each]
    cases e : conciseText (c.bind fun c => written (.crop s y0 y1 x0 x1 (some c))) with
    | error x =>
      refine ⟨⟨fun ⟨_, h⟩ => (by cases h), fun h => ?_⟩, fun y hy => by cases hy; exact k2 x e⟩
      obtain ⟨t, ht⟩ := k1 h
      rw [e] at ht
      cases ht
    | ok t =>
      simp only
      rw [nestOver_iff]
      exact ⟨g1, fun e h => g2 e (nestOver_error h)⟩
  | .overview s _ _, hs => by
    rw [nesting, nestOver_iff]
    obtain ⟨g1, g2⟩ := nesting_iff kind s hs
    exact ⟨g1, fun e h => g2 e (nestOver_error h)⟩
  | .dequant s _ _, hs => by
    rw [nesting, nestOver_iff]
    obtain ⟨g1, g2⟩ := nesting_iff kind s hs
    exact ⟨g1, fun e h => g2 e (nestOver_error h)⟩
theorem nestingL_iff (kind : Leaf → LeafClass) : ∀ ps : List Node, SpelledL ps →
    ((∃ d, nestingL kind ps = .ok d) ↔ EachL Countable ps) ∧ ∀ e, nestingL kind ps = .error e → e = .valueError
  | [], _ => by
    rw [nestingL]
    exact ⟨⟨fun _ => trivial, fun _ => ⟨_, rfl⟩⟩, fun e h => by cases h⟩
  | p :: ps, hs => by
    rw [nestingL]
    obtain ⟨g1, g2⟩ := nesting_iff kind p hs.1
    obtain ⟨k1, k2⟩ := nestingL_iff kind ps hs.2
    simp only [EachL, ← g1, ← k1]
    cases e : nesting kind p with
    | error x => exact ⟨by simp, fun y hy => by cases hy; exact g2 x e⟩
    | ok c =>
      cases e2 : nestingL kind ps with
      | error x => exact ⟨by simp, fun y hy => by cases hy; exact k2 x e2⟩
      | ok cs => exact ⟨by simp, fun y hy => by cases hy⟩
end

/-- C85: there is a description if and only if every code of every leaf has no dot, or one and an integer behind it;
otherwise `nesting()` raises `ValueError`. -/
theorem C85_raises_iff (kind : Leaf → LeafClass) {n : Node} (hs : Spelled n) :
    ((∃ d, nesting kind n = .ok d) ↔ Each Countable n) ∧ ∀ e, nesting kind n = .error e → e = .valueError :=
  nesting_iff kind n hs

/-! #### what is told at the top -/

mutual
/-- The channels a description tells: its entry, or else those of its parts, one after the other. -/
def toldNames : Nest → Option (List Str)
  | .single _ md => readNames md.channels
  | .nested _ md cs => if md.channels.isSome then readNames md.channels else toldNamesL cs
def toldNamesL : List Nest → Option (List Str)
  | [] => some []
  | c :: cs => (toldNames c).bind fun a => (toldNamesL cs).map (a ++ ·)
end

mutual
/-- The number of channels a description tells. -/
def toldCount : Nest → Nat
  | .single _ md => md.numChannels.getD 0
  | .nested _ md cs => md.numChannels.getD (toldCountL cs)
def toldCountL : List Nest → Nat
  | [] => 0
  | c :: cs => toldCount c + toldCountL cs
end

mutual
/-- The width and the height a description tells, for stacked channels those of the first. -/
def toldSize : Nest → Option (Int × Int)
  | .single _ md => md.dsize
  | .nested _ md cs => if md.dsize.isSome then md.dsize else toldSizeL cs
def toldSizeL : List Nest → Option (Int × Int)
  | [] => none
  | c :: _ => toldSize c
end

/-- Codes that can be read again, none of which is empty. -/
def Clear (l : Leaf) : Prop := ∀ c, l.names = some c → ∃ r, normParts c = .ok r ∧
  ∀ x ∈ r, CanonicalCode x ∧ '|' ∉ x ∧ x ≠ []

theorem clear_legible {l : Leaf} (h : Clear l) : Legible l := by
  intro c hc
  obtain ⟨r, h1, h2⟩ := h c hc
  refine ⟨r, h1, fun x hx => ⟨(h2 x hx).1, (h2 x hx).2.1⟩, ?_⟩
  rintro rfl
  exact (h2 [] (by simp)).2.2 rfl

mutual
theorem clear_channels : ∀ n : Node, WF (expand n) → Each Clear n → ∀ l, channels (expand n) = some l → ∀ x ∈ l,
    CanonicalCode x ∧ '|' ∉ x ∧ x ≠ []
  | .leaf l, _, h, c, hc, x, hx => by
    simp only [expand, channels, Option.map_eq_some_iff] at hc
    obtain ⟨a, e, rfl⟩ := hc
    obtain ⟨r, h1, h2⟩ := h a e
    rw [expandCodes_ok h1] at hx
    exact h2 x hx
  | .concat ps d, hw, h, c, hc, x, hx => clear_channelsL ps d hw.2 h c hc x hx
  | .warp s _ _ _, hw, h, c, hc, x, hx => clear_channels s hw.1 h c hc x hx
  | .crop s _ _ _ _ idx, hw, h, c, hc, x, hx => by
    cases idx with
    | none => exact clear_channels s hw.1 h c hc x hx
    | some idx =>
      simp only [expand, channels, Option.map_eq_some_iff] at hc
      obtain ⟨a, e, rfl⟩ := hc
      obtain ⟨i, hi, rfl⟩ := List.mem_map.1 hx
      have hlt : i < a.length := by
        rw [channels_length (expand s) a hw.1 e]
        exact hw.2.2.2 i hi
      rw [List.getD_eq_getElem _ _ hlt]
      exact clear_channels s hw.1 h a e _ (List.getElem_mem hlt)
  | .overview s _ _, hw, h, c, hc, x, hx => clear_channels s hw h c hc x hx
  | .dequant s _ _, hw, h, c, hc, x, hx => clear_channels s hw h c hc x hx
theorem clear_channelsL : ∀ (ps : List Node) (d : Int × Int), WFL d (expandL ps) → EachL Clear ps → ∀ l,
    channelsL (expandL ps) = some l → ∀ x ∈ l, CanonicalCode x ∧ '|' ∉ x ∧ x ≠ []
  | [], _, _, _, l, hl, x, hx => by cases hl; cases hx
  | p :: ps, d, hw, h, l, hl, x, hx => by
    rw [expandL, channelsL] at hl
    cases e1 : channels (expand p) with
    | none => rw [e1] at hl; cases hl
    | some a =>
      cases e2 : channelsL (expandL ps) with
      | none => rw [e1, e2] at hl; cases hl
      | some b =>
        rw [e1, e2] at hl
        cases hl
        rcases List.mem_append.1 hx with hx | hx
        · exact clear_channels p hw.1 h.1 a e1 x hx
        · exact clear_channelsL ps d hw.2.2 h.2 b e2 x hx
end

theorem reNames_clear {c r : List Str} (h : normParts c = .ok r) (hc : ∀ x ∈ r, CanonicalCode x ∧ '|' ∉ x ∧ x ≠ [])
    {t : Option Str} (ht : conciseText (some c) = .ok t) : t.isSome ∧ readNames t = some r := by
  have := reNames_legible h (fun x hx => ⟨(hc x hx).1, (hc x hx).2.1⟩) (by
    rintro rfl
    exact (hc [] (by simp)).2.2 rfl)
  rw [reNames, ht] at this
  simp only at this
  rw [this, expandCodes_ok h]
  refine ⟨?_, rfl⟩
  cases t with
  | none => cases this
  | some _ => rfl

theorem told_single {c : Nest} : toldNamesL [c] = toldNames c := by
  rw [toldNamesL, toldNamesL]
  cases toldNames c <;> simp

theorem toldCount_single {c : Nest} : toldCountL [c] = toldCount c := by
  rw [toldCountL, toldCountL]
  rfl

mutual
theorem told_nesting (kind : Leaf → LeafClass) : ∀ (n : Node) (d : Nest), WF (expand n) → Spelled n → Each Clear n →
    nesting kind n = .ok d →
    toldNames d = (expand n).channels ∧ toldCount d = n.nchan ∧ toldSize d = some n.dsize
  | .leaf l, d, _, _, hc, h => by
    rw [nesting] at h
    cases e : conciseText l.names with
    | error x => rw [e] at h; cases h
    | ok t =>
      rw [e] at h
      cases h
      refine ⟨?_, rfl, rfl⟩
      simp only [nestItem, toldNames, expand, channels]
      cases en : l.names with
      | none => rw [en] at e; cases e; rfl
      | some c =>
        rw [en] at e
        obtain ⟨r, h1, h2⟩ := hc c en
        rw [(reNames_clear h1 h2 e).2, Option.map_some, expandCodes_ok h1]
  | .concat ps dd, d, hw, hs, hc, h => by
    rw [nesting] at h
    cases e : nestingL kind ps with
    | error x => rw [e] at h; cases h
    | ok cs =>
      rw [e] at h
      cases h
      obtain ⟨h1, h2, h3⟩ := told_nestingL kind ps cs dd hw.2 hs hc e
      obtain ⟨p, ps, rfl⟩ : ∃ p qs, ps = p :: qs := List.exists_cons_of_ne_nil fun e => hw.1 (by rw [e]; rfl)
      cases cs with
      | nil => cases h3 (by simp)
      | cons c cs =>
        simp only [nestItem, toldNames, toldCount, toldSize]
        exact ⟨h1, h2, h3 (by simp)⟩
  | .warp s tf dd a, d, hw, hs, hc, h => by
    rw [nesting] at h
    obtain ⟨c, e, rfl⟩ := nestOver_ok h
    obtain ⟨h1, h2, h3⟩ := told_nesting kind s c hw.1 hs hc e
    refine ⟨?_, ?_, rfl⟩
    · rw [toldNames, if_neg (by simp), told_single, h1]; rfl
    · rw [toldCount]; rw [Option.getD_none, toldCount_single, h2]; rfl
  | .crop s y0 y1 x0 x1 idx, d, hw, hs, hc, h => by
    rw [nesting] at h
    cases e : conciseText (idx.bind fun c => written (.crop s y0 y1 x0 x1 (some c))) with
    | error x => rw [e] at h; cases h
    | ok t =>
      rw [e] at h
      obtain ⟨c, e2, rfl⟩ := nestOver_ok h
      obtain ⟨h1, h2, h3⟩ := told_nesting kind s c hw.1 hs hc e2
      cases idx with
      | none =>
        cases e
        refine ⟨?_, ?_, rfl⟩
        · rw [toldNames, if_neg (by simp), told_single, h1]; rfl
        · rw [toldCount]; rw [Option.map_none, Option.getD_none, toldCount_single, h2]; rfl
      | some idx =>
        refine ⟨?_, rfl, rfl⟩
        have hsp : Spelled (.crop s y0 y1 x0 x1 (some idx)) := hs
        obtain ⟨g1, g2⟩ := written_expand _ hsp
        simp only [Option.bind_some] at e
        rw [toldNames]
        cases ew : written (.crop s y0 y1 x0 x1 (some idx)) with
        | none =>
          rw [ew] at e g2
          cases e
          rw [if_neg (by simp), told_single, h1]
          rw [g2]
          simp only [expand, channels] at g2
          cases ec : (expand s).channels with
          | none => rfl
          | some _ => rw [ec] at g2; cases g2
        | some w =>
          rw [ew] at e g2
          obtain ⟨r, hr⟩ := g1 w ew
          rw [Option.map_some, expandCodes_ok hr] at g2
          obtain ⟨k1, k2⟩ := reNames_clear hr (clear_channels (.crop s y0 y1 x0 x1 (some idx)) hw hc r g2) e
          rw [if_pos k1, k2, g2]
  | .overview s k dd, d, hw, hs, hc, h => by
    rw [nesting] at h
    obtain ⟨c, e, rfl⟩ := nestOver_ok h
    obtain ⟨h1, h2, h3⟩ := told_nesting kind s c hw hs hc e
    refine ⟨?_, ?_, rfl⟩
    · rw [toldNames, if_neg (by simp), told_single, h1]; rfl
    · rw [toldCount]; rw [Option.getD_none, toldCount_single, h2]; rfl
  | .dequant s q dd, d, hw, hs, hc, h => by
    rw [nesting] at h
    obtain ⟨c, e, rfl⟩ := nestOver_ok h
    obtain ⟨h1, h2, h3⟩ := told_nesting kind s c hw hs hc e
    refine ⟨?_, ?_, rfl⟩
    · rw [toldNames, if_neg (by simp), told_single, h1]; rfl
    · rw [toldCount]; rw [Option.getD_none, toldCount_single, h2]; rfl
theorem told_nestingL (kind : Leaf → LeafClass) : ∀ (ps : List Node) (ds : List Nest) (d : Int × Int), WFL d (expandL ps) →
    SpelledL ps → EachL Clear ps → nestingL kind ps = .ok ds →
    toldNamesL ds = channelsL (expandL ps) ∧ toldCountL ds = nchans ps ∧ (ps ≠ [] → toldSizeL ds = some d)
  | [], ds, _, _, _, _, h => by
    rw [nestingL] at h
    cases h
    exact ⟨rfl, rfl, fun h => absurd rfl h⟩
  | p :: ps, ds, d, hw, hs, hc, h => by
    rw [nestingL] at h
    cases e : nesting kind p with
    | error x => rw [e] at h; cases h
    | ok c =>
      rw [e] at h
      cases e2 : nestingL kind ps with
      | error x => simp only [e2] at h; cases h
      | ok cs =>
        simp only [e2] at h
        cases h
        obtain ⟨h1, h2, h3⟩ := told_nesting kind p c hw.1 hs.1 hc.1 e
        obtain ⟨k1, k2, -⟩ := told_nestingL kind ps cs d hw.2.2 hs.2 hc.2 e2
        refine ⟨?_, ?_, fun _ => ?_⟩
        · rw [toldNamesL, expandL, channelsL, h1, k1]
          cases (expand p).channels <;> cases channelsL (expandL ps) <;> rfl
        · rw [toldCountL, nchans, h2, k2]
        · rw [toldSizeL, h3, ← expand_dsize p, hw.2.1]
end

/-- C85: the description tells the channels, their number and the size of the image, at the top or at the first parts
below that say something; this holds for arrays in memory, too. -/
theorem C85_announced (kind : Leaf → LeafClass) {n : Node} (hb : Tree.Built (expand n)) (hs : Spelled n)
    (hc : Each Clear n) {d : Nest} (h : nesting kind n = .ok d) :
    toldNames d = (expand n).channels ∧ toldCount d = n.nchan ∧ toldSize d = some n.dsize :=
  told_nesting kind n d hb.ok.1 hs hc h

/-- Two specs with shorthand, three channels of them, warped. -/
def toldNode : Node := .warp (.crop shortNode 1 3 0 2 (some [3, 4, 0])) (.scale 2) (4, 4) .default

theorem told_clear : Each Clear toldNode := by
  refine ⟨?_, ?_, trivial⟩
  · intro c hc
    cases hc
    exact ⟨[p! "r", p! "g", p! "b"], by decide +kernel, by
      intro x hx
      simp only [List.mem_cons, List.not_mem_nil, or_false] at hx
      rcases hx with rfl | rfl | rfl <;> exact ⟨.inl (by decide), by decide, by decide⟩⟩
  · intro c hc
    cases hc
    exact ⟨[p! "nir.0", p! "nir.1", p! "nir.2"], by decide +kernel, by
      intro x hx
      simp only [List.mem_cons, List.not_mem_nil, or_false] at hx
      rcases hx with rfl | rfl | rfl
      · exact ⟨.inr ⟨p! "nir", 0, by decide, by decide⟩, by decide, by decide⟩
      · exact ⟨.inr ⟨p! "nir", 1, by decide, by decide⟩, by decide, by decide⟩
      · exact ⟨.inr ⟨p! "nir", 2, by decide, by decide⟩, by decide, by decide⟩⟩

theorem told_legible : Each Legible toldNode :=
  ⟨clear_legible told_clear.1, clear_legible told_clear.2.1, trivial⟩

theorem told_built : Tree.Built (expand toldNode) := by
  refine .warp _ (.scale 2) (some (4, 4)) .default (.crop _ _ (some ((some 1, some 3), (some 0, some 2)))
    (some [3, 4, 0]) built_short ?_ ?_) (by decide +kernel) ⟨by decide, by decide⟩
  · intro i hi
    simp only [List.mem_cons, List.not_mem_nil, or_false] at hi
    rw [expand_short]
    rcases hi with rfl | rfl | rfl <;> decide
  · rw [expand_short]
    rfl

theorem canonical_suffixed {x : Str} (h : CanonicalCode x) : Suffixed x := by
  intro hd
  rcases h with h | ⟨r, i, hr, rfl⟩
  · exact absurd hd h
  · exact ⟨r, intStr i, i, rfl, hr, intStr_not_mem (.inl rfl), pyInt_intStr i⟩

theorem legible_countable {l : Leaf} (h : Legible l) : Countable l := by
  intro c hc x hx
  obtain ⟨r, h1, h2, -⟩ := h c hc
  rw [expandCodes_ok h1] at hx
  exact canonical_suffixed (h2 x hx).1

example : ∃ d, nesting (fun _ => .load) toldNode = .ok d ∧ readNest d = some (expand toldNode) ∧
    (expand toldNode).channels = some [p! "nir.0", p! "nir.1", p! "r"] ∧
    toldNames d = some [p! "nir.0", p! "nir.1", p! "r"] ∧ toldCount d = 3 ∧ toldSize d = some (4, 4) := by
  have hc : Each Countable toldNode := ⟨legible_countable told_legible.1, legible_countable told_legible.2.1, trivial⟩
  obtain ⟨d, hd⟩ := (C85_raises_iff (fun _ => .load) (n := toldNode) spelled_short).1.2 hc
  have hch : (expand toldNode).channels = some [p! "nir.0", p! "nir.1", p! "r"] := by
    simp only [toldNode, expand, channels, expand_short]
    decide +kernel
  obtain ⟨h1, h2, h3⟩ := C85_announced (fun _ => .load) told_built spelled_short told_clear hd
  refine ⟨d, hd, ?_, hch, h1.trans hch, h2, h3⟩
  · exact C85_read_back _ told_built ⟨⟨by simp, by simp [rgbShort]⟩, ⟨by simp, by simp [nirLeaf]⟩, trivial⟩ told_legible
      hd

/-- The same file with `a.0|a.1` and with `a:2`, of which the second channel is taken. -/
def twiceTold (c : List Str) : Node := .crop (.leaf ⟨1, (5, 4), 2, some c, none, false⟩) 0 2 0 2 (some [1])

theorem twice_built {c : List Str} (hc : normParts c = .ok [p! "a.0", p! "a.1"]) :
    Tree.Built (expand (twiceTold c)) := by
  have e : expand (twiceTold c) = twiceTold [p! "a.0", p! "a.1"] := by
    simp only [twiceTold, expand, Option.map_some, expandCodes_ok hc]
  rw [e]
  refine .crop _ _ (some ((some 0, some 2), (some 0, some 2))) (some [1])
    (.leaf ⟨1, (5, 4), 2, some [p! "a.0", p! "a.1"], none, false⟩ ⟨?_, fun h => by cases h⟩
    ⟨by decide, by decide⟩) ?_ ?_
  · intro ns h
    cases h
    rfl
  · intro i hi
    rw [List.mem_singleton.1 hi]
    decide
  · rfl

example (hE : Nameless E) :
    fin E (twiceTold [p! "a.0", p! "a.1"]) = fin E (twiceTold [p! "a:2"]) := by
  have e : conciseText (some [p! "a.0", p! "a.1"]) = .ok (some (p! "a:2")) ∧
    conciseText (some [p! "a:2"]) = .ok (some (p! "a:2")) ∧ conciseText (some [p! "a.1"]) = .ok (some (p! "a.1")) ∧
    expandCodes [p! "a.0", p! "a.1"] = [p! "a.0", p! "a.1"] ∧ expandCodes [p! "a:2"] = [p! "a.0", p! "a.1"] := by
    decide +kernel
  have p1 : pick [] [p! "a.0", p! "a.1"] [1] = [p! "a.1"] := rfl
  obtain ⟨e1, e2, e3, e4, e5⟩ := e
  have f : ∀ c, Filed (fun _ => .load) (twiceTold c) := fun c => ⟨by simp, by simp⟩
  obtain ⟨d, h1⟩ : ∃ d, nesting (fun _ => .load) (twiceTold [p! "a.0", p! "a.1"]) = .ok d := by
    simp only [twiceTold, nesting, Option.bind_some, written, Option.map_some, e4, p1, e3, e1]
    exact ⟨_, rfl⟩
  have h2 : nesting (fun _ => .load) (twiceTold [p! "a:2"]) = .ok d := by
    rw [← h1]
    simp only [twiceTold, nesting, Option.bind_some, written, Option.map_some, e4, p1, e3, e1, e5, e2, className]
  exact (C85_same_pixels hE _ (twice_built (by decide +kernel)) (twice_built (by decide +kernel)) (f _) (f _) h1 h2).1

/-- C85 fails for names that `concise` cannot read: such an image can be built, and has no description. -/
theorem C85_raises_violated : ∃ n : Node, Tree.Built (expand n) ∧ Spelled n ∧
    (expand n).channels = some [p! "band.raw"] ∧ nesting (fun _ => .load) n = .error .valueError := by
  refine ⟨.leaf ⟨1, (5, 4), 1, some [p! "band.raw"], none, false⟩, .leaf _ ⟨?_, fun h => by cases h⟩
    ⟨by decide, by decide⟩, fun c hc => ?_, by decide +kernel, ?_⟩
  · intro ns h
    simp only [Option.map_some, Option.some.injEq] at h
    subst h
    decide +kernel
  · cases hc
    exact ⟨[p! "band.raw"], by decide +kernel, rfl⟩
  · have e : conciseText (some [p! "band.raw"]) = .error .valueError := by decide +kernel
    simp only [nesting, e]

end Verif.Props
