/-
Channel specs as they are written.  In `Node.lean` the codes of a leaf are normalized.  The library keeps
the spec a leaf was given (`rgb`, `a.0:3`) and expands it where it selects channels.  Here the codes of a
leaf are the written ones; `expand` replaces every spec by its normalized form, and the functions that look
at codes are modelled again on written specs.

Simplification.  Specs that cannot be expanded are excluded by `Spelled`: the constructors of leaves raise
on them (delayed_nodes.py:1218-1230).
-/
import Verif.ChannelSpecLemmas
import Verif.TakeView
import Verif.Raster

namespace Verif
namespace Tree
open Node

/-- `FusedChannelSpec.as_list()` of a written spec that can be expanded, channel_spec.py:752-753. -/
def expandCodes (l : List Str) : List Str :=
  match normParts l with
  | .ok r => r
  | .error _ => l

mutual
/-- The same image with all specs expanded. -/
def expand : Node → Node
  | .leaf l => .leaf { l with names := l.names.map expandCodes }
  | .concat ps d => .concat (expandL ps) d
  | .warp s tf d a => .warp (expand s) tf d a
  | .crop s y0 y1 x0 x1 c => .crop (expand s) y0 y1 x0 x1 c
  | .overview s k d => .overview (expand s) k d
  | .dequant s q d => .dequant (expand s) q d
def expandL : List Node → List Node
  | [] => []
  | p :: ps => expand p :: expandL ps
end

mutual
/-- The specs of all leaves can be expanded, and the number of channels of a leaf is the number of its
codes after expansion, delayed_nodes.py:1218-1230. -/
def Spelled : Node → Prop
  | .leaf l => ∀ c, l.names = some c → ∃ r, normParts c = .ok r ∧ r.length = l.nchan
  | .concat ps _ => SpelledL ps
  | .warp s _ _ _ => Spelled s
  | .crop s _ _ _ _ _ => Spelled s
  | .overview s _ _ => Spelled s
  | .dequant s _ _ => Spelled s
def SpelledL : List Node → Prop
  | [] => True
  | p :: ps => Spelled p ∧ SpelledL ps
end

mutual
/-- `channels`, delayed_nodes.py:1278-1287 and 755-769: leaves report their spec as written, concats the
written specs one after the other.  A crop with channel indices stores `current_channels[chan_idxs]`
(2706-2712), which indexes the expanded spec (channel_spec.py:424-431). -/
def written : Node → Option (List Str)
  | .leaf l => l.names
  | .concat ps _ => writtenL ps
  | .warp s _ _ _ => written s
  | .crop s _ _ _ _ c =>
    match c with
    | none => written s
    | some c => (written s).map (fun l => pick [] (expandCodes l) c)
  | .overview s _ _ => written s
  | .dequant s _ _ => written s
def writtenL : List Node → Option (List Str)
  | [] => some []
  | p :: ps =>
    match written p, writtenL ps with
    | some a, some b => some (a ++ b)
    | _, _ => none
end

/-- The channel check of `DelayedCrop.__init__`, delayed_nodes.py:2706-2712. -/
def writtenCheck (sub : Node) (c : Option (List Nat)) : Py Unit :=
  match c, written sub with
  | some c, some codes =>
    if c.all (fun i => decide (i < (expandCodes codes).length)) then .ok () else .error .indexError
  | _, _ => .ok ()

/-- `DelayedCrop(sub, space_slice, chan_idxs)`, delayed_nodes.py:2668-2715. -/
def writtenCrop (sub : Node) (sl : Option Space) (c : Option (List Nat)) : Py Node :=
  match writtenCheck sub c with
  | .error e => .error e
  | .ok _ =>
    match sl with
    | none => .ok (.crop sub 0 sub.dsize.2 0 sub.dsize.1 c)
    | some (ysl, xsl) =>
      let y := normSlice sub.dsize.2 ysl.1 ysl.2
      let x := normSlice sub.dsize.1 xsl.1 xsl.2
      .ok (.crop sub y.1 y.2 x.1 x.2 c)

mutual
/-- `take_channels` with a list of indices, delayed_nodes.py:1403-1404, 915-922 and 968-1009. -/
def writtenIdx : Node → List Nat → Py Node
  | .concat ps d, idxs =>
    match writtenL ps with
    | none => .error .assertionError
    | some _ => concatTake d (writtenTakers ps) (idxs.map (fun i => (some i, none)))
  | .leaf l, idxs => writtenCrop (.leaf l) none (some idxs)
  | .warp s tf d a, idxs => writtenCrop (.warp s tf d a) none (some idxs)
  | .crop s y0 y1 x0 x1 c, idxs => writtenCrop (.crop s y0 y1 x0 x1 c) none (some idxs)
  | .overview s k d, idxs => writtenCrop (.overview s k d) none (some idxs)
  | .dequant s q d, idxs => writtenCrop (.dequant s q d) none (some idxs)
def writtenTakers : List Node → List (Node × (List Nat → Py Node))
  | [] => []
  | p :: ps => (p, writtenIdx p) :: writtenTakers ps
end

/-- `take_channels` with a written spec, delayed_nodes.py:923-1009 for a concat and 1405-1435 for an image.
The specs are compared as they are written (`FusedChannelSpec.__eq__`, channel_spec.py:456-459); the codes
are looked up in the expanded specs. -/
def writtenNames (n : Node) (req : List Str) (policy : Policy) : Py Node :=
  match n with
  | .concat ps d =>
    if writtenL ps = some req then .ok (.concat ps d)
    else
      match writtenL ps with
      | none => .error .assertionError
      | some codes =>
        match normParts req with
        | .error e => .error e
        | .ok request =>
          let reqs := request.map (fun c => (osetIndex (expandCodes codes) c, some c))
          if policy = .error ∧ reqs.any (fun r => r.1.isNone) then .error .valueError
          else concatTake d (writtenTakers ps) reqs
  | n =>
    match written n with
    | none => .error .valueError
    | some codes =>
      match normParts req with
      | .error e => .error e
      | .ok request =>
        if request.all (fun c => (osetIndex (expandCodes codes) c).isSome) then
          writtenCrop n none (some (request.filterMap (osetIndex (expandCodes codes))))
        else if codes = req then .ok (.concat [n] n.dsize)
        else
          let reqs := request.map (fun c => (osetIndex (expandCodes codes) c, some c))
          if policy = .error ∧ reqs.any (fun r => r.1.isNone) then .error .valueError
          else concatTake n.dsize [(n, writtenIdx n)] reqs

/-! #### expanding -/

theorem expandL_eq (ps : List Node) : expandL ps = ps.map expand := by
  induction ps with
  | nil => rfl
  | cons p ps ih => simp [expandL, ih]

theorem SpelledL_iff (ps : List Node) : SpelledL ps ↔ ∀ p ∈ ps, Spelled p := by
  induction ps with
  | nil => simp [SpelledL]
  | cons p ps ih => simp [SpelledL, ih]

theorem writtenTakers_eq (ps : List Node) : writtenTakers ps = ps.map (fun p => (p, writtenIdx p)) := by
  induction ps with
  | nil => rfl
  | cons p ps ih => simp [writtenTakers, ih]

theorem expand_dsize (n : Node) : (expand n).dsize = n.dsize := by
  cases n <;> rfl

mutual
theorem expand_nchan : ∀ n : Node, (expand n).nchan = n.nchan
  | .leaf _ => rfl
  | .concat ps _ => by rw [expand, nchan, nchan]; exact expandL_nchans ps
  | .warp s _ _ _ => by rw [expand, nchan, nchan]; exact expand_nchan s
  | .crop s _ _ _ _ none => by rw [expand, nchan, nchan]; exact expand_nchan s
  | .crop s _ _ _ _ (some c) => rfl
  | .overview s _ _ => by rw [expand, nchan, nchan]; exact expand_nchan s
  | .dequant s _ _ => by rw [expand, nchan, nchan]; exact expand_nchan s
theorem expandL_nchans : ∀ ps : List Node, nchans (expandL ps) = nchans ps
  | [] => rfl
  | p :: ps => by rw [expandL, nchans, nchans, expand_nchan p, expandL_nchans ps]
end

theorem expandCodes_ok {l r : List Str} (h : normParts l = .ok r) : expandCodes l = r := by
  unfold expandCodes; rw [h]

/-- Codes without shorthand are left alone. -/
theorem expandCodes_plain {l : List Str} (h : ∀ v ∈ l, needsNorm v = false) : expandCodes l = l :=
  expandCodes_ok (normParts_of_not_needs h)

/-- The codes of a spec that can be expanded contain no shorthand afterwards. -/
theorem expandCodes_codes {l r : List Str} (h : normParts l = .ok r) : ∀ v ∈ expandCodes l, needsNorm v = false := by
  rw [expandCodes_ok h]
  exact normParts_needs h

theorem pick_plain {l : List Str} (h : ∀ v ∈ l, needsNorm v = false) (c : List Nat) :
    ∀ v ∈ pick [] l c, needsNorm v = false := by
  intro v hv
  obtain ⟨i, _, rfl⟩ := List.mem_map.1 hv
  rw [List.getD_eq_getElem?_getD]
  cases e : l[i]? with
  | none => rfl
  | some x => exact h x (List.mem_of_getElem? e)

mutual
/-- What an image announces can be expanded, and expanding it gives what the expanded image announces. -/
theorem written_expand : ∀ n : Node, Spelled n →
    (∀ l, written n = some l → ∃ r, normParts l = .ok r) ∧
    (expand n).channels = (written n).map expandCodes
  | .leaf l, h => ⟨fun c hc => by obtain ⟨r, hr, _⟩ := h c hc; exact ⟨r, hr⟩, rfl⟩
  | .concat ps d, h => by
    rw [Spelled] at h
    obtain ⟨h1, h2⟩ := writtenL_expand ps h
    rw [expand, Node.channels, written]
    exact ⟨h1, h2⟩
  | .warp s tf d a, h => by
    rw [expand, Node.channels, written]
    exact written_expand s (by rw [Spelled] at h; exact h)
  | .crop s y0 y1 x0 x1 c, h => by
    rw [Spelled] at h
    obtain ⟨h1, h2⟩ := written_expand s h
    cases c with
    | none =>
      rw [expand, Node.channels, written]
      exact ⟨h1, h2⟩
    | some c =>
      rw [expand, Node.channels, written]
      simp only [h2]
      cases hw : written s with
      | none => exact ⟨fun _ h => by simp at h, rfl⟩
      | some l =>
        obtain ⟨r, hr⟩ := h1 l hw
        have hp := pick_plain (expandCodes_codes hr) c
        refine ⟨fun l' h' => ?_, ?_⟩
        · simp only [Option.map_some, Option.some.injEq] at h'
          rw [← h']
          exact ⟨_, normParts_of_not_needs hp⟩
        · simp only [Option.map_some]
          rw [expandCodes_plain hp]
  | .overview s k d, h => by
    rw [expand, Node.channels, written]
    exact written_expand s (by rw [Spelled] at h; exact h)
  | .dequant s q d, h => by
    rw [expand, Node.channels, written]
    exact written_expand s (by rw [Spelled] at h; exact h)
theorem writtenL_expand : ∀ ps : List Node, SpelledL ps →
    (∀ l, writtenL ps = some l → ∃ r, normParts l = .ok r) ∧
    channelsL (expandL ps) = (writtenL ps).map expandCodes
  | [], _ => ⟨fun l h => by cases h; exact ⟨_, rfl⟩, rfl⟩
  | p :: ps, h => by
    rw [SpelledL] at h
    obtain ⟨h1, h2⟩ := written_expand p h.1
    obtain ⟨h3, h4⟩ := writtenL_expand ps h.2
    rw [expandL, channelsL, writtenL, h2, h4]
    cases hp : written p with
    | none => exact ⟨fun _ h => by simp at h, rfl⟩
    | some a =>
      cases hps : writtenL ps with
      | none => exact ⟨fun _ h => by simp at h, rfl⟩
      | some b =>
        obtain ⟨ra, ea⟩ := h1 a hp
        obtain ⟨rb, eb⟩ := h3 b hps
        have hab : normParts (a ++ b) = .ok (ra ++ rb) := by
          rw [normParts_append, ea, eb]; rfl
        refine ⟨fun l h => ?_, ?_⟩
        · cases h; exact ⟨_, hab⟩
        · simp only [Option.map_some]
          rw [expandCodes_ok hab, expandCodes_ok ea, expandCodes_ok eb]
end

theorem writtenCrop_expand {n : Node} (h : Spelled n) (sl : Option Space) (c : Option (List Nat)) :
    (writtenCrop n sl c).map expand = mkCrop (expand n) sl c := by
  have hc : writtenCheck n c = chanCheck (expand n) c := by
    unfold writtenCheck chanCheck
    rw [(written_expand n h).2]
    cases c with
    | none => cases written n <;> rfl
    | some c => cases written n <;> rfl
  unfold writtenCrop mkCrop
  rw [hc]
  cases chanCheck (expand n) c with
  | error e => rfl
  | ok _ =>
    cases sl with
    | none => simp only [expand_dsize]; rfl
    | some s => simp only [expand_dsize]; rfl

theorem writtenCrop_spelled {n t : Node} (h : Spelled n) {sl : Option Space} {c : Option (List Nat)}
    (e : writtenCrop n sl c = .ok t) : Spelled t := by
  unfold writtenCrop at e
  split at e
  · cases e
  · cases sl <;> (cases e; rw [Spelled]; exact h)

theorem mapAll_through {α β γ δ : Type} {f : α → Py β} {g : γ → Py δ} {k : β → δ} {xs : List α} {ys : List γ}
    (h : List.Forall₂ (fun x y => (f x).map k = g y) xs ys) :
    (mapAll f xs).map (List.map k) = mapAll g ys := by
  induction h with
  | nil => rfl
  | @cons x y xs ys h _ ih =>
    rw [mapAll, mapAll, ← h, ← ih]
    cases f x with
    | error e => rfl
    | ok b =>
      cases mapAll f xs with
      | error e => rfl
      | ok bs => rfl

theorem mapAll_source {α β : Type} {f : α → Py β} : ∀ {xs : List α} {ys : List β}, mapAll f xs = .ok ys →
    ∀ y ∈ ys, ∃ x ∈ xs, f x = .ok y
  | [], ys, h, y, hy => by cases h; simp at hy
  | x :: xs, ys, h, y, hy => by
    rw [mapAll] at h
    split at h
    · cases h
    · rename_i b hb
      split at h
      · cases h
      · rename_i bs hbs
        cases h
        rcases List.mem_cons.1 hy with rfl | hy
        · exact ⟨x, by simp, hb⟩
        · obtain ⟨z, hz, e⟩ := mapAll_source hbs y hy
          exact ⟨z, by simp [hz], e⟩

theorem mkConcat_expand (ps : List Node) : (mkConcat ps).map expand = mkConcat (ps.map expand) := by
  cases ps with
  | nil => rfl
  | cons p ps =>
    simp only [mkConcat, List.map_cons]
    have : (ps.map expand).all (fun q => decide (q.dsize = (expand p).dsize)) =
        ps.all (fun q => decide (q.dsize = p.dsize)) := by
      rw [List.all_map]
      congr 1
      funext q
      simp [expand_dsize]
    rw [this]
    split
    · simp only [Except.map_ok', expand, expandL, expandL_eq, expand_dsize]
    · rfl

/-- The codes a segment stands for contain no shorthand. -/
def PlainCodes (o : Option (List Str)) : Prop := ∀ l, o = some l → ∀ v ∈ l, needsNorm v = false

theorem expand_nanLeaf (kind : Nat) (d : Int × Int) {codes : Option (List Str)} (h : PlainCodes codes) :
    expand (nanLeaf kind d codes) = nanLeaf kind d codes := by
  cases codes with
  | none => rfl
  | some l => simp [nanLeaf, expand, expandCodes_plain (h l rfl)]

theorem spelled_nanLeaf (kind : Nat) (d : Int × Int) {codes : Option (List Str)} (h : PlainCodes codes) :
    Spelled (nanLeaf kind d codes) := by
  rw [nanLeaf, Spelled]
  intro c hc
  simp only at hc
  subst hc
  exact ⟨c, normParts_of_not_needs (h c rfl), rfl⟩

/-- Segments of requests whose codes contain no shorthand. -/
def Seg.Plain (s : Seg) : Prop := PlainCodes s.codes

theorem Seg.add_plain {s : Seg} (h : s.Plain) (inner : Nat) {code : Option Str}
    (hc : ∀ v, code = some v → needsNorm v = false) : (s.add inner code).Plain := by
  unfold Seg.Plain PlainCodes at *
  obtain ⟨comp, start, stop, codes, idxs⟩ := s
  intro l hl v hv
  have key : ∀ m x, (∀ v ∈ m, needsNorm v = false) → code = some x → v ∈ m ++ [x] → needsNorm v = false := by
    intro m x hm hx hv
    rcases List.mem_append.1 hv with hv | hv
    · exact hm v hv
    · rw [List.mem_singleton.1 hv]; exact hc x hx
  cases start <;> cases code <;> cases codes <;> simp only [Seg.add, Option.some.injEq, reduceCtorEq] at hl
  · subst hl; exact h _ rfl v hv
  · subst hl; exact key [] _ (by simp) rfl hv
  · subst hl; exact key [] _ (by simp) rfl hv
  · subst hl; exact key _ _ (h _ rfl) rfl hv

theorem accLoop_plain {sizes : List Nat} : ∀ (reqs : List (Option Nat × Option Str)) (st : Acc) (segs : List Seg),
    (∀ r ∈ reqs, ∀ v, r.2 = some v → needsNorm v = false) → (∀ s ∈ st.1, s.Plain) → (∀ s, st.2 = some s → s.Plain) →
    accLoop sizes st reqs = .ok segs → ∀ s ∈ segs, s.Plain
  | [], st, segs, _, h1, h2, h => by
    rw [accLoop] at h
    cases h
    intro s hs
    rcases List.mem_append.1 hs with hs | hs
    · exact h1 s hs
    · exact h2 s (by simpa using hs)
  | r :: rs, st, segs, hr, h1, h2, h => by
    rw [accLoop] at h
    split at h
    · cases h
    · rename_i comp inner _
      have hnew : ∀ c, (Seg.new c).Plain := fun c l hl => by cases hl
      refine accLoop_plain rs _ segs (fun q hq => hr q (by simp [hq])) ?_ ?_ h
      · unfold extend
        split
        · exact h1
        · rename_i c hc
          split
          · exact h1
          · intro s hs
            rcases List.mem_append.1 hs with hs | hs
            · exact h1 s hs
            · rw [List.mem_singleton.1 hs]; exact h2 c hc
      · unfold extend
        intro s hs
        split at hs
        · cases hs
          exact Seg.add_plain (hnew _) _ (hr r (by simp))
        · rename_i c hc
          split at hs
          · cases hs
            exact Seg.add_plain (h2 c hc) _ (hr r (by simp))
          · cases hs
            exact Seg.add_plain (hnew _) _ (hr r (by simp))

/-- What a segment selects, on written and on expanded specs. -/
theorem segSub_expand {ps : List Node} {d : Int × Int}
    (hT : ∀ p ∈ ps, ∀ idxs, (writtenIdx p idxs).map expand = takeIdx (expand p) idxs) {s : Seg} (hs : s.Plain) :
    (Seg.sub d (writtenTakers ps) s).map expand = Seg.sub d (takers (expandL ps)) s := by
  unfold Seg.sub
  rw [writtenTakers_eq, takers_eq, expandL_eq]
  cases s.comp with
  | none => simp only [Except.map_ok']; rw [expand_nanLeaf 0 d hs]
  | some o =>
    simp only [List.getElem?_map]
    cases hp : ps[o]? with
    | none => rfl
    | some p =>
      simp only [Option.map_some, expand_nchan]
      cases s.indexer p.nchan with
      | error e => rfl
      | ok i =>
        cases i with
        | none => rfl
        | some idxs => exact hT p (List.mem_of_getElem? hp) idxs

theorem segSub_spelled {ps : List Node} {d : Int × Int} (hps : ∀ p ∈ ps, Spelled p)
    (hT : ∀ p ∈ ps, ∀ idxs t, writtenIdx p idxs = .ok t → Spelled t) {s : Seg} (hs : s.Plain) {t : Node}
    (h : Seg.sub d (writtenTakers ps) s = .ok t) : Spelled t := by
  unfold Seg.sub at h
  rw [writtenTakers_eq] at h
  cases hc : s.comp with
  | none =>
    rw [hc] at h
    cases h
    exact spelled_nanLeaf 0 d hs
  | some o =>
    rw [hc] at h
    simp only [List.getElem?_map] at h
    cases hp : ps[o]? with
    | none => rw [hp] at h; cases h
    | some p =>
      rw [hp] at h
      simp only [Option.map_some] at h
      cases hi : s.indexer p.nchan with
      | error e => rw [hi] at h; cases h
      | ok i =>
        rw [hi] at h
        cases i with
        | none => cases h; exact hps _ (List.mem_of_getElem? hp)
        | some idxs => exact hT p (List.mem_of_getElem? hp) idxs t h

/-- Selecting from the parts of a concat, on written and on expanded specs. -/
theorem concatTake_expand {ps : List Node} {d : Int × Int}
    (hT : ∀ p ∈ ps, ∀ idxs, (writtenIdx p idxs).map expand = takeIdx (expand p) idxs)
    {reqs : List (Option Nat × Option Str)} (hr : ∀ r ∈ reqs, ∀ v, r.2 = some v → needsNorm v = false) :
    (concatTake d (writtenTakers ps) reqs).map expand = concatTake d (takers (expandL ps)) reqs := by
  unfold concatTake
  have hsz : (writtenTakers ps).map (fun p => p.1.nchan) = (takers (expandL ps)).map (fun p => p.1.nchan) := by
    rw [writtenTakers_eq, takers_eq, expandL_eq]
    simp [List.map_map, Function.comp_def, expand_nchan]
  rw [hsz]
  cases hl : accLoop ((takers (expandL ps)).map (fun p => p.1.nchan)) ([], none) reqs with
  | error e => rfl
  | ok segs =>
    have hplain := accLoop_plain reqs ([], none) segs hr (by simp) (by simp) hl
    have hm : (mapAll (Seg.sub d (writtenTakers ps)) segs).map (List.map expand) =
        mapAll (Seg.sub d (takers (expandL ps))) segs := by
      refine mapAll_through (List.forall₂_same.2 fun s hs => segSub_expand hT (hplain s hs))
    simp only
    rw [← hm]
    cases mapAll (Seg.sub d (writtenTakers ps)) segs with
    | error e => rfl
    | ok comps => exact mkConcat_expand comps

theorem concatTake_spelled {ps : List Node} {d : Int × Int} (hps : ∀ p ∈ ps, Spelled p)
    (hT : ∀ p ∈ ps, ∀ idxs t, writtenIdx p idxs = .ok t → Spelled t)
    {reqs : List (Option Nat × Option Str)} (hr : ∀ r ∈ reqs, ∀ v, r.2 = some v → needsNorm v = false) {t : Node}
    (h : concatTake d (writtenTakers ps) reqs = .ok t) : Spelled t := by
  unfold concatTake at h
  split at h
  · cases h
  · rename_i segs hl
    have hplain := accLoop_plain reqs ([], none) segs hr (by simp) (by simp) hl
    split at h
    · cases h
    · rename_i comps hc
      obtain ⟨d', rfl, _, _⟩ := mkConcat_ok h
      rw [Spelled, SpelledL_iff]
      intro q hq
      obtain ⟨s, hs, e⟩ := mapAll_source hc q hq
      exact segSub_spelled hps hT (hplain s hs) e

mutual
/-- Selecting by positions does not depend on how the specs are written. -/
theorem writtenIdx_expand : ∀ (n : Node), Spelled n → ∀ idxs,
    (writtenIdx n idxs).map expand = takeIdx (expand n) idxs
  | .concat ps d, h, idxs => by
    rw [Spelled] at h
    rw [writtenIdx, expand, takeIdx, (writtenL_expand ps h).2]
    cases writtenL ps with
    | none => rfl
    | some l =>
      simp only [Option.map_some]
      refine concatTake_expand (writtenIdx_expandL ps h) ?_
      intro r hr v hv
      obtain ⟨i, _, rfl⟩ := List.mem_map.1 hr
      cases hv
  | .leaf l, h, idxs => by
    rw [writtenIdx, writtenCrop_expand h]; rfl
  | .warp s tf d a, h, idxs => by
    rw [writtenIdx, writtenCrop_expand h]; rfl
  | .crop s y0 y1 x0 x1 c, h, idxs => by
    rw [writtenIdx, writtenCrop_expand h]; rfl
  | .overview s k d, h, idxs => by
    rw [writtenIdx, writtenCrop_expand h]; rfl
  | .dequant s q d, h, idxs => by
    rw [writtenIdx, writtenCrop_expand h]; rfl
theorem writtenIdx_expandL : ∀ (ps : List Node), SpelledL ps → ∀ p ∈ ps, ∀ idxs,
    (writtenIdx p idxs).map expand = takeIdx (expand p) idxs
  | [], _, p, hp, _ => by simp at hp
  | q :: qs, h, p, hp, idxs => by
    rw [SpelledL] at h
    rcases List.mem_cons.1 hp with e | hp
    · rw [e]; exact writtenIdx_expand q h.1 idxs
    · exact writtenIdx_expandL qs h.2 p hp idxs
end

mutual
theorem writtenIdx_spelled : ∀ (n : Node), Spelled n → ∀ idxs t, writtenIdx n idxs = .ok t → Spelled t
  | .concat ps d, h, idxs, t, e => by
    rw [Spelled] at h
    rw [writtenIdx] at e
    split at e
    · cases e
    · refine concatTake_spelled ((SpelledL_iff ps).1 h) (writtenIdx_spelledL ps h) ?_ e
      intro r hr v hv
      obtain ⟨i, _, rfl⟩ := List.mem_map.1 hr
      cases hv
  | .leaf l, h, idxs, t, e => writtenCrop_spelled h (by rw [writtenIdx] at e; exact e)
  | .warp s tf d a, h, idxs, t, e => writtenCrop_spelled h (by rw [writtenIdx] at e; exact e)
  | .crop s y0 y1 x0 x1 c, h, idxs, t, e => writtenCrop_spelled h (by rw [writtenIdx] at e; exact e)
  | .overview s k d, h, idxs, t, e => writtenCrop_spelled h (by rw [writtenIdx] at e; exact e)
  | .dequant s q d, h, idxs, t, e => writtenCrop_spelled h (by rw [writtenIdx] at e; exact e)
theorem writtenIdx_spelledL : ∀ (ps : List Node), SpelledL ps → ∀ p ∈ ps, ∀ idxs t, writtenIdx p idxs = .ok t →
    Spelled t
  | [], _, p, hp, _, _, _ => by simp at hp
  | q :: qs, h, p, hp, idxs, t, e => by
    rw [SpelledL] at h
    rcases List.mem_cons.1 hp with e' | hp
    · rw [e'] at e; exact writtenIdx_spelled q h.1 idxs t e
    · exact writtenIdx_spelledL qs h.2 p hp idxs t e
end

theorem writtenNames_form {n : Node} (h : ∀ ps d, n ≠ .concat ps d) (req : List Str) (policy : Policy) :
    writtenNames n req policy =
    match written n with
    | none => .error .valueError
    | some codes =>
      match normParts req with
      | .error e => .error e
      | .ok request =>
        if request.all (fun c => (osetIndex (expandCodes codes) c).isSome) then
          writtenCrop n none (some (request.filterMap (osetIndex (expandCodes codes))))
        else if codes = req then .ok (.concat [n] n.dsize)
        else
          if policy = .error ∧ (reqsOf (expandCodes codes) request).any (fun r => r.1.isNone) then .error .valueError
          else concatTake n.dsize (writtenTakers [n]) (reqsOf (expandCodes codes) request) := by
  cases n with
  | concat ps d => exact absurd rfl (h ps d)
  | _ => rfl

theorem reqsOf_plain {names request req : List Str} (h : normParts req = .ok request) :
    ∀ r ∈ reqsOf names request, ∀ v, r.2 = some v → needsNorm v = false := by
  intro r hr v hv
  obtain ⟨c, hc, rfl⟩ := List.mem_map.1 hr
  cases hv
  exact normParts_needs h _ hc

/-- Selecting by codes: on written specs the same as on expanded ones, except that specs are taken as equal
only if they are written alike. -/
theorem writtenNames_expand {n : Node} (h : Spelled n) {req request : List Str}
    (hr : normParts req = .ok request) (policy : Policy) :
    (writtenNames n req policy).map expand =
      takeNamesIf (decide (written n = some req)) (expand n) request policy := by
  by_cases hcc : ∃ ps d, n = .concat ps d
  · obtain ⟨ps, d, rfl⟩ := hcc
    have h' : SpelledL ps := by rw [Spelled] at h; exact h
    by_cases hs : writtenL ps = some req
    · rw [show decide (written (.concat ps d) = some req) = true from by rw [written]; simpa using hs]
      simp only [writtenNames, expand, takeNamesIf]
      rw [if_pos hs, if_pos trivial]
      rfl
    · rw [show decide (written (.concat ps d) = some req) = false from by rw [written]; simpa using hs]
      simp only [writtenNames, expand, takeNamesIf]
      rw [if_neg hs, if_neg (by simp), (writtenL_expand ps h').2]
      cases writtenL ps with
      | none => rfl
      | some codes =>
        simp only [hr, Option.map_some]
        split
        · rfl
        · exact concatTake_expand (writtenIdx_expandL ps h') (reqsOf_plain hr)
  · have hnc : ∀ ps d, n ≠ .concat ps d := fun ps d e => hcc ⟨ps, d, e⟩
    have hne : ∀ ps d, expand n ≠ .concat ps d := by
      intro ps d e
      cases n <;> simp only [expand, reduceCtorEq] at e
      exact hnc _ _ rfl
    rw [writtenNames_form hnc, concat_form hne, (written_expand n h).2]
    cases hw : written n with
    | none => rfl
    | some codes =>
      simp only [hr, Option.map_some, Option.some.injEq, decide_eq_true_eq, expand_dsize]
      split
      · exact writtenCrop_expand h _ _
      · split
        · simp [expand, expandL]
        · split
          · rfl
          · exact concatTake_expand (ps := [n]) (by simpa using writtenIdx_expand n h) (reqsOf_plain hr)

theorem writtenNames_spelled {n t : Node} (h : Spelled n) {req : List Str} {policy : Policy}
    (e : writtenNames n req policy = .ok t) : Spelled t := by
  by_cases hcc : ∃ ps d, n = .concat ps d
  · obtain ⟨ps, d, rfl⟩ := hcc
    have h' : SpelledL ps := by rw [Spelled] at h; exact h
    simp only [writtenNames] at e
    split at e
    · cases e; exact h
    · split at e
      · cases e
      · split at e
        · cases e
        · rename_i request hr
          split at e
          · cases e
          · exact concatTake_spelled ((SpelledL_iff ps).1 h') (writtenIdx_spelledL ps h') (reqsOf_plain hr) e
  · rw [writtenNames_form (fun ps d e => hcc ⟨ps, d, e⟩)] at e
    split at e
    · cases e
    · split at e
      · cases e
      · rename_i request hr
        split at e
        · exact writtenCrop_spelled h e
        · split at e
          · cases e
            rw [Spelled, SpelledL_iff]
            simpa using h
          · split at e
            · cases e
            · exact concatTake_spelled (ps := [n]) (by simpa using h) (by simpa using writtenIdx_spelled n h)
                (reqsOf_plain hr) e

end Tree
end Verif
