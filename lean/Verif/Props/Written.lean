/-
C56 (shorthand in channel specs makes no difference) and C57 (labels of `as_xarray`).
-/
import Verif.Written
import Verif.Props.Concat
import Verif.Props.Opt
import Verif.Props.Shape

namespace Verif.Props

open Verif.Tree Verif.Helpers Verif.Tree.Node

variable {V : Type} {E : Env V}

/-- Reading an overview does not look at the channel codes of the image. -/
def Blind (E : Env V) : Prop := ∀ s k i, E.overview (expand s) k i = E.overview s k i

mutual
theorem fin_expand (hB : Blind E) : ∀ n : Node, fin E (expand n) = fin E n
  | .leaf l => by rw [expand, fin, fin]
  | .concat ps d => by rw [expand, fin, fin, finL_expand hB ps]
  | .warp s tf d a => by rw [expand, fin, fin, fin_expand hB s]
  | .crop s y0 y1 x0 x1 c => by rw [expand, fin, fin, fin_expand hB s]
  | .overview s k d => by
    rw [expand, fin, fin, fin_expand hB s]
    simp only [hB s k]
  | .dequant s q d => by rw [expand, fin, fin, fin_expand hB s]
theorem finL_expand (hB : Blind E) : ∀ ps : List Node, finL E (expandL ps) = finL E ps
  | [] => rfl
  | p :: ps => by rw [expandL, finL, finL, fin_expand hB p, finL_expand hB ps]
end

theorem map_ok_iff {α β} {f : α → β} {x : Py α} {b : β} : x.map f = .ok b ↔ ∃ a, x = .ok a ∧ f a = b := by
  cases x <;> simp [Except.map]

/-- The codes an image announces, expanded. -/
def announced (n : Node) : Option (List Str) := (written n).map expandCodes

/-! ### C56 -/

/-- C56: the spec an image announces can always be expanded, and it names as many channels as the image has. -/
theorem C56_counts {n : Node} (h : Spelled n) (hb : Built (expand n)) {spec : List Str}
    (hs : written n = some spec) : ∃ codes, normParts spec = .ok codes ∧ codes.length = n.nchan := by
  obtain ⟨h1, h2⟩ := written_expand n h
  obtain ⟨r, hr⟩ := h1 spec hs
  refine ⟨r, hr, ?_⟩
  rw [hs] at h2
  rw [← expandCodes_ok hr, ← expand_nchan n]
  exact channels_length _ _ hb.ok.1 h2

/-- C56: images that differ only in how their specs are written have the same size, the same number of
channels, announce the same codes and show the same array. -/
theorem C56_same_image (hB : Blind E) {n m : Node} (hn : Spelled n) (hm : Spelled m) (e : expand n = expand m) :
    n.dsize = m.dsize ∧ n.nchan = m.nchan ∧ announced n = announced m ∧ fin E n = fin E m := by
  refine ⟨?_, ?_, ?_, ?_⟩
  · rw [← expand_dsize n, e, expand_dsize]
  · rw [← expand_nchan n, e, expand_nchan]
  · unfold announced
    rw [← (written_expand n hn).2, e, (written_expand m hm).2]
  · rw [← fin_expand hB n, e, fin_expand hB m]

theorem same_flag {n : Node} (h : Spelled n) {req request : List Str} (hr : normParts req = .ok request)
    (e : decide (written n = some req) = true) : (expand n).channels = some request := by
  rw [(written_expand n h).2, of_decide_eq_true e, Option.map_some, expandCodes_ok hr]

/-- C56, selecting by a spec that is written in any way (the image has distinct codes): the result announces
the requested codes, has one channel per code, and shows the channel of that code, or NaN where the image
has no such channel. -/
theorem C56_take_by_spec_partial (hE : Env.Shaped E) (hB : Blind E) {n : Node} (hs : Spelled n)
    (hb : Built (expand n)) (hm : Each E.Matches (expand n)) {i : Img V} (hi : fin E n = .ok i)
    {spec names : List Str} (hw : written n = some spec) (hn : normParts spec = .ok names) (hd : names.Nodup)
    {req request : List Str} (hr : normParts req = .ok request) {policy : Policy} {t : Node}
    (h : writtenNames n req policy = .ok t) :
    announced t = some request ∧ t.dsize = n.dsize ∧ ∃ j, fin E t = .ok j ∧ j.h = i.h ∧ j.w = i.w ∧
      j.n = request.length ∧ ∀ k code, request[k]? = some code → ∀ y x, y < i.h → x < i.w →
        (∀ m, names[m]? = some code → j.px y x k = i.px y x m) ∧ (code ∉ names → j.px y x k = E.nan) := by
  have he := writtenNames_expand hs hr policy
  rw [h, Except.map_ok'] at he
  have hc : (expand n).channels = some names := by
    rw [(written_expand n hs).2, hw, Option.map_some, expandCodes_ok hn]
  have hi' : fin E (expand n) = .ok i := by rw [fin_expand hB]; exact hi
  have key := takeNamesIf_px hE hb.ok.1 hb.ok.2 hm hi' hc hd (same_flag hs hr) he.symm
  rw [(written_expand t (writtenNames_spelled hs h)).2, fin_expand hB, expand_dsize, expand_dsize] at key
  exact key

/-- C56: whether a non-empty selection succeeds depends neither on how the image nor on how the request is
written. -/
theorem C56_take_succeeds {n : Node} (hs : Spelled n) (hb : Built (expand n)) {spec names : List Str}
    (hw : written n = some spec) (hn : normParts spec = .ok names) {req request : List Str}
    (hr : normParts req = .ok request) (hne : request ≠ []) :
    (∃ t, writtenNames n req .returnNan = .ok t) ∧
    ((∃ t, writtenNames n req .error = .ok t) ↔ ∀ c ∈ request, c ∈ names) := by
  have hc : (expand n).channels = some names := by
    rw [(written_expand n hs).2, hw, Option.map_some, expandCodes_ok hn]
  have lift : ∀ policy, (∃ t, takeNamesIf (decide (written n = some req)) (expand n) request policy = .ok t) ↔
      ∃ t, writtenNames n req policy = .ok t := by
    intro policy
    constructor
    · rintro ⟨t, h⟩
      rw [← writtenNames_expand hs hr policy, map_ok_iff] at h
      obtain ⟨t', h', _⟩ := h
      exact ⟨t', h'⟩
    · rintro ⟨t, h⟩
      refine ⟨expand t, ?_⟩
      rw [← writtenNames_expand hs hr policy, h]
      rfl
  refine ⟨(lift _).1 (takeNamesIf_total _ hb.ok.1 hc hne _ (by intro h; cases h)), ?_, ?_⟩
  · intro h c hcm
    obtain ⟨t, h⟩ := (lift _).2 h
    cases hsm : decide (written n = some req) with
    | true =>
      have := same_flag hs hr hsm
      rw [hc] at this
      cases this
      exact hcm
    | false =>
      rw [hsm] at h
      have hnn : (expand n).channels ≠ some request ∨ (expand n).channels = some request := by tauto
      rcases hnn with hnn | hnn
      · have : takeNames (expand n) request .error = .ok t := by
          rw [takeNames, show decide ((expand n).channels = some request) = false from by simpa using hnn]
          exact h
        exact ((C27_raises_iff_missing hb hc hne).2.1.1 ⟨t, this⟩) c hcm
      · rw [hc] at hnn
        cases hnn
        exact hcm
  · intro h
    exact (lift _).1 (takeNamesIf_total _ hb.ok.1 hc hne _ fun _ => h)

/-- C56, selecting by positions: channel `k` of the result is channel `idxs[k]` of the image, and is
announced under the code that the expanded spec has there. -/
theorem C56_take_by_position (hE : Env.Shaped E) (hB : Blind E) {n : Node} (hs : Spelled n)
    (hb : Built (expand n)) (hm : Each E.Matches (expand n)) {i : Img V} (hi : fin E n = .ok i)
    {idxs : List Nat} (hr : ∀ m ∈ idxs, m < n.nchan) {t : Node} (h : writtenIdx n idxs = .ok t) :
    announced t = (announced n).map (fun codes => idxs.map (fun m => codes.getD m [])) ∧
    t.dsize = n.dsize ∧ ∃ j, fin E t = .ok j ∧ j.h = i.h ∧ j.w = i.w ∧ j.n = idxs.length ∧
      ∀ k m, idxs[k]? = some m → ∀ y x, y < i.h → x < i.w → j.px y x k = i.px y x m := by
  have he := writtenIdx_expand n hs idxs
  rw [h, Except.map_ok'] at he
  have hi' : fin E (expand n) = .ok i := by rw [fin_expand hB]; exact hi
  have key := C27_take_by_index hE hb hm hi' (by rw [expand_nchan]; exact hr) he.symm
  rw [(written_expand t (writtenIdx_spelled n hs idxs t h)).2, (written_expand n hs).2, fin_expand hB,
    expand_dsize, expand_dsize] at key
  exact key

/-- An image whose three channels are written `rgb`, and one whose channels are written `nir.0:3`. -/
def rgbShort : Leaf := ⟨1, (5, 4), 3, some [p! "rgb"], none, false⟩
def nirLeaf : Leaf := ⟨2, (5, 4), 3, some [p! "nir.0:3"], none, false⟩
def shortNode : Node := .concat [.leaf rgbShort, .leaf nirLeaf] (5, 4)

theorem spelled_short : Spelled shortNode := by
  refine ⟨?_, ?_, trivial⟩
  · intro c hc; cases hc; exact ⟨[p! "r", p! "g", p! "b"], by decide +kernel, rfl⟩
  · intro c hc; cases hc; exact ⟨[p! "nir.0", p! "nir.1", p! "nir.2"], by decide +kernel, rfl⟩

theorem expand_short : expand shortNode =
    .concat [.leaf ⟨1, (5, 4), 3, some [p! "r", p! "g", p! "b"], none, false⟩,
      .leaf ⟨2, (5, 4), 3, some [p! "nir.0", p! "nir.1", p! "nir.2"], none, false⟩] (5, 4) := by
  have h1 : expandCodes [p! "rgb"] = [p! "r", p! "g", p! "b"] := by decide +kernel
  have h2 : expandCodes [p! "nir.0:3"] = [p! "nir.0", p! "nir.1", p! "nir.2"] := by decide +kernel
  simp only [shortNode, rgbShort, nirLeaf, expand, expandL, Option.map_some, h1, h2]

theorem built_short : Built (expand shortNode) := by
  rw [expand_short]
  refine .concat [.leaf ⟨1, (5, 4), 3, some [p! "r", p! "g", p! "b"], none, false⟩,
      .leaf ⟨2, (5, 4), 3, some [p! "nir.0", p! "nir.1", p! "nir.2"], none, false⟩] _ ?_ rfl
  intro p hp
  simp only [List.mem_cons, List.not_mem_nil, or_false] at hp
  rcases hp with rfl | rfl
  · exact .leaf _ ⟨by intro ns h; cases h; rfl, by intro h; cases h⟩ ⟨by decide, by decide⟩
  · exact .leaf _ ⟨by intro ns h; cases h; rfl, by intro h; cases h⟩ ⟨by decide, by decide⟩

theorem matches_short : Each shapeEnv.Matches (expand shortNode) := by
  rw [expand_short]
  exact ⟨fun _ => ⟨rfl, rfl, rfl⟩, fun _ => ⟨rfl, rfl, rfl⟩, trivial⟩

theorem blind_shape : Blind shapeEnv := fun _ _ _ => rfl

example : Spelled shortNode ∧ Built (expand shortNode) ∧ Each shapeEnv.Matches (expand shortNode) ∧
    Blind shapeEnv ∧ Env.Shaped shapeEnv ∧ (∃ i, fin shapeEnv shortNode = .ok i) ∧
    written shortNode = some [p! "rgb", p! "nir.0:3"] ∧
    normParts [p! "rgb", p! "nir.0:3"] = .ok [p! "r", p! "g", p! "b", p! "nir.0", p! "nir.1", p! "nir.2"] ∧
    [p! "r", p! "g", p! "b", p! "nir.0", p! "nir.1", p! "nir.2"].Nodup ∧
    ∃ t, writtenNames shortNode [p! "nir:2", p! "b", p! "zz"] .returnNan = .ok t ∧ t.nchan = 4 :=
  ⟨spelled_short, built_short, matches_short, blind_shape, shapeEnv_shaped, ⟨_, rfl⟩, rfl, by decide +kernel, by decide, by
    have h : (match writtenNames shortNode [p! "nir:2", p! "b", p! "zz"] .returnNan with
        | .ok t => decide (t.nchan = 4) | .error _ => false) = true := by decide +kernel
    split at h
    · rename_i t ht; exact ⟨t, ht, of_decide_eq_true h⟩
    · cases h⟩

/-- C56, violated for the spelling itself: selecting the first three channels of a concat announces `r|g|b`
as long as the selection is a crop, and `rgb` once optimize has replaced the crop by the part it selects
(delayed_nodes.py:2774-2787).  `_validate` compares the spelled specs (1448) and raises for this image. -/
theorem C56_spelling_violated :
    written (.crop shortNode 0 4 0 5 (some [0, 1, 2])) = some [p! "r", p! "g", p! "b"] ∧
    ∃ t, writtenIdx shortNode [0, 1, 2] = .ok t ∧ written t = some [p! "rgb"] ∧
      announced t = announced (.crop shortNode 0 4 0 5 (some [0, 1, 2])) := by
  refine ⟨by decide +kernel, ?_⟩
  have h : (match writtenIdx shortNode [0, 1, 2] with
      | .ok t => decide (written t = some [p! "rgb"] ∧
        announced t = announced (.crop shortNode 0 4 0 5 (some [0, 1, 2])))
      | .error _ => false) = true := by decide +kernel
  split at h
  · rename_i t ht
    exact ⟨t, ht, of_decide_eq_true h⟩
  · cases h

/-! ### C57 -/

/-- `DelayedAsXarray._finalize`, delayed_nodes.py:1641-1656: the array and the labels along `c`, which are
the codes as they are written (`code_list`, channel_spec.py:741-745).  `xr.DataArray` raises if the number
of labels is not the size of the axis (external). -/
def labelled (i : Img V) (codes : Option (List Str)) : Py (Img V × Option (List Str)) :=
  match codes with
  | none => .ok (i, none)
  | some codes => if codes.length = i.n then .ok (i, some codes) else .error .valueError

/-- `as_xarray()` of an image as it is written, without optimization. -/
def asXarray (E : Env V) (n : Node) : Py (Img V × Option (List Str)) :=
  match fin E n with
  | .error e => .error e
  | .ok i => labelled i (written n)

/-- `as_xarray().finalize()`, delayed_nodes.py:1658-1678: the image is optimized first (codes are
normalized, as everywhere in the model of optimize). -/
def finalizeXarray (H : Heur) (E : Env V) (fuel : Nat) (n : Node) : Py (Img V × Option (List Str)) :=
  match opt H fuel n with
  | .error e => .error e
  | .ok m =>
    match fin E m with
    | .error e => .error e
    | .ok i => labelled i m.channels

theorem shape_expand (hE : Env.Shaped E) (hB : Blind E) {n : Node} (hb : Built (expand n))
    (hm : Each E.Matches (expand n)) {i : Img V} (hi : fin E n = .ok i) : i.n = n.nchan := by
  have := (fin_shape hE (expand n) hb.ok.1 hb.ok.2 hm i (by rw [fin_expand hB]; exact hi)).n
  rw [this, expand_nchan]

/-- C57: for an image that can be finalized, `as_xarray` fails exactly if the spec is written with a number
of codes other than the number of channels. -/
theorem C57_succeeds_iff (hE : Env.Shaped E) (hB : Blind E) {n : Node} (hb : Built (expand n))
    (hm : Each E.Matches (expand n)) {i : Img V} (hi : fin E n = .ok i) :
    (∃ r, asXarray E n = .ok r) ↔ ∀ codes, written n = some codes → codes.length = n.nchan := by
  have hn := shape_expand hE hB hb hm hi
  unfold asXarray labelled
  rw [hi]
  cases written n with
  | none => simp
  | some codes =>
    simp only [Option.some.injEq, forall_eq']
    rw [← hn]
    split
    · rename_i e; exact ⟨fun _ => e, fun _ => ⟨_, rfl⟩⟩
    · rename_i e
      exact ⟨fun ⟨r, h⟩ => (by cases h), fun h => absurd h e⟩

/-- C57: for a spec written without shorthand, with distinct codes, `as_xarray` gives the array of the image
with one label per channel, and selecting a label with `take_channels` gives exactly the channel with that
label.  Missing: shorthand, see `C57_shorthand_violated`. -/
theorem C57_labels_partial (hE : Env.Shaped E) (hB : Blind E) {n : Node} (hs : Spelled n)
    (hb : Built (expand n)) (hm : Each E.Matches (expand n)) {i : Img V} (hi : fin E n = .ok i)
    {codes : List Str} (hw : written n = some codes) (hp : ∀ c ∈ codes, needsNorm c = false) (hd : codes.Nodup) :
    asXarray E n = .ok (i, some codes) ∧ codes.length = i.n ∧
    ∀ k code, codes[k]? = some code → ∃ t j, writtenNames n [code] .error = .ok t ∧ fin E t = .ok j ∧ j.n = 1 ∧
      ∀ y x, y < i.h → x < i.w → j.px y x 0 = i.px y x k := by
  have hn := shape_expand hE hB hb hm hi
  have hpn : normParts codes = .ok codes := normParts_of_not_needs hp
  obtain ⟨r, hr, hl⟩ := C56_counts hs hb hw
  rw [hpn] at hr
  cases hr
  refine ⟨?_, by rw [hn, hl], ?_⟩
  · unfold asXarray labelled
    rw [hi, hw]
    simp only
    rw [if_pos (by rw [hn, hl])]
  · intro k code hk
    have hmem := List.mem_of_getElem? hk
    have hq : normParts [code] = .ok [code] := normParts_of_not_needs (by
      intro v hv; rw [List.mem_singleton.1 hv]; exact hp code hmem)
    obtain ⟨t, ht⟩ := (C56_take_succeeds hs hb hw hpn hq (by simp)).2.2 (by simpa using hmem)
    obtain ⟨_, _, j, hj, _, _, hj1, hpx⟩ := C56_take_by_spec_partial hE hB hs hb hm hi hw hpn hd hq ht
    exact ⟨t, j, ht, hj, hj1, fun y x hy hx => (hpx 0 code rfl y x hy hx).1 k hk⟩

/-- C57 with optimization, for images whose codes are written without shorthand (the model of optimize):
whatever optimize does, the labels are the codes the image announced before, one per channel, and the array
is the one that `finalize` gives without labels. -/
theorem C57_optimized (H : Heur) (hE : Env.Shaped E) {n : Node} (hb : Built n) (hm : Each E.Matches n)
    (fuel : Nat) {i : Img V} (h : finalize H E fuel n = .ok i) :
    finalizeXarray H E fuel n = .ok (i, n.channels) ∧ ∀ codes, n.channels = some codes → codes.length = i.n := by
  have hc := C45_finalize_channels H hE hb hm fuel h
  refine ⟨?_, fun codes e => by rw [hc]; exact channels_length n codes hb.ok.1 e⟩
  unfold finalize at h
  unfold finalizeXarray
  split at h
  · cases h
  · rename_i m e
    rw [e]
    simp only [h]
    rw [(C36_channels H hb fuel e).1]
    unfold labelled
    split
    · rename_i e'; rw [e']
    · rename_i codes e'
      rw [e', if_pos (by rw [hc]; exact channels_length n codes hb.ok.1 e')]

example : Spelled (expand shortNode) ∧ expand (expand shortNode) = expand shortNode ∧
    written (expand shortNode) = some [p! "r", p! "g", p! "b", p! "nir.0", p! "nir.1", p! "nir.2"] ∧
    (∀ c ∈ [p! "r", p! "g", p! "b", p! "nir.0", p! "nir.1", p! "nir.2"], needsNorm c = false) ∧
    ∃ i, finalize Heur.code shapeEnv 9 (expand shortNode) = .ok i := by
  have hp : ∀ c ∈ [p! "r", p! "g", p! "b", p! "nir.0", p! "nir.1", p! "nir.2"], needsNorm c = false := by
    decide +kernel
  have h1 : expandCodes [p! "r", p! "g", p! "b"] = [p! "r", p! "g", p! "b"] := by decide +kernel
  have h2 : expandCodes [p! "nir.0", p! "nir.1", p! "nir.2"] = [p! "nir.0", p! "nir.1", p! "nir.2"] := by
    decide +kernel
  refine ⟨?_, ?_, ?_, hp, ?_⟩
  · rw [expand_short]
    refine ⟨?_, ?_, trivial⟩
    · intro c hc; cases hc; exact ⟨_, normParts_of_not_needs (by decide +kernel), rfl⟩
    · intro c hc; cases hc; exact ⟨_, normParts_of_not_needs (by decide +kernel), rfl⟩
  · rw [expand_short]
    simp only [expand, expandL, Option.map_some, h1, h2]
  · rw [expand_short]; rfl
  · rw [expand_short]
    exact ⟨_, rfl⟩

/-- C57, violated with shorthand: an image whose channels are written `rgb` has three channels and one
label, and `as_xarray` raises. -/
theorem C57_shorthand_violated :
    Spelled (.leaf rgbShort) ∧ ∀ (V : Type) (E : Env V), E.Matches rgbShort →
      (∃ i, fin E (.leaf rgbShort) = .ok i) ∧ asXarray E (.leaf rgbShort) = .error .valueError := by
  refine ⟨spelled_short.1, fun V E hm => ?_⟩
  obtain ⟨_, _, h3⟩ := hm rfl
  refine ⟨⟨_, rfl⟩, ?_⟩
  show (if [p! "rgb"].length = (E.img 1).n then _ else _) = _
  rw [if_neg]
  rw [show (E.img 1).n = 3 from h3]
  decide

end Verif.Props
