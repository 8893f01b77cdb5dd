/-
C90: names assigned to an image, and `optimize`.
-/
import Verif.TaggedLemmas
import Verif.BuiltIff
import Verif.Props.Opt

namespace Verif.Props

open Verif.Tree Verif.Helpers Verif.Tree.Node

variable {H : Heur}

/-- C90: names do not influence what is done to the operations: with them and without them `optimize` gives the same
operations, or the same error. -/
theorem C90_operations (H : Heur) {t : Tagged} (ht : t.Fitting) (f : Nat) :
    Tree.opt H f t.bare = (Tagged.opt H f t).map Tagged.bare :=
  (Tagged.refines H f t ht).1

/-- C90: the result has as many names as channels, or none. -/
theorem C90_count (H : Heur) {t : Tagged} (ht : t.Fitting) (f : Nat) {r : Tagged} (h : Tagged.opt H f t = .ok r) :
    r.bare.nchan = t.bare.nchan ∧ ∀ ns, r.names = some ns → ns.length = t.bare.nchan := by
  have g := ((Tagged.refines H f t ht).2 r h).1
  exact ⟨g.count, fun ns e => (g.fit.count ns e).trans g.count⟩

/-- C90: every name of the result was a name in the file or was assigned to one of the operations; nothing is named
if nothing was. -/
theorem C90_old (H : Heur) {t : Tagged} (ht : t.Fitting) (f : Nat) {r : Tagged} (h : Tagged.opt H f t = .ok r) :
    (∀ ns, r.names = some ns → ∀ x ∈ ns, x ∈ t.every) ∧ (t.names = none → r.names = none) := by
  have g := ((Tagged.refines H f t ht).2 r h).1
  exact ⟨fun ns e x hx => g.old x (Tagged.names_every r ns e x hx), g.known⟩

/-- C90: as long as only files have names, and operations what their constructors give them, the names stay. -/
theorem C90_files (H : Heur) {t : Tagged} (ht : t.Fitting) (hu : t.Unassigned) (f : Nat) {r : Tagged}
    (h : Tagged.opt H f t = .ok r) : r.names = t.names :=
  (((Tagged.refines H f t ht).2 r h).1.same hu).2

/-- The operation of `t` on `s`. -/
def onto (s : Tagged) : Tagged → Tagged
  | .leaf l => .leaf l
  | .warp _ tf d a lab => .warp s tf d a lab
  | .crop _ y0 y1 x0 x1 c lab => .crop s y0 y1 x0 x1 c lab
  | .deq _ q d lab => .deq s q d lab

/-- The source of an operation. -/
def sourceOf : Tagged → Option Tagged
  | .leaf _ => none
  | .warp s _ _ _ _ => some s
  | .crop s _ _ _ _ _ _ => some s
  | .deq s _ _ _ => some s

theorem onto_bare_assign (t : Tagged) (ns : List Str) (h : ∀ l, t ≠ .leaf l) : (t.assign ns).bare = t.bare := by
  cases t with
  | leaf l => exact absurd rfl (h l)
  | _ => rfl

theorem assign_names (t : Tagged) (ns : List Str) : (t.assign ns).names = some ns := by
  cases t <;> rfl

theorem done_assign {t : Tagged} (ns : List Str) (h : Done H t.bare) : Done H (t.assign ns).bare := by
  cases t with
  | leaf l => simp [Tagged.assign, Tagged.bare, Done]
  | _ => exact h

/-- C90: names that are assigned after optimizing stay, however often the image is optimized again. -/
theorem C90_after (H : Heur) {t : Tagged} (ht : t.Fitting) (hb : Built t.bare) (f : Nat) {r : Tagged}
    (h : Tagged.opt H f t = .ok r) (ns : List Str) :
    ∃ F, ∀ g, F ≤ g → Tagged.opt H g (r.assign ns) = .ok (r.assign ns) ∧ (r.assign ns).names = some ns := by
  have e : Tree.opt H f t.bare = .ok r.bare := by rw [C90_operations H ht f, h]; rfl
  have hd := opt_done f t.bare r.bare ⟨hb.ok.1, hb.ok.2, ht.noOv⟩ e
  exact ⟨_, fun g hg => ⟨Tagged.done_opt g _ (done_assign ns hd) hg, assign_names r ns⟩⟩

/-- Full claim of C90: names assigned to an image are its names after optimizing. -/
def NamesKept (H : Heur) (t : Tagged) : Prop :=
  ∀ ns, ns.length = t.bare.nchan → ∀ f r, Tagged.opt H f (t.assign ns) = .ok r → r.names = some ns

theorem opt_onto {t s s' : Tagged} {f : Nat} (hs : sourceOf t = some s) (h : Tagged.opt H f s = Tagged.opt H f s') :
    Tagged.opt H (f + 1) t = Tagged.opt H (f + 1) (onto s' t) := by
  cases t with
  | leaf l => cases hs
  | warp => cases hs; simp only [onto, Tagged.opt, Tagged.optWarp, h]
  | crop => cases hs; simp only [onto, Tagged.opt, Tagged.optCrop, h]
  | deq => cases hs; simp only [onto, Tagged.opt, Tagged.optDeq, h]

/-- C90: names assigned to an operation stay if no rule applies to the operation once its source is optimized: a warp
that does something over anything but a warp, a crop of a file or of a nearest neighbour warp, a dequantized file or
crop.  Missing: operations that are moved or merged, whose names are lost (`C90_violated`). -/
theorem C90_kept_partial (H : Heur) {t s s' : Tagged} (hs : sourceOf t = some s) {g : Nat}
    (h : Tagged.opt H g s = .ok s') (hp : s.Fitting) (hb : Built s.bare) (hd : Done H (onto s' t).bare) :
    NamesKept H t := by
  intro ns _ f r hr
  have hd' : Done H s'.bare :=
    opt_done g s.bare s'.bare ⟨hb.ok.1, hb.ok.2, hp.noOv⟩ (by rw [C90_operations H hp g, h]; rfl)
  set u := t.assign ns with hu
  have hsu : sourceOf u = some s := by
    cases t with
    | leaf l => cases hs
    | _ => exact hs
  have hdu : Done H (onto s' u).bare := by
    cases t with
    | leaf l => cases hs
    | _ => exact hd
  have hnu : (onto s' u).names = some ns := by
    cases t with
    | leaf l => cases hs
    | _ => rfl
  set F := max f (max g (max (deepness s'.bare) (deepness (onto s' u).bare))) with hF
  have e1 : Tagged.opt H F s = Tagged.opt H F s' := by
    rw [Tagged.opt_late (g := F) (by omega) h, Tagged.done_opt F s' hd' (by omega)]
  have e2 := opt_onto hsu e1
  rw [Tagged.opt_late (g := F + 1) (by omega) hr, Tagged.done_opt (F + 1) _ hdu (by omega)] at e2
  cases e2
  exact hnu

/-- C90: names assigned to a warp of an image that optimizes to a warp are lost: the result has the names of the image
that the inner warp is applied to. -/
theorem C90_warps_lost (H : Heur) {s x : Tagged} {tf1 : Affine} {d1 : Int × Int} {a1 : Algo}
    {l1 : Option (List Str)} {f : Nat} (h : Tagged.opt H f s = .ok (.warp x tf1 d1 a1 l1)) (tf : Affine) (d : Int × Int)
    (a : Algo) (lab : Option (List Str)) {r : Tagged} (hr : Tagged.opt H (f + 1) (.warp s tf d a lab) = .ok r) :
    r.names = x.names := by
  simp only [Tagged.opt, Tagged.optWarp, h] at hr
  unfold Tagged.restWarp at hr
  split at hr
  · cases hr; rfl
  · split at hr
    · split at hr
      · cases f with
        | zero => cases h
        | succ f => cases hr; rfl
      · cases hr; rfl
    · cases hr; rfl

/-- Optimizing an optimized image gives the image, whatever the fuel. -/
theorem tagged_done {t r : Tagged} {f : Nat} (hd : Done H t.bare) (h : Tagged.opt H f t = .ok r) : r = t := by
  have e := Tagged.opt_late (g := max f (deepness t.bare)) (le_max_left _ _) h
  rw [Tagged.done_opt _ t hd (le_max_right _ _)] at e
  cases e
  rfl

/-- C90: a dequantized image whose source optimizes to a warp has the names of the warp, not those assigned to the
dequantization. -/
theorem C90_dequantized_warp (H : Heur) {s x : Tagged} (hp : s.Fitting) (hb : Built s.bare) {tf : Affine}
    {d : Int × Int} {a : Algo} {lw : Option (List Str)} {f : Nat} (h : Tagged.opt H f s = .ok (.warp x tf d a lw))
    (q : Quantization) (d' : Int × Int) (lab : Option (List Str)) {r : Tagged}
    (hr : Tagged.opt H (f + 1) (.deq s q d' lab) = .ok r) :
    r.names = lw.or x.names ∧ r.bare = .warp (.dequant x.bare q x.bare.dsize) tf d a := by
  have hd := opt_done f s.bare _ ⟨hb.ok.1, hb.ok.2, hp.noOv⟩
    (by rw [C90_operations H hp f, h]; rfl : Tree.opt H f s.bare = .ok (Tagged.warp x tf d a lw).bare)
  simp only [Tagged.bare, Done] at hd
  obtain ⟨h1, h2, h3, h4⟩ := hd
  simp only [Tagged.opt, Tagged.optDeq, h] at hr
  have fin : isLOC x.bare → r.names = lw.or x.names ∧ r.bare = .warp (.dequant x.bare q x.bare.dsize) tf d a := by
    intro hx
    have : r = .warp (.deq x q x.bare.dsize none) tf d a lw := by
      refine tagged_done ?_ hr
      simp only [Tagged.bare, Done]
      exact ⟨⟨h1, hx⟩, trivial, trivial, h4⟩
    rw [this]
    exact ⟨rfl, rfl⟩
  cases x with
  | leaf l => exact fin trivial
  | crop => exact fin trivial
  | warp => exact h2.elim
  | deq y q1 d1 l1 =>
    cases f with
    | zero => cases h
    | succ f =>
      simp only [Tagged.opt, Tagged.optWarp] at hr
      cases f with
      | zero => cases hr
      | succ f =>
        simp only [Tagged.opt, Tagged.optDeq] at hr
        cases e : Tagged.opt H f (.deq y q1 d1 l1) with
        | error e' => rw [e] at hr; cases hr
        | ok u =>
          have : u = .deq y q1 d1 l1 := tagged_done h1 e
          rw [e, this] at hr
          cases hr

/-- C90: a crop whose source optimizes to a dequantized file has its own names, or those of the file, not those assigned
to the dequantization. -/
theorem C90_cropped_dequantized (H : Heur) {s : Tagged} {l : Leaf} (hl : l.nan = false) {q : Quantization}
    {d : Int × Int} {lq : Option (List Str)} {f : Nat} (h : Tagged.opt H f s = .ok (.deq (.leaf l) q d lq))
    (y0 y1 x0 x1 : Int) (c : Option (List Nat)) (lab : Option (List Str)) {r : Tagged}
    (hr : Tagged.opt H (f + 1) (.crop s y0 y1 x0 x1 c lab) = .ok r) :
    r.names = lab.or l.names ∧ r.bare = .dequant (.crop (.leaf l) y0 y1 x0 x1 c) q (x1 - x0, y1 - y0) := by
  simp only [Tagged.opt, Tagged.optCrop, h, Tagged.restCrop] at hr
  have : r = .deq (.crop (.leaf l) y0 y1 x0 x1 c lab) q (x1 - x0, y1 - y0) none := by
    refine tagged_done ?_ hr
    simp only [Tagged.bare, Done]
    exact ⟨⟨trivial, hl⟩, trivial⟩
  rw [this]
  exact ⟨rfl, rfl⟩

/-- C90: a crop that shows something and whose source optimizes to a warped file, not by nearest neighbours, has the names
of the file, those selected if channels are; names assigned to the crop or to the warp are lost. -/
theorem C90_cropped_warp (H : Heur) {s : Tagged} {l : Leaf} (hf : (Tagged.leaf l).Fitting) (hl : l.nan = false)
    {tf : Affine} {d : Int × Int} {a : Algo} {lw : Option (List Str)} {f : Nat}
    (h : Tagged.opt H f s = .ok (.warp (.leaf l) tf d a lw)) (ha : a.interp ≠ .nearest) {y0 y1 x0 x1 : Int}
    (hx : x1 - x0 ≠ 0) (hy : y1 - y0 ≠ 0) {c : Option (List Nat)} (hc : IdxOk l.nchan c) (lab : Option (List Str))
    {r : Tagged} (hr : Tagged.opt H (f + 1) (.crop s y0 y1 x0 x1 c lab) = .ok r) :
    (c = none → r.names = l.names) ∧ ∀ k, c = some k → r.names = l.names.map fun ns => pick [] ns k := by
  simp only [Tagged.opt, Tagged.optCrop, h, Tagged.restCrop, if_neg ha] at hr
  rw [if_neg (by rintro (h | h) <;> contradiction)] at hr
  obtain ⟨b1, b2, b3, b4, l', e1, -, -, -, e2⟩ := Tagged.newCrop_follows hf hc
    (innerSlice (Tagged.leaf l).bare.dsize tf y0 y1 x0 x1).1.1 (innerSlice (Tagged.leaf l).bare.dsize tf y0 y1 x0 x1).1.2.1
    (innerSlice (Tagged.leaf l).bare.dsize tf y0 y1 x0 x1).1.2.2.1
    (innerSlice (Tagged.leaf l).bare.dsize tf y0 y1 x0 x1).1.2.2.2
  simp only [e1] at hr
  have hn : (c = none → (Tagged.crop (.leaf l) b1 b2 b3 b4 c l').names = l.names) ∧
      ∀ k, c = some k → (Tagged.crop (.leaf l) b1 b2 b3 b4 c l').names = l.names.map fun ns => pick [] ns k := by
    rw [e2]
    refine ⟨?_, ?_⟩
    · rintro rfl
      rfl
    · rintro k rfl
      cases e : l.names <;> simp [Tagged.names, e]
  cases f with
  | zero => cases h
  | succ f =>
    simp only [Tagged.opt, Tagged.optWarp] at hr
    cases e : Tagged.opt H f (.crop (.leaf l) b1 b2 b3 b4 c l') with
    | error e' => rw [e] at hr; cases hr
    | ok u =>
      have hu : u = .crop (.leaf l) b1 b2 b3 b4 c l' :=
        tagged_done (by simp only [Tagged.bare, Done]; exact ⟨trivial, hl⟩) e
      rw [e, hu] at hr
      simp only [Tagged.restWarp] at hr
      split at hr
      · cases hr; exact hn
      · cases hr; exact hn

/-! ### examples and counterexamples -/

/-- A file with names, and other names. -/
abbrev named : Tagged := .leaf rgbLeaf
abbrev others : List Str := [p! "a", p! "b", p! "c"]

/-- Half a pixel to the right. -/
abbrev halfPixel : Affine := .trans (1 / 2) 1

/-- The names after optimizing are those of the file. -/
def backToFile (t : Tagged) : Bool :=
  holds (Tagged.opt Heur.code 20 (t.assign others)) fun r => decide (r.names = rgbLeaf.names)

/-- A warped warp, a warp that does nothing, a dequantized warp, a cropped warp, a cropped crop and a warp of NaNs. -/
def losers : List Tagged :=
  [.warp (.warp named halfPixel (6, 5) .default none) halfPixel (6, 5) .default none,
   .warp named .id (5, 4) .default none,
   .deq (.warp named halfPixel (6, 5) .default none) ⟨0, 1, 0, 255, none⟩ (6, 5) none,
   .crop (.warp named halfPixel (6, 5) .default none) 1 4 1 4 none none,
   .crop (.crop named 1 4 1 4 none none) 0 2 0 2 none none,
   .warp (.leaf { rgbLeaf with nan := true }) halfPixel (6, 5) .default none]

/-- C90 fails: names assigned to a warped warp, to a warp that does nothing, to a dequantized warp, to a cropped warp, to a
cropped crop or to warped NaNs are lost, and the names of the file are back. -/
theorem C90_violated : ∀ t ∈ losers, t.Fitting ∧ backToFile t = true ∧ ¬ NamesKept Heur.code t := by
  have key : ∀ t, backToFile t = true → t.bare.nchan = 3 → ¬ NamesKept Heur.code t := by
    intro t h hn hk
    obtain ⟨r, e, hr⟩ := holds_ok h
    have := hk others hn.symm 20 r e
    rw [of_decide_eq_true hr] at this
    exact absurd this (by decide)
  have hw : ∀ b, ({ rgbLeaf with nan := b } : Leaf).WF := fun b => ⟨by rintro _ ⟨⟩; rfl, fun _ => ⟨rfl, rfl⟩⟩
  have hl : named.Fitting := ⟨hw false, .inl rfl⟩
  intro t ht
  refine ⟨?_, ?_, key t ?_ ?_⟩
  · simp only [losers, List.mem_cons, List.not_mem_nil, or_false] at ht
    rcases ht with rfl | rfl | rfl | rfl | rfl | rfl
    · exact ⟨⟨hl, Tagged.count_none _⟩, Tagged.count_none _⟩
    · exact ⟨hl, Tagged.count_none _⟩
    · exact ⟨⟨hl, Tagged.count_none _⟩, Tagged.count_none _⟩
    · exact ⟨⟨hl, Tagged.count_none _⟩, trivial, Tagged.count_none _, by simp⟩
    · exact ⟨⟨hl, trivial, Tagged.count_none _, by simp⟩, trivial, Tagged.count_none _, by simp⟩
    · exact ⟨⟨hw true, .inl rfl⟩, Tagged.count_none _⟩
  · have : losers.all backToFile = true := by decide +kernel
    exact List.all_eq_true.1 this t ht
  · have : losers.all backToFile = true := by decide +kernel
    exact List.all_eq_true.1 this t ht
  · have : losers.all (fun t => decide (t.bare.nchan = 3)) = true := by decide +kernel
    exact of_decide_eq_true (List.all_eq_true.1 this t ht)

theorem below {k : Nat} {l : List Nat} (h : ∀ i ∈ l, i < k) : IdxOk k (some l) := h

/-- `C90_kept_partial` applies to a warp over a crop of a crop, which is optimized to a warp over one crop, and to a
nearest neighbour warp that is cropped. -/
example : NamesKept Heur.code (.warp (.crop (.crop named 0 4 0 5 none none) 1 4 1 4 (some [2, 0, 1])
    (some [p! "b", p! "r", p! "g"])) halfPixel (6, 5) .default none) ∧
    NamesKept Heur.code (.crop (.warp named halfPixel (6, 5) { Algo.default with interp := .nearest } none) 1 4 1 4 none
      none) := by
  have hw : rgbLeaf.WF := ⟨by rintro _ ⟨⟩; rfl, by simp [rgbLeaf]⟩
  have hl : named.Fitting := ⟨hw, .inl rfl⟩
  have hn : ∀ d : Nat × Nat, Nonneg ((d.1 : Int), (d.2 : Int)) := fun d => ⟨by simp, by simp⟩
  refine ⟨C90_kept_partial Heur.code (s' := .crop named 1 4 1 4 (some [2, 0, 1]) (some [p! "b", p! "r", p! "g"])) rfl
    (g := 3) ?_ ?_ ?_ ?_, C90_kept_partial Heur.code
      (s' := .warp named halfPixel (6, 5) { Algo.default with interp := .nearest } none) rfl (g := 3) ?_ ?_ ?_ ?_⟩
  · rfl
  · refine ⟨⟨hl, trivial, Tagged.count_none _, by simp⟩, below (k := 3) (by decide), ?_, by simp⟩
    rintro _ ⟨⟩
    rfl
  · refine built_of _ ⟨⟨hw, by decide, by decide, trivial⟩, by decide, by decide, below (k := 3) (by decide)⟩ ?_
    exact ⟨⟨hn (5, 4), by decide, by decide, by decide, by decide⟩, by decide, by decide, by decide, by decide⟩
  · simp only [onto, Tagged.bare, Done]
    exact ⟨⟨trivial, rfl⟩, trivial, trivial, by decide⟩
  · rfl
  · exact ⟨hl, Tagged.count_none _⟩
  · exact built_of _ ⟨hw, by decide +kernel⟩ ⟨hn (6, 5), hn (5, 4)⟩
  · simp only [onto, Tagged.bare, Done]
    exact ⟨⟨trivial, trivial, rfl, by decide +kernel⟩, .inl rfl⟩

/-- Names in the middle of a chain: those of the inner crop, which is moved below the warp, are shown after
optimizing, those of the warp are lost. -/
def middle : Tagged :=
  .warp (.warp (.crop named 0 3 0 3 none (some others)) halfPixel (6, 5) .default (some [p! "x", p! "y", p! "z"]))
    halfPixel (6, 5) .default none

example : middle.Fitting ∧ Built middle.bare ∧ middle.names = some [p! "x", p! "y", p! "z"] ∧
    holds (Tagged.opt Heur.code 20 middle) (fun r => decide (r.names = some others)) = true := by
  have hw : rgbLeaf.WF := ⟨by rintro _ ⟨⟩; rfl, by simp [rgbLeaf]⟩
  have hn : ∀ d : Nat × Nat, Nonneg ((d.1 : Int), (d.2 : Int)) := fun d => ⟨by simp, by simp⟩
  have hc : ∀ ns : List Str, ns.length = 3 → Tagged.Count 3 (some ns) := by
    rintro ns h _ ⟨⟩
    exact h
  refine ⟨⟨⟨⟨⟨hw, .inl rfl⟩, trivial, hc _ rfl, by simp⟩, hc _ rfl⟩, Tagged.count_none _⟩, ?_, rfl, by decide +kernel⟩
  exact built_of _ ⟨⟨⟨hw, by decide, by decide, trivial⟩, by decide +kernel⟩, by decide +kernel⟩
    ⟨hn (6, 5), hn (6, 5), hn (5, 4), by decide, by decide, by decide, by decide⟩

/-- Names of files only: selections of channels, a crop of a warp and a dequantization, in every place. -/
def fileOnly : Tagged :=
  .crop (.deq (.warp (.crop named 0 4 0 5 (some [2, 0]) (some [p! "b", p! "r"])) halfPixel (6, 5) .default none)
    ⟨0, 1, 0, 255, none⟩ (6, 5) none) 1 4 1 4 (some [1]) (some [p! "r"])

example : fileOnly.Fitting ∧ fileOnly.Unassigned ∧
    holds (Tagged.opt Heur.code 20 fileOnly) (fun r => decide (r.names = some [p! "r"])) = true := by
  have hw : rgbLeaf.WF := ⟨by rintro _ ⟨⟩; rfl, by simp [rgbLeaf]⟩
  have hc : ∀ ns : List Str, Tagged.Count ns.length (some ns) := by
    rintro ns _ ⟨⟩
    rfl
  exact ⟨⟨⟨⟨⟨⟨hw, .inl rfl⟩, below (k := 3) (by decide), hc _, by simp⟩, Tagged.count_none _⟩, Tagged.count_none _⟩,
    below (k := 2) (by decide), hc _, by simp⟩,
    ⟨⟨⟨⟨trivial, rfl⟩, rfl⟩, rfl⟩, rfl⟩, by decide +kernel⟩

/-- `C90_dequantized_warp` and `C90_cropped_dequantized` apply: names are assigned to the warp, the dequantization and
the crop. -/
example : holds (Tagged.opt Heur.code 20 (.deq (.warp named halfPixel (6, 5) .default (some others)) ⟨0, 1, 0, 255, none⟩
      (6, 5) (some [p! "x", p! "y", p! "z"]))) (fun r => decide (r.names = some others)) = true ∧
    Tagged.opt Heur.code 2 (.deq named ⟨0, 1, 0, 255, none⟩ (5, 4) (some others)) =
      .ok (.deq named ⟨0, 1, 0, 255, none⟩ (5, 4) (some others)) ∧
    holds (Tagged.opt Heur.code 20 (.crop (.deq named ⟨0, 1, 0, 255, none⟩ (5, 4) (some others)) 1 4 1 4 none none))
      (fun r => decide (r.names = rgbLeaf.names)) = true ∧
    holds (Tagged.opt Heur.code 20 (.crop (.deq named ⟨0, 1, 0, 255, none⟩ (5, 4) none) 1 4 1 4 none (some others)))
      (fun r => decide (r.names = some others)) = true :=
  ⟨by decide +kernel, rfl, by decide +kernel, by decide +kernel⟩

/-- `C90_cropped_warp` applies: names are assigned to the warp and to the crop, and two channels are selected. -/
example : holds (Tagged.opt Heur.code 20 (.crop (.warp named halfPixel (6, 5) .default (some others)) 1 4 1 4 (some [2, 1])
    (some [p! "c", p! "b"]))) (fun r => decide (r.names = some [p! "b", p! "g"])) = true := by decide +kernel

/-- `C90_warps_lost` applies to a warp over a warp. -/
example : Tagged.opt Heur.code 2 (.warp named halfPixel (6, 5) .default none) =
      .ok (.warp named halfPixel (6, 5) .default none) ∧
    holds (Tagged.opt Heur.code 3 (.warp (.warp named halfPixel (6, 5) .default none) halfPixel (6, 5) .default
      (some others))) (fun r => decide (r.names = named.names)) = true :=
  ⟨Tagged.done_opt 2 _ (by simp only [Tagged.bare, Done]; exact ⟨trivial, trivial, rfl, by decide +kernel⟩) (by decide),
    by decide +kernel⟩

end Verif.Props
