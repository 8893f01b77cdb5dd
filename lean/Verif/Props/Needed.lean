/-
C86: what an optimized image reads.
-/
import Verif.Props.Total
import Verif.Props.Source
import Verif.Props.Resize

namespace Verif.Props

open Tree Helpers Node

/-! #### specification: files and windows -/

mutual
/-- The files an image reads. -/
def files : Node → List Nat
  | .leaf l => if l.nan then [] else [l.id]
  | .concat ps _ => filesL ps
  | .warp s _ _ _ => files s
  | .crop s _ _ _ _ _ => files s
  | .overview s _ _ => files s
  | .dequant s _ _ => files s
def filesL : List Node → List Nat
  | [] => []
  | p :: ps => files p ++ filesL ps
end

/-- A part of a file: rows `y0` to `y1`, columns `x0` to `x1`. -/
structure Window where
  file : Nat
  y0 : Int
  y1 : Int
  x0 : Int
  x1 : Int
  deriving DecidableEq

mutual
/-- The parts of files an image reads: files are read where they are sliced, everything else is done with
arrays in memory. -/
def windows : Node → List Window
  | .leaf l => if l.nan then [] else [⟨l.id, 0, l.dsize.2, 0, l.dsize.1⟩]
  | .concat ps _ => windowsL ps
  | .warp s _ _ _ => windows s
  | .crop (.leaf l) y0 y1 x0 x1 _ => if l.nan then [] else [⟨l.id, y0, y1, x0, x1⟩]
  | .crop s _ _ _ _ _ => windows s
  | .overview s _ _ => windows s
  | .dequant s _ _ => windows s
def windowsL : List Node → List Window
  | [] => []
  | p :: ps => windows p ++ windowsL ps
end

/-- One part of a file lies in another. -/
structure Window.Within (w v : Window) : Prop where
  file : w.file = v.file
  y0 : v.y0 ≤ w.y0
  y1 : w.y1 ≤ v.y1
  x0 : v.x0 ≤ w.x0
  x1 : w.x1 ≤ v.x1

/-- The files that channels of the image come from. -/
def Draws (n : Node) (f : Nat) : Prop := ∃ s ∈ src n, ∃ i, s.leaf = some (f, i)

/-- A file with channels. -/
def HasChannels (l : Leaf) : Prop := l.nan = false → l.nchan ≠ 0

/-! #### files -/

theorem mem_filesL {f : Nat} : ∀ {ps : List Node}, f ∈ filesL ps ↔ ∃ p ∈ ps, f ∈ files p
  | [] => by simp [filesL]
  | p :: ps => by simp [filesL, mem_filesL (ps := ps)]

theorem pick_mem {l : List Src} {c : List Nat} (hc : ∀ i ∈ c, i < l.length) {s : Src}
    (hs : s ∈ pick ⟨none, []⟩ l c) : s ∈ l := by
  obtain ⟨i, hi, rfl⟩ := List.mem_map.1 hs
  rw [List.getD_eq_getElem _ _ (hc i hi)]
  exact List.getElem_mem _

mutual
/-- Every channel of a file that is read comes from it, if it comes from anywhere: sources are read. -/
theorem src_files : ∀ n : Node, WF n → ∀ s ∈ src n, ∀ f i, s.leaf = some (f, i) → f ∈ files n
  | .leaf l, _, s, hs, f, i, e => by
    rw [src] at hs
    obtain ⟨j, _, rfl⟩ := List.mem_map.1 hs
    cases hn : l.nan with
    | true => rw [hn] at e; cases e
    | false => rw [hn] at e; cases e; simp [files, hn]
  | .concat ps d, hw, s, hs, f, i, e => by
    rw [src_concat] at hs
    exact srcL_files ps d hw.2 s hs f i e
  | .warp x _ _ _, hw, s, hs, f, i, e => by
    rw [src_warp] at hs
    exact src_files x hw.1 s hs f i e
  | .crop x _ _ _ _ c, hw, s, hs, f, i, e => by
    rw [src_crop] at hs
    cases c with
    | none => exact src_files x hw.1 s hs f i e
    | some c =>
      exact src_files x hw.1 s (pick_mem (fun i hi => by rw [src_length]; exact hw.2.2.2 i hi) hs) f i e
  | .overview x _ _, hw, s, hs, f, i, e => by
    rw [src_overview] at hs
    exact src_files x hw s hs f i e
  | .dequant x q _, hw, s, hs, f, i, e => by
    rw [src_dequant] at hs
    obtain ⟨t, ht, rfl⟩ := List.mem_map.1 hs
    exact src_files x hw t ht f i e
theorem srcL_files : ∀ (ps : List Node) (d : Int × Int), WFL d ps → ∀ s ∈ srcL ps, ∀ f i, s.leaf = some (f, i) →
    f ∈ filesL ps
  | [], _, _, s, hs, _, _, _ => by simp [srcL] at hs
  | p :: ps, d, hw, s, hs, f, i, e => by
    rw [srcL, List.mem_append] at hs
    rw [filesL, List.mem_append]
    rcases hs with hs | hs
    · exact .inl (src_files p hw.1 s hs f i e)
    · exact .inr (srcL_files ps d hw.2.2 s hs f i e)
end

/-- Below a single operation there is one leaf. -/
theorem chain_files {H : Heur} {deep : Bool} : ∀ m : Node, NF H deep m → WF m → Fair m → Each HasChannels m →
    headOf m ≠ some .concat → ∀ f ∈ files m, src m ≠ [] ∧ ∀ s ∈ src m, ∃ i, s.leaf = some (f, i)
  | .leaf l, _, _, _, hc, _, f, hf => by
    cases hn : l.nan with
    | true => simp [files, hn] at hf
    | false =>
      simp only [files, hn, Bool.false_eq_true, if_false, List.mem_singleton] at hf
      subst hf
      have := hc hn
      refine ⟨fun e => this ?_, fun s hs => ?_⟩
      · have := src_length (.leaf l)
        rw [e] at this
        exact this.symm
      · rw [src] at hs
        obtain ⟨i, _, rfl⟩ := List.mem_map.1 hs
        exact ⟨i, by rw [hn]; rfl⟩
  | .concat ps d, _, _, _, _, h, _, _ => absurd rfl h
  | .warp x tf d a, hn, hw, hf, hc, _, f, hm => by
    rw [src_warp]
    refine chain_files x hn.1 hw.1 hf hc ?_ f hm
    have := hn.2.1
    cases x <;> simp [headOf, underWarp] at this ⊢
  | .crop x y0 y1 x0 x1 c, hn, hw, hf, hc, _, f, hm => by
    rw [src_crop]
    obtain ⟨h1, h2⟩ := chain_files x hn.1 hw.1 hf.1 hc (by
      have := hn.2
      cases x <;> simp [headOf, underCrop] at this ⊢) f hm
    cases c with
    | none => exact ⟨h1, h2⟩
    | some c =>
      refine ⟨fun e => hf.2 ?_, fun s hs => h2 s (pick_mem (fun i hi => by rw [src_length]; exact hw.2.2.2 i hi) hs)⟩
      simp only [selSrc, pick, List.map_eq_nil_iff] at e
      rw [e]
  | .overview x k d, hn, hw, hf, hc, _, f, hm => by
    rw [src_overview]
    refine chain_files x hn.1 hw hf hc ?_ f hm
    have := hn.2.2
    cases x <;> simp [headOf, isLeafNode] at this ⊢
  | .dequant x q d, hn, hw, hf, hc, _, f, hm => by
    rw [src_dequant]
    obtain ⟨h1, h2⟩ := chain_files x hn.1 hw hf hc (by
      have := hn.2
      cases x <;> simp [headOf, isLOC] at this ⊢) f hm
    refine ⟨by simpa using h1, fun s hs => ?_⟩
    obtain ⟨t, ht, rfl⟩ := List.mem_map.1 hs
    exact h2 t ht

theorem single_shows {m : Node} {f : Nat} (h : src m ≠ [] ∧ ∀ s ∈ src m, ∃ i, s.leaf = some (f, i)) : Draws m f := by
  obtain ⟨s, hs⟩ := List.exists_mem_of_ne_nil _ h.1
  exact ⟨s, hs, h.2 s hs⟩

mutual
theorem nf_files {H : Heur} : ∀ m : Node, NF H true m → WF m → Fair m → Each HasChannels m → ∀ f ∈ files m, Draws m f
  | .concat ps d, hn, hw, hf, hc, f, hm => by
    unfold Draws
    rw [src_concat]
    exact nfL_files ps d (by rw [NF] at hn; exact hn rfl) hw.2 hf hc f hm
  | .leaf l, hn, hw, hf, hc, f, hm => single_shows (chain_files _ hn hw hf hc (by simp [headOf]) f hm)
  | .warp .., hn, hw, hf, hc, f, hm => single_shows (chain_files _ hn hw hf hc (by simp [headOf]) f hm)
  | .crop .., hn, hw, hf, hc, f, hm => single_shows (chain_files _ hn hw hf hc (by simp [headOf]) f hm)
  | .overview .., hn, hw, hf, hc, f, hm => single_shows (chain_files _ hn hw hf hc (by simp [headOf]) f hm)
  | .dequant .., hn, hw, hf, hc, f, hm => single_shows (chain_files _ hn hw hf hc (by simp [headOf]) f hm)
theorem nfL_files {H : Heur} : ∀ (ps : List Node) (d : Int × Int), NFL H true ps → WFL d ps → FairL ps →
    EachL HasChannels ps → ∀ f ∈ filesL ps, ∃ s ∈ srcL ps, ∃ i, s.leaf = some (f, i)
  | [], _, _, _, _, _, f, hm => by simp [filesL] at hm
  | p :: ps, d, hn, hw, hf, hc, f, hm => by
    rw [filesL, List.mem_append] at hm
    rw [srcL]
    rcases hm with hm | hm
    · obtain ⟨s, h1, h2⟩ := nf_files p hn.1 hw.1 hf.1 hc.1 f hm
      exact ⟨s, List.mem_append_left _ h1, h2⟩
    · obtain ⟨s, h1, h2⟩ := nfL_files ps d hn.2 hw.2.2 hf.2 hc.2 f hm
      exact ⟨s, List.mem_append_right _ h1, h2⟩
end


theorem hasChannels_nan (k : Nat) (d : Int × Int) (names : Option (List Str)) :
    Each HasChannels (nanLeaf k d names) := fun h => by cases h

/-- C86, files: an optimized image without overviews reads exactly the files that its channels come from,
whatever else the image it was made of reads.  Missing: overviews, see `C86_files_violated`. -/
theorem C86_files_partial (H : Heur) {n : Node} (hb : Tree.Built n) (ho : NoOv n) (hf : Fair n)
    (hc : Each HasChannels n) (fuel : Nat) {m : Node} (h : opt H fuel n = .ok m) (f : Nat) :
    f ∈ files m ↔ Draws n f := by
  have e := (C69_origin H hb fuel h).1
  have g := opt_good (deep := true) (saneRules H) (fun _ _ _ h => h.dims.1) fuel n m ⟨⟨hb.ok.1, hb.ok.2, ho⟩, hf⟩ h
  have g1 := opt_good (deep := false) (keepRules H (nameRules H) (stable_each HasChannels hasChannels_nan))
    (by simp) fuel n m ⟨hb.ok.1, hc⟩ h
  unfold Draws
  rw [← e]
  constructor
  · exact nf_files m g.nf g.inv.plain.wf g.inv.fair g1.inv.2 f
  · rintro ⟨s, hs, i, hi⟩
    exact src_files m g.inv.plain.wf s hs f i hi

/-! #### windows -/

theorem mem_windowsL {w : Window} : ∀ {ps : List Node}, w ∈ windowsL ps ↔ ∃ p ∈ ps, w ∈ windows p
  | [] => by simp [windowsL]
  | p :: ps => by simp [windowsL, mem_windowsL (ps := ps)]

theorem Window.Within.rfl (w : Window) : w.Within w := ⟨_root_.rfl, le_refl _, le_refl _, le_refl _, le_refl _⟩

theorem Window.Within.trans {u v w : Window} (h : u.Within v) (h' : v.Within w) : u.Within w :=
  ⟨h.file.trans h'.file, h'.y0.trans h.y0, h.y1.trans h'.y1, h'.x0.trans h.x0, h.x1.trans h'.x1⟩

/-- What `b` reads lies in what `a` reads. -/
def Less (b a : Node) : Prop := ∀ w ∈ windows b, ∃ v ∈ windows a, w.Within v

theorem Less.rfl (a : Node) : Less a a := fun w h => ⟨w, h, .rfl w⟩

theorem Less.trans {a b c : Node} (h : Less a b) (h' : Less b c) : Less a c := fun w hw => by
  obtain ⟨v, hv, e⟩ := h w hw
  obtain ⟨u, hu, e'⟩ := h' v hv
  exact ⟨u, hu, e.trans e'⟩

theorem windows_crop {s : Node} (h : ¬ isLeafNode s) (y0 y1 x0 x1 : Int) (c : Option (List Nat)) :
    windows (.crop s y0 y1 x0 x1 c) = windows s := by
  cases s <;> simp [windows, isLeafNode] at h ⊢

theorem less_crop {s : Node} {y0 y1 x0 x1 : Int} {c : Option (List Nat)} (hy : 0 ≤ y0) (hx : 0 ≤ x0)
    (hf : Fit (.crop s y0 y1 x0 x1 c)) : Less (.crop s y0 y1 x0 x1 c) s := by
  intro w hw
  by_cases hs : isLeafNode s
  · cases s with
    | leaf l =>
      simp only [windows] at hw ⊢
      obtain ⟨_, _, f2, _, f4⟩ := hf
      cases hn : l.nan with
      | true => simp [hn] at hw
      | false =>
        simp only [hn, Bool.false_eq_true, if_false, List.mem_singleton] at hw ⊢
        subst hw
        exact ⟨_, _root_.rfl, _root_.rfl, hy, f2, hx, f4⟩
    | _ => simp [isLeafNode] at hs
  · rw [windows_crop hs] at hw; exact ⟨w, hw, .rfl w⟩

theorem less_mkCrop {s r : Node} {y0 y1 x0 x1 : Int} {c : Option (List Nat)} (hs : Fit s) (hw : WF s)
    (h : mkCrop s (ints y0 y1 x0 x1) c = .ok r) : Less r s := by
  have := fit_mkCrop hs hw h
  rw [mkCrop_ints h] at this ⊢
  exact less_crop (normBound_nonneg _ _) (normBound_nonneg _ _) this

theorem less_concat {ps : List Node} {d : Int × Int} {b : Node} :
    (∀ p ∈ ps, Less p b) → Less (.concat ps d) b := by
  intro h w hw
  rw [windows, mem_windowsL] at hw
  obtain ⟨p, hp, hw⟩ := hw
  exact h p hp w hw

theorem less_part {ps : List Node} {d : Int × Int} {p : Node} (hp : p ∈ ps) : Less p (.concat ps d) := by
  intro w hw
  refine ⟨w, ?_, .rfl w⟩
  rw [windows, mem_windowsL]
  exact ⟨p, hp, hw⟩

theorem less_nan (k : Nat) (d : Int × Int) (names : Option (List Str)) (b : Node) : Less (nanLeaf k d names) b := by
  intro w hw
  simp [nanLeaf, windows] at hw

/-- Selecting channels. -/
theorem less_take (b : Node) : TakeStable (fun n => Fit n ∧ Less n b) where
  parts := fun h p hp => ⟨(FitL_iff _).1 h.1.2 p hp, (less_part hp).trans h.2⟩
  concat := by
    intro ps qs d c h hq hc
    refine ⟨fit_take.concat h.1 (fun q hq' => ⟨(hq q hq').1.1, (hq q hq').2⟩) hc, ?_⟩
    obtain ⟨d', rfl, _, _⟩ := mkConcat_ok hc
    exact less_concat fun q hq' => (hq q hq').1.2
  nan := fun h => ⟨fit_take.nan h.1, less_nan _ _ _ _⟩
  crop := by
    intro p idxs t hw hp hi h
    have f := fit_take.crop hw hp.1 hi h
    refine ⟨f, ?_⟩
    rw [mkCrop_none_form h] at f ⊢
    exact (less_crop (le_refl _) (le_refl _) f).trans hp.2

/-- Optimizing reads less. -/
structure Economy (a b : Node) : Prop where
  size : b.dsize = a.dsize ∧ b.nchan = a.nchan
  leaf : isLeafNode a → b = a
  less : Less b a

theorem economyRules (H : Heur) : Rules H Plain Economy where
  refl := fun n => ⟨(sizeRules H).refl n, fun _ => rfl, .rfl n⟩
  trans := fun h h' => ⟨(sizeRules H).trans h.size h'.size,
    fun l => by have := h.leaf l; subst this; exact h'.leaf l, h'.less.trans h.less⟩
  sub := (sizeRules H).sub
  parts := (sizeRules H).parts
  same := (sizeRules H).same
  nan := (sizeRules H).nan
  cong := by
    intro n x x' hn hx hx' hs
    obtain ⟨w1, w2⟩ := (sizeRules H).cong hn hx hx' hs.size
    refine ⟨w1, w2, ?_, ?_⟩
    · intro l; cases n <;> simp [isLeafNode, subOf] at l hx
    · cases n with
      | leaf l => simp [subOf] at hx
      | concat _ _ => simp [subOf] at hx
      | warp s tf d a => cases hx; exact hs.less
      | crop s y0 y1 x0 x1 c =>
        cases hx
        by_cases hl : isLeafNode x
        · rw [hs.leaf hl]; exact .rfl _
        · refine (less_crop hn.wf.2.1 hn.wf.2.2.1 w1.fit).trans (hs.less.trans ?_)
          intro w hw
          exact ⟨w, by rw [windows_crop hl]; exact hw, .rfl w⟩
      | overview s k d => exact hn.noOv.elim
      | dequant s q d => cases hx; exact hs.less
  concat := by
    intro ps d qs c hn hf hc
    obtain ⟨w1, w2⟩ := (sizeRules H).concat hn (forall₂_imp_left hf fun _ _ _ h => ⟨h.1, h.2.size⟩) hc
    refine ⟨w1, w2, by simp [isLeafNode], ?_⟩
    obtain ⟨d', rfl, _, _⟩ := mkConcat_ok hc
    refine less_concat fun q hq => ?_
    obtain ⟨p, hp, h⟩ := forall₂_mem_right (forall₂_imp_left hf (S := fun p q => p ∈ ps ∧ Less q p)
      fun p hp q h => ⟨hp, h.2.less⟩) hq
    exact h.2.trans (less_part h.1)
  push := by
    intro n ps d c hn hsub hsel h
    obtain ⟨w1, w2⟩ := (sizeRules H).push hn hsub hsel h
    refine ⟨w1, w2, ?_, ?_⟩
    · intro l; cases n <;> simp [isLeafNode, subOf] at l hsub
    · obtain ⟨qs, rfl, _, _, hm, hps, _⟩ := push_size hn.wf hn.fit hsub h
      refine less_concat fun q hq => ?_
      obtain ⟨p, hp, e⟩ := forall₂_mem_right hm hq
      obtain ⟨_, p1, p2⟩ := hps p hp
      have hno := hn.noOv
      have key : ∀ b, windows b = windows (.concat ps d) → Less q p → Less q b := by
        intro b hb hq
        refine hq.trans ((less_part (d := d) hp).trans ?_)
        intro w hw
        exact ⟨w, by rw [hb]; exact hw, .rfl w⟩
      cases n with
      | leaf l => simp [subOf] at hsub
      | concat _ _ => simp [subOf] at hsub
      | warp s tf dw a => cases hsub; cases e; exact key _ rfl (.rfl _)
      | crop s y0 y1 x0 x1 ci => cases hsub; exact key _ rfl (less_mkCrop p1 p2 e)
      | overview s k dw => exact hno.elim
      | dequant s k dw => cases hsub; cases e; exact key _ rfl (.rfl _)
  fuseWarps := fun h =>
    ⟨((sizeRules H).fuseWarps h).1, ((sizeRules H).fuseWarps h).2, by simp [isLeafNode], .rfl _⟩
  idWarp := fun h hd hn => ⟨(sizeRules H).idWarp h hd hn, by simp [isLeafNode], .rfl _⟩
  nanWarp := fun h hn => ⟨((sizeRules H).nanWarp h hn).1, ((sizeRules H).nanWarp h hn).2, by simp [isLeafNode],
    less_nan _ _ _ _⟩
  splitWarp := fun h hnum hne => absurd (numOverviews_noOv _ h.noOv _ hnum) hne
  splitOv := fun h hnum hne => absurd (numOverviews_noOv _ h.noOv _ hnum) hne
  splitCrop := fun h hnum hne => absurd (numOverviews_noOv _ h.noOv _ hnum) hne
  absorb := by
    intro s tf d a num r h _ hr
    unfold absorb at hr
    split at hr
    · cases hr; exact ⟨h, ⟨rfl, rfl⟩, fun _ => rfl, .rfl _⟩
    · rw [look_noOv 4 s h.noOv] at hr
      cases hr; exact ⟨h, ⟨rfl, rfl⟩, fun _ => rfl, .rfl _⟩
  nanCrop := by
    intro l y0 y1 x0 x1 c r h hn hr
    obtain ⟨w1, w2⟩ := (sizeRules H).nanCrop h hn hr
    refine ⟨w1, w2, by simp [isLeafNode], ?_⟩
    obtain ⟨f0, f1, f2, f3, f4⟩ := h.fit
    obtain ⟨names, rfl⟩ := nanCrop_size f0 h.wf.2.1 h.wf.2.2.1 f1 f2 f3 f4 hr
    exact less_nan _ _ _ _
  fuseCrops := by
    intro s iy0 iy1 ix0 ix1 ic y0 y1 x0 x1 c r h hr
    obtain ⟨w1, w2⟩ := (sizeRules H).fuseCrops h hr
    refine ⟨w1, w2, by simp [isLeafNode], ?_⟩
    obtain ⟨nc, _, rfl, f⟩ := fuseCrops_fit h.wf h.fit hr
    obtain ⟨⟨_, v1, v2, _⟩, v3, v4, _⟩ := h.wf
    obtain ⟨⟨f0, f1, f2, f3, f4⟩, f5, f6, f7, f8⟩ := h.fit
    simp only [dsize] at f6 f8
    intro w hw
    rw [windows_crop (by simp [isLeafNode])]
    by_cases hs : isLeafNode s
    · cases s with
      | leaf l =>
        simp only [windows] at hw ⊢
        cases hn : l.nan with
        | true => simp [hn] at hw
        | false =>
          simp only [hn, Bool.false_eq_true, if_false, List.mem_singleton] at hw ⊢
          subst hw
          exact ⟨_, rfl, rfl, by simp only; omega, by simp only; omega, by simp only; omega, by simp only; omega⟩
      | _ => simp [isLeafNode] at hs
    · rw [windows_crop hs] at hw ⊢
      exact ⟨w, hw, .rfl w⟩
  warpAfterCrop := by
    intro s tf d a y0 y1 x0 x1 c inner tf' h hr
    obtain ⟨w1, w2⟩ := (sizeRules H).warpAfterCrop h hr
    refine ⟨w1, w2, by simp [isLeafNode], ?_⟩
    simp only [warpAfterCrop] at hr
    split at hr
    · cases hr
    · split at hr
      · cases hr
      · rename_i i hi
        simp only [Except.ok.injEq, Option.some.injEq, Prod.mk.injEq] at hr
        obtain ⟨rfl, _⟩ := hr
        intro w hw
        rw [windows_crop (by simp [isLeafNode])]
        rw [windows] at hw ⊢
        exact less_mkCrop h.fit.1.2 h.wf.1.1 hi w hw
  dequantCrop := by
    intro s q d y0 y1 x0 x1 c h
    obtain ⟨w1, w2⟩ := (sizeRules H).dequantCrop h
    refine ⟨w1, w2, by simp [isLeafNode], ?_⟩
    intro w hw
    rw [windows_crop (by simp [isLeafNode])]
    exact less_crop h.wf.2.1 h.wf.2.2.1 w1.fit.1 w hw
  take := by
    intro ps d y0 y1 x0 x1 c t h ht
    obtain ⟨w1, w2⟩ := (sizeRules H).take h ht
    refine ⟨w1, ?_⟩
    intro t' cr ht' hs hcr
    obtain ⟨v1, v2⟩ := w2 t' cr ht' hs.size hcr
    refine ⟨v1, v2, by simp [isLeafNode], ?_⟩
    refine (less_mkCrop ht'.fit ht'.wf hcr).trans (hs.less.trans ?_)
    have := (takeIdx_stable (less_take (.concat ps d)) _ h.wf.1 ⟨h.fit.1, .rfl _⟩ c t h.wf.2.2.2 ht).2
    intro w hw
    rw [windows_crop (by simp [isLeafNode])]
    exact this w hw
  renorm := by
    intro ps d y0 y1 x0 x1 cr h hcr
    obtain ⟨w1, w2⟩ := (sizeRules H).renorm h hcr
    refine ⟨w1, w2, by simp [isLeafNode], ?_⟩
    obtain ⟨f0, f1, f2, f3, f4⟩ := h.fit
    have e := mkCrop_fit hcr h.wf.2.1 h.wf.2.2.1 f1 f2 f3 f4
    subst e
    exact .rfl _
  cropAfterOverview := fun h => h.noOv.elim
  warpAfterOverview := fun h => h.noOv.elim
  dequantOverview := fun h => h.noOv.elim
  ov0 := fun h => h.noOv.elim
  fuseOv := fun h => h.noOv.elim
  dequantWarp := fun h =>
    ⟨((sizeRules H).dequantWarp h).1, ((sizeRules H).dequantWarp h).2, by simp [isLeafNode], .rfl _⟩

/-- C86, never more: whatever an optimized image reads of a file lies in what the image it was made of reads of
that file at once.  Missing: overviews. -/
theorem C86_never_more_partial (H : Heur) {n : Node} (hb : Tree.Built n) (ho : NoOv n) (fuel : Nat) {m : Node}
    (h : opt H fuel n = .ok m) : ∀ w ∈ windows m, ∃ v ∈ windows n, w.Within v :=
  (opt_good (deep := true) (economyRules H) (fun _ _ _ h => h.size.1) fuel n m ⟨hb.ok.1, hb.ok.2, ho⟩ h).rel.less

/-! #### pixels -/

section
variable {V : Type}

/-- Overviews are made from the pixels of an array. -/
def Env.Views (E : Env V) : Prop := ∀ s k {i j : Img V}, i.Same j → (E.overview s k i).Same (E.overview s k j)

/-- Arrays that agree in a part of a file. -/
def SameIn (w : Window) (i j : Img V) : Prop :=
  ∀ y x k : Nat, w.y0 ≤ y → (y : Int) < w.y1 → w.x0 ≤ x → (x : Int) < w.x1 → i.px y x k = j.px y x k

theorem npSlice_bounds {D : Nat} {a b : Int} (ha : 0 ≤ a) (hb : 0 ≤ b) {z : Nat}
    (hz : z ∈ npSlice D (some a) (some b)) : a ≤ z ∧ (z : Int) < b := by
  simp only [npSlice, List.mem_filter, List.mem_range, decide_eq_true_eq] at hz
  unfold npBound at hz
  omega

theorem agree_catAll : ∀ {as bs : List (Img V)}, List.Forall₂ Img.Same as bs → Agree (catAll as) (catAll bs)
  | _, _, .nil => rfl
  | _, _, .cons h1 .nil => h1
  | _, _, .cons (a := a) (b := b) h1 (.cons (a := a') (b := b') h2 hs) => by
    rename_i as bs
    have ih := agree_catAll (.cons h2 hs)
    simp only [catAll]
    cases ha : catAll (a' :: as) with
    | error e =>
      cases hb : catAll (b' :: bs) with
      | error e' => rw [ha, hb] at ih; exact ih
      | ok t => rw [ha, hb] at ih; exact ih.elim
    | ok s =>
      cases hb : catAll (b' :: bs) with
      | error e' => rw [ha, hb] at ih; exact ih.elim
      | ok t =>
        rw [ha, hb] at ih
        have hts : s.Same t := ih
        by_cases hc : a.h = s.h ∧ a.w = s.w
        · have hc' : b.h = t.h ∧ b.w = t.w := by rw [← h1.h, ← h1.w, ← hts.h, ← hts.w]; exact hc
          simp only [if_pos hc, if_pos hc']
          refine ⟨h1.h, h1.w, by simp [Img.cat, h1.n, hts.n], fun y x k hy hx hk => ?_⟩
          simp only [Img.cat] at hy hx hk ⊢
          rw [← h1.n]
          split
          · rename_i hlt
            exact h1.px y x k hy hx hlt
          · exact hts.px y x _ (hc.1 ▸ hy) (hc.2 ▸ hx) (by omega)
        · have hc' : ¬ (b.h = t.h ∧ b.w = t.w) := by rw [← h1.h, ← h1.w, ← hts.h, ← hts.w]; exact hc
          simp only [if_neg hc, if_neg hc']
          rfl

theorem agree_crop {i j : Img V} {y0 y1 x0 x1 : Int} (hy : 0 ≤ y0) (hx : 0 ≤ x0) (hy1 : y0 ≤ y1) (hx1 : x0 ≤ x1)
    (hh : i.h = j.h) (hw : i.w = j.w) (hn : i.n = j.n) {f : Nat} (h : SameIn ⟨f, y0, y1, x0, x1⟩ i j)
    (c : Option (List Nat)) : Agree ((i.slice (some y0, some y1) (some x0, some x1)).select c)
      ((j.slice (some y0, some y1) (some x0, some x1)).select c) := by
  refine same_select ?_ c
  unfold Img.slice
  rw [← hh, ← hw, ← hn]
  refine ⟨rfl, rfl, rfl, fun y x k h1 h2 _ => ?_⟩
  simp only at h1 h2 ⊢
  have m1 : (npSlice i.h (some y0) (some y1)).getD y 0 ∈ npSlice i.h (some y0) (some y1) := by
    rw [List.getD_eq_getElem _ _ h1]; exact List.getElem_mem h1
  have m2 : (npSlice i.w (some x0) (some x1)).getD x 0 ∈ npSlice i.w (some x0) (some x1) := by
    rw [List.getD_eq_getElem _ _ h2]; exact List.getElem_mem h2
  have b1 := npSlice_bounds hy (hy.trans hy1) m1
  have b2 := npSlice_bounds hx (hx.trans hx1) m2
  exact h _ _ _ b1.1 b1.2 b2.1 b2.2

theorem agree_cases {a b : Py (Img V)} (h : Agree a b) :
    (∃ e, a = .error e ∧ b = .error e) ∨ ∃ i j, a = .ok i ∧ b = .ok j ∧ i.Same j := by
  cases a with
  | error e =>
    cases b with
    | error e' => cases h; exact .inl ⟨e, rfl, rfl⟩
    | ok j => exact h.elim
  | ok i =>
    cases b with
    | error e' => exact h.elim
    | ok j => exact .inr ⟨i, j, rfl, rfl, h⟩

mutual
theorem unread {E : Env V} (hR : Env.Reads E) (hO : Env.Views E) (img' : Nat → Img V) : ∀ n : Node, WF n → Fit n →
    Each E.Matches n → Each ({ E with img := img' } : Env V).Matches n →
    (∀ w ∈ windows n, SameIn w (E.img w.file) (img' w.file)) → Agree (fin E n) (fin { E with img := img' } n)
  | .leaf l, _, hf, hm, hm', h => by
    cases hn : l.nan with
    | true =>
      rw [fin, fin, if_pos hn, if_pos hn]
      split
      · rfl
      · exact Img.Same.refl _
    | false =>
      rw [fin, fin, if_neg (by simp [hn]), if_neg (by simp [hn])]
      have h1 := hm hn
      have h2 := hm' hn
      have h2 : ((img' l.id).h : Int) = l.dsize.2 ∧ ((img' l.id).w : Int) = l.dsize.1 ∧ (img' l.id).n = l.nchan := h2
      have h3 := h ⟨l.id, 0, l.dsize.2, 0, l.dsize.1⟩ (by simp [windows, hn])
      refine ⟨by simp only; omega, by simp only; omega, h1.2.2.trans h2.2.2.symm, fun y x k hy hx hk => ?_⟩
      exact h3 y x k (by simp) (by simp only; omega) (by simp) (by simp only; omega)
  | .concat ps d, hw, hf, hm, hm', h => by
    rw [fin, fin]
    rcases unreadL hR hO img' ps d hw.2 hf.2 hm hm' h with ⟨e, e1, e2⟩ | ⟨is, js, e1, e2, his⟩
    · rw [e1, e2]; exact rfl
    · rw [e1, e2]; exact agree_catAll his
  | .warp s tf d a, hw, hf, hm, hm', h => by
    rw [fin, fin]
    rcases agree_cases (unread hR hO img' s hw.1 hf.2 hm hm' h) with ⟨e, e1, e2⟩ | ⟨i, j, e1, e2, hij⟩
    · rw [e1, e2]; exact rfl
    · rw [e1, e2]
      exact same_finWarp hR hij tf d a
  | .crop s y0 y1 x0 x1 c, hw, hf, hm, hm', h => by
    by_cases hl : isLeafNode s ∧ ∀ l, s = .leaf l → l.nan = false
    · cases s with
      | leaf l =>
        have hn := hl.2 l rfl
        rw [fin, fin, fin, fin, if_neg (by simp [hn]), if_neg (by simp [hn])]
        have h1 := hm hn
        have h2 := hm' hn
        have h2 : ((img' l.id).h : Int) = l.dsize.2 ∧ ((img' l.id).w : Int) = l.dsize.1 ∧ (img' l.id).n = l.nchan := h2
        obtain ⟨_, f1, f2, f3, f4⟩ := hf
        exact agree_crop hw.2.1 hw.2.2.1 f1 f3 (by omega) (by omega) (h1.2.2.trans h2.2.2.symm)
          (h ⟨l.id, y0, y1, x0, x1⟩ (by simp [windows, hn])) c
      | _ => simp [isLeafNode] at hl
    · rw [fin, fin]
      have hu := unread hR hO img' s hw.1 hf.1 hm hm' ?_
      · rcases agree_cases hu with ⟨e, e1, e2⟩ | ⟨i, j, e1, e2, hij⟩
        · rw [e1, e2]; exact rfl
        · rw [e1, e2]
          exact same_crop hij ..
      intro w hw'
      by_cases hl' : isLeafNode s
      · cases s with
        | leaf l =>
          cases hn : l.nan with
          | true => simp [windows, hn] at hw'
          | false => exact absurd ⟨hl', fun l' e => by cases e; exact hn⟩ hl
        | _ => simp [isLeafNode] at hl'
      · exact h w (by rw [windows_crop hl']; exact hw')
  | .overview s k d, hw, hf, hm, hm', h => by
    rw [fin, fin]
    rcases agree_cases (unread hR hO img' s hw hf.1 hm hm' h) with ⟨e, e1, e2⟩ | ⟨i, j, e1, e2, hij⟩
    · rw [e1, e2]; exact rfl
    · rw [e1, e2]
      exact hO s k hij
  | .dequant s q d, hw, hf, hm, hm', h => by
    rw [fin, fin]
    rcases agree_cases (unread hR hO img' s hw hf.1 hm hm' h) with ⟨e, e1, e2⟩ | ⟨i, j, e1, e2, hij⟩
    · rw [e1, e2]; exact rfl
    · rw [e1, e2]
      exact
      ⟨hij.h, hij.w, hij.n, fun y x k hy hx hk => by
        simp only; rw [hij.px y x k hy hx hk]⟩
theorem unreadL {E : Env V} (hR : Env.Reads E) (hO : Env.Views E) (img' : Nat → Img V) : ∀ (ps : List Node)
    (d : Int × Int), WFL d ps → FitL ps → EachL E.Matches ps → EachL ({ E with img := img' } : Env V).Matches ps →
    (∀ w ∈ windowsL ps, SameIn w (E.img w.file) (img' w.file)) →
    (∃ e, finL E ps = .error e ∧ finL { E with img := img' } ps = .error e) ∨
      ∃ is js, finL E ps = .ok is ∧ finL { E with img := img' } ps = .ok js ∧ List.Forall₂ Img.Same is js
  | [], _, _, _, _, _, _ => .inr ⟨[], [], rfl, rfl, .nil⟩
  | p :: ps, d, hw, hf, hm, hm', h => by
    rw [finL, finL]
    rcases agree_cases (unread hR hO img' p hw.1 hf.1 hm.1 hm'.1 fun w h' => h w (by simp [windowsL, h'])) with
      ⟨e, e1, e2⟩ | ⟨i, j, e1, e2, hij⟩
    · rw [e1, e2]; exact .inl ⟨e, rfl, rfl⟩
    · rw [e1, e2]
      rcases unreadL hR hO img' ps d hw.2.2 hf.2 hm.2 hm'.2 fun w h' => h w (by simp [windowsL, h']) with
        ⟨e, e3, e4⟩ | ⟨is, js, e3, e4, his⟩
      · rw [e3, e4]; exact .inl ⟨e, rfl, rfl⟩
      · rw [e3, e4]; exact .inr ⟨_, _, rfl, rfl, .cons hij his⟩
end

/-- C86, pixels: finalizing looks at no pixel of a file outside the parts that are read.  If other files agree with
them there, the image is the same, or the same exception is raised. -/
theorem C86_unread {E : Env V} (hR : Env.Reads E) (hO : Env.Views E) (img' : Nat → Img V) {n : Node} (hb : Tree.Built n)
    (hm : Each E.Matches n) (hm' : Each ({ E with img := img' } : Env V).Matches n)
    (h : ∀ w ∈ windows n, SameIn w (E.img w.file) (img' w.file)) : Agree (fin E n) (fin { E with img := img' } n) :=
  unread hR hO img' n hb.ok.1 hb.ok.2 hm hm' h

theorem matches_nan (E : Env V) (k : Nat) (d : Int × Int) (names : Option (List Str)) :
    Each E.Matches (nanLeaf k d names) := fun h => by cases h

/-- C86, pixels, for the default `finalize`, which optimizes: it looks at no pixel of a file that the optimized image
does not read.  Missing: overviews. -/
theorem C86_unread_optimized_partial (H : Heur) {E : Env V} (hR : Env.Reads E) (hO : Env.Views E) (img' : Nat → Img V)
    {n : Node} (hb : Tree.Built n) (ho : NoOv n) (hm : Each E.Matches n)
    (hm' : Each ({ E with img := img' } : Env V).Matches n) (fuel : Nat) {m : Node} (h : opt H fuel n = .ok m)
    (hs : ∀ w ∈ windows m, SameIn w (E.img w.file) (img' w.file)) :
    Agree (finalize H E fuel n) (finalize H { E with img := img' } fuel n) := by
  have g := opt_good (deep := true) (economyRules H) (fun _ _ _ h => h.size.1) fuel n m ⟨hb.ok.1, hb.ok.2, ho⟩ h
  have g1 := opt_good (deep := false) (keepRules H (nameRules H) (stable_each E.Matches (matches_nan E)))
    (by simp) fuel n m ⟨hb.ok.1, hm⟩ h
  have g2 := opt_good (deep := false) (keepRules H (nameRules H) (stable_each ({ E with img := img' } : Env V).Matches
    (matches_nan _))) (by simp) fuel n m ⟨hb.ok.1, hm'⟩ h
  have := unread hR hO img' m g.inv.wf g.inv.fit g1.inv.2 g2.inv.2 hs
  unfold finalize
  rw [h]
  exact this

end

/-! #### images without warps -/

mutual
theorem flat_windows {H : Heur} : ∀ m : Node, NF H true m → WF m → Fit m → Flat m → ∀ w ∈ windows m,
    w.y1 - w.y0 = m.dsize.2 ∧ w.x1 - w.x0 = m.dsize.1
  | .leaf l, _, _, _, _, w, hm => by
    cases hn : l.nan with
    | true => simp [windows, hn] at hm
    | false =>
      simp only [windows, hn, Bool.false_eq_true, if_false, List.mem_singleton] at hm
      subst hm
      simp [Node.dsize]
  | .concat ps d, hn, hw, hf, hl, w, hm => by
    rw [NF] at hn
    exact flat_windowsL ps d (hn rfl) hw.2 hf.2 hl w hm
  | .warp .., _, _, _, hl, _, _ => hl.elim
  | .crop s y0 y1 x0 x1 c, hn, hw, hf, hl, w, hm => by
    have h2 := hn.2
    cases s with
    | leaf l =>
      have h2 : l.nan = false := h2
      simp only [windows, h2, Bool.false_eq_true, if_false, List.mem_singleton] at hm
      subst hm
      exact ⟨rfl, rfl⟩
    | warp _ _ _ _ => exact hl.elim
    | overview _ _ _ => exact hl.elim
    | concat _ _ => exact h2.elim
    | crop _ _ _ _ _ _ => exact h2.elim
    | dequant _ _ _ => exact h2.elim
  | .overview .., _, _, _, hl, _, _ => hl.elim
  | .dequant s q d, hn, hw, hf, hl, w, hm => by
    have := flat_windows s hn.1 hw hf.1 hl w hm
    simp only [Node.dsize]
    rw [hf.2]
    exact this
theorem flat_windowsL {H : Heur} : ∀ (ps : List Node) (d : Int × Int), NFL H true ps → WFL d ps → FitL ps → FlatL ps →
    ∀ w ∈ windowsL ps, w.y1 - w.y0 = d.2 ∧ w.x1 - w.x0 = d.1
  | [], _, _, _, _, _, w, hm => by simp [windowsL] at hm
  | p :: ps, d, hn, hw, hf, hl, w, hm => by
    rw [windowsL, List.mem_append] at hm
    rcases hm with hm | hm
    · have := flat_windows p hn.1 hw.1 hf.1 hl.1 w hm
      rw [hw.2.1] at this
      exact this
    · exact flat_windowsL ps d hn.2 hw.2.2 hf.2 hl.2 w hm
end

/-- C86, images without warps: what the optimized image reads of a file has the size of the image, and lies in
what is read without optimizing; for all crops, selections, dequantizations and concats. -/
theorem C86_flat (H : Heur) {n : Node} (hb : Tree.Built n) (hl : Flat n) (fuel : Nat) {m : Node}
    (h : opt H fuel n = .ok m) : ∀ w ∈ windows m, w.y1 - w.y0 = n.dsize.2 ∧ w.x1 - w.x0 = n.dsize.1 := by
  have g := opt_good (deep := true) (exactRules H) (fun _ _ _ h => h.dsize) fuel n m ⟨hb.ok.1, hb.ok.2, hl.noWarp⟩ h
  have g1 := opt_good (deep := false) (keepRules H (nameRules H) stable_flat) (by simp) fuel n m ⟨hb.ok.1, hl⟩ h
  rw [← g.rel.dsize]
  exact flat_windows m g.nf g.inv.wf g.inv.fit g1.inv.2

/-! #### parts of warped files -/

theorem axis_read {D lo hi x : Int} (h0 : 0 ≤ lo) (h1 : 0 ≤ hi) (hx0 : normBound D lo ≤ x)
    (hx1 : x < max (normBound D lo) (normBound D hi)) : lo ≤ x ∧ x < hi := by
  unfold normBound at hx0 hx1
  omega

/-- Pixels around those from `A` to `B`, of which `r1 - r0` pixels are made. -/
def Near (A B : ℚ) (r0 r1 : Int) (x : Int) : Prop := A - 2 < x ∧ (x : ℚ) < B + 2 + (B - A + 2) / (r1 - r0)

theorem axisFast_near {src : Int} {s t A B : ℚ} {r0 r1 : Int} (hs : 0 < s) (hsrc : 0 ≤ src) (hr : r0 < r1)
    (hA : A ≤ (r0 - t) / s) (hB : (r1 - t) / s ≤ B) (h1 : 0 ≤ (r1 - t) / s) :
    0 ≤ (axisFast src s t r0 r1).1 ∧ 0 ≤ (axisFast src s t r0 r1).2.1 ∧
    ∀ x, (axisFast src s t r0 r1).1 ≤ x → x < (axisFast src s t r0 r1).2.1 → Near A B r0 r1 x := by
  unfold axisFast Near
  simp only
  have hrq : (0 : ℚ) < (r1 : ℚ) - r0 := by
    have : (r0 : ℚ) < r1 := by exact_mod_cast hr
    linarith
  have hle : ((r0 : ℚ) - t) / s ≤ (r1 - t) / s := by
    apply div_le_div_of_nonneg_right _ hs.le
    linarith
  set f0 := ((r0 : ℚ) - t) / s
  set f1 := ((r1 : ℚ) - t) / s
  have e1 : max (r1 - r0) 0 = r1 - r0 := by omega
  have e2 : max (f1 - f0) 0 = f1 - f0 := max_eq_left (by linarith)
  rw [e1, if_neg (by omega), e2]
  have c1 : 0 ≤ ⌈f1⌉ := Int.ceil_nonneg h1
  have hdiv : 0 ≤ (f1 - f0) / ((r1 - r0 : Int) : ℚ) := by
    apply div_nonneg (by linarith)
    push_cast; linarith
  have c2 : 0 ≤ ⌈(f1 - f0) / ((r1 - r0 : Int) : ℚ)⌉ := Int.ceil_nonneg hdiv
  refine ⟨by omega, by omega, fun x hx0 hx1 => ⟨?_, ?_⟩⟩
  · have : ⌊f0⌋ - 1 ≤ x := by omega
    have h2 : ((⌊f0⌋ - 1 : Int) : ℚ) ≤ x := by exact_mod_cast this
    push_cast at h2
    have := Int.lt_floor_add_one f0
    linarith
  · have : x + 1 ≤ ⌈f1⌉ + ⌈(f1 - f0) / ((r1 - r0 : Int) : ℚ)⌉ := by omega
    have h2 : ((x + 1 : Int) : ℚ) ≤ ((⌈f1⌉ + ⌈(f1 - f0) / ((r1 - r0 : Int) : ℚ)⌉ : Int) : ℚ) := by exact_mod_cast this
    push_cast at h2
    have k1 := Int.ceil_lt_add_one f1
    have k2 := Int.ceil_lt_add_one ((f1 - f0) / ((r1 : ℚ) - r0))
    have k3 : (f1 - f0) / ((r1 : ℚ) - r0) ≤ (B - A + 2) / ((r1 : ℚ) - r0) :=
      div_le_div_of_nonneg_right (by linarith) hrq.le
    linarith

theorem swap_near {A B lo hi : ℚ} {r0 r1 : Int} (hr : r0 < r1) (hA : A ≤ lo) (hB : hi ≤ B) (hB0 : 0 ≤ B) :
    let l : Int := max 0 ⌊lo⌋
    let r : Int := max 0 ⌈hi⌉
    ∀ x : Int, l - min l 1 ≤ x → x < r + (if r1 - r0 = 0 then 0 else ⌈((r - l : Int) : ℚ) / ((r1 - r0 : Int) : ℚ)⌉) →
      Near A B r0 r1 x := by
  intro l r x hx0 hx1
  rw [if_neg (by omega)] at hx1
  have hrq : (0 : ℚ) < (r1 : ℚ) - r0 := by
    have : (r0 : ℚ) < r1 := by exact_mod_cast hr
    linarith
  have hl : A - 1 < l := by
    have h1 := Int.lt_floor_add_one lo
    have h2 : (⌊lo⌋ : ℚ) ≤ (l : ℚ) := by exact_mod_cast le_max_right 0 ⌊lo⌋
    linarith
  have hrr : (r : ℚ) < B + 1 := by
    have h1 := Int.ceil_lt_add_one hi
    rcases le_total 0 ⌈hi⌉ with h | h
    · have : r = ⌈hi⌉ := max_eq_right h
      rw [this]; linarith
    · have : r = 0 := max_eq_left h
      rw [this]; push_cast; linarith
  constructor
  · have : l - 1 ≤ x := by omega
    have : ((l - 1 : Int) : ℚ) ≤ x := by exact_mod_cast this
    push_cast at this
    linarith
  · have : x + 1 ≤ r + ⌈((r - l : Int) : ℚ) / ((r1 - r0 : Int) : ℚ)⌉ := by omega
    have h2 : ((x + 1 : Int) : ℚ) ≤ ((r + ⌈((r - l : Int) : ℚ) / ((r1 - r0 : Int) : ℚ)⌉ : Int) : ℚ) := by
      exact_mod_cast this
    push_cast at h2
    have k2 := Int.ceil_lt_add_one (((r : ℚ) - l) / ((r1 : ℚ) - r0))
    have k3 : ((r : ℚ) - l) / ((r1 : ℚ) - r0) ≤ (B - A + 2) / ((r1 : ℚ) - r0) :=
      div_le_div_of_nonneg_right (by linarith) hrq.le
    linarith

theorem le_min4 {A w x y z : ℚ} (h1 : A ≤ w) (h2 : A ≤ x) (h3 : A ≤ y) (h4 : A ≤ z) : A ≤ min4 w x y z :=
  le_min (le_min h1 h2) (le_min h3 h4)

theorem max4_le {B w x y z : ℚ} (h1 : w ≤ B) (h2 : x ≤ B) (h3 : y ≤ B) (h4 : z ≤ B) : max4 w x y z ≤ B :=
  max_le (max_le h1 h2) (max_le h3 h4)

theorem min4_le (w x y z : ℚ) : min4 w x y z ≤ w := (min_le_left _ _).trans (min_le_left _ _)

theorem le_max4 (w x y z : ℚ) : w ≤ max4 w x y z := (le_max_left _ _).trans (le_max_left _ _)

theorem swap_stop {lo hi : ℚ} {r0 r1 : Int} (hr : r0 < r1) (h : lo ≤ hi) :
    0 ≤ max 0 ⌈hi⌉ + (if r1 - r0 = 0 then 0 else
      ⌈((max 0 ⌈hi⌉ - max 0 ⌊lo⌋ : Int) : ℚ) / ((r1 - r0 : Int) : ℚ)⌉) := by
  rw [if_neg (by omega)]
  have h1 : ⌊lo⌋ ≤ ⌈hi⌉ := (Int.floor_le_ceil lo).trans (Int.ceil_le_ceil h)
  have : 0 ≤ ⌈((max 0 ⌈hi⌉ - max 0 ⌊lo⌋ : Int) : ℚ) / ((r1 - r0 : Int) : ℚ)⌉ := by
    apply Int.ceil_nonneg
    apply div_nonneg
    · have : 0 ≤ max 0 ⌈hi⌉ - max 0 ⌊lo⌋ := by omega
      exact_mod_cast this
    · have : 0 ≤ r1 - r0 := by omega
      exact_mod_cast this
  omega

/-- The points of a part of a warped canvas. -/
def InRect (y0 y1 x0 x1 : Int) (p : ℚ × ℚ) : Prop := x0 ≤ p.1 ∧ p.1 ≤ x1 ∧ y0 ≤ p.2 ∧ p.2 ≤ y1

theorem innerSlice_near {src : Int × Int} (hsrc : Nonneg src) {tf : Affine} (hd : tf.det ≠ 0) {y0 y1 x0 x1 : Int}
    (hy : y0 < y1) (hx : x0 < x1) {A B C D : ℚ}
    (hpt : ∀ q, InRect y0 y1 x0 x1 (tf.app q) → A ≤ q.1 ∧ q.1 ≤ B ∧ C ≤ q.2 ∧ q.2 ≤ D)
    (hin : ∃ q, InRect y0 y1 x0 x1 (tf.app q) ∧ 0 ≤ q.1 ∧ 0 ≤ q.2) :
    let r := (innerSlice src tf y0 y1 x0 x1).1
    0 ≤ r.1 ∧ 0 ≤ r.2.1 ∧ 0 ≤ r.2.2.1 ∧ 0 ≤ r.2.2.2 ∧ ∀ y x, r.1 ≤ y → y < r.2.1 → r.2.2.1 ≤ x → x < r.2.2.2 →
      Near C D y0 y1 y ∧ Near A B x0 x1 x := by
  intro r
  have hyq : (y0 : ℚ) ≤ y1 := by exact_mod_cast hy.le
  have hxq : (x0 : ℚ) ≤ x1 := by exact_mod_cast hx.le
  obtain ⟨q, ⟨i1, i2, i3, i4⟩, p1, p2⟩ := hin
  by_cases hc : tf.b = 0 ∧ tf.c = 0 ∧ 0 < tf.a ∧ 0 < tf.d
  · have er : r = ((axisFast src.2 tf.d tf.ty y0 y1).1, (axisFast src.2 tf.d tf.ty y0 y1).2.1,
        (axisFast src.1 tf.a tf.tx x0 x1).1, (axisFast src.1 tf.a tf.tx x0 x1).2.1) := by
      simp only [r, innerSlice, if_pos hc]
    obtain ⟨cb, cc, ca, cd⟩ := hc
    have back : ∀ u v : ℚ, tf.app ((u - tf.tx) / tf.a, (v - tf.ty) / tf.d) = (u, v) := by
      intro u v
      simp only [Affine.app, cb, cc, Prod.mk.injEq]
      constructor
      · field_simp; ring
      · field_simp; ring
    have k0 := hpt ((x0 - tf.tx) / tf.a, (y0 - tf.ty) / tf.d) (by rw [back]; exact ⟨le_refl _, hxq, le_refl _, hyq⟩)
    have k1 := hpt ((x1 - tf.tx) / tf.a, (y1 - tf.ty) / tf.d) (by rw [back]; exact ⟨hxq, le_refl _, hyq, le_refl _⟩)
    simp only [Affine.app, cb, cc] at i2 i4
    have z1 : 0 ≤ (x1 - tf.tx) / tf.a := by
      apply div_nonneg _ ca.le
      have := mul_nonneg ca.le p1
      linarith
    have z2 : 0 ≤ (y1 - tf.ty) / tf.d := by
      apply div_nonneg _ cd.le
      have := mul_nonneg cd.le p2
      linarith
    obtain ⟨a1, a2, a3⟩ := axisFast_near (src := src.1) ca hsrc.1 hx k0.1 k1.2.1 z1
    obtain ⟨b1, b2, b3⟩ := axisFast_near (src := src.2) cd hsrc.2 hy k0.2.2.1 k1.2.2.2 z2
    rw [er]
    exact ⟨b1, b2, a1, a2, fun y x h1 h2 h3 h4 => ⟨b3 y h1 h2, a3 x h3 h4⟩⟩
  · have hB : 0 ≤ B := p1.trans (hpt q ⟨i1, i2, i3, i4⟩).2.1
    have hD : 0 ≤ D := p2.trans (hpt q ⟨i1, i2, i3, i4⟩).2.2.2
    have corner : ∀ p : ℚ × ℚ, InRect y0 y1 x0 x1 p → A ≤ (tf.inv.app p).1 ∧ (tf.inv.app p).1 ≤ B ∧
        C ≤ (tf.inv.app p).2 ∧ (tf.inv.app p).2 ≤ D := by
      intro p hp
      apply hpt
      rw [Affine.app_inv_app _ hd]
      exact hp
    have k1 := corner (x0, y0) ⟨le_refl _, hxq, le_refl _, hyq⟩
    have k2 := corner (x1, y0) ⟨hxq, le_refl _, le_refl _, hyq⟩
    have k3 := corner (x0, y1) ⟨le_refl _, hxq, hyq, le_refl _⟩
    have k4 := corner (x1, y1) ⟨hxq, le_refl _, hyq, le_refl _⟩
    have sx := swap_near hx (le_min4 k1.1 k2.1 k3.1 k4.1) (max4_le k1.2.1 k2.2.1 k3.2.1 k4.2.1) hB
    have sy := swap_near hy (le_min4 k1.2.2.1 k2.2.2.1 k3.2.2.1 k4.2.2.1)
      (max4_le k1.2.2.2 k2.2.2.2 k3.2.2.2 k4.2.2.2) hD
    have er : r = (swapWarpAfterCrop tf y0 y1 x0 x1).1 := by
      simp only [r, innerSlice, if_neg hc]
    rw [er]
    unfold swapWarpAfterCrop
    simp only
    refine ⟨by omega, ?_, by omega, ?_, fun y x h1 h2 h3 h4 => ⟨sy y h1 h2, sx x h3 h4⟩⟩
    · exact swap_stop hy ((min4_le ..).trans (le_max4 ..))
    · exact swap_stop hx ((min4_le ..).trans (le_max4 ..))

/-- C86, parts of warped files: if the points of a part of an image come from columns `A` to `B` and rows `C` to `D` of
a file, then the optimized part of the image reads only pixels near them, less than two to the left or above and less
than two and the extent of a pixel of the image to the right or below.  The image is any image that is a warp of a file
when optimized; `C86_window_parts_partial` is about warps of parts and of dequantized files.  Missing: warps of
overviews; nearest interpolation, see `C86_nearest_violated`; parts that lie wholly to the left of or above the file,
see `C86_outside_violated`. -/
theorem C86_window_partial (H : Heur) {n : Node} (ho : NoOv n) (fuel : Nat) {l : Leaf} {tf : Affine} {d : Int × Int}
    {a : Algo} (hn : opt H fuel n = .ok (.warp (.leaf l) tf d a)) (ha : a.interp ≠ .nearest) {y0 y1 x0 x1 : Int}
    {c : Option (List Nat)} (hb : Tree.Built (.crop n y0 y1 x0 x1 c)) (hy : y0 < y1) (hx : x0 < x1) {A B C D : ℚ}
    (hpt : ∀ q, InRect y0 y1 x0 x1 (tf.app q) → A ≤ q.1 ∧ q.1 ≤ B ∧ C ≤ q.2 ∧ q.2 ≤ D)
    (hin : ∃ q, InRect y0 y1 x0 x1 (tf.app q) ∧ 0 ≤ q.1 ∧ 0 ≤ q.2) {m : Node}
    (h : opt H (fuel + 1) (.crop n y0 y1 x0 x1 c) = .ok m) :
    ∀ w ∈ windows m, w.file = l.id ∧ ∀ y x, w.y0 ≤ y → y < w.y1 → w.x0 ≤ x → x < w.x1 →
      Near C D y0 y1 y ∧ Near A B x0 x1 x := by
  have hp : Plain (.crop n y0 y1 x0 x1 c) := ⟨hb.ok.1, hb.ok.2, ho⟩
  have er := economyRules H
  have hg : RecOk H Plain Economy true (opt H fuel) := opt_good er (fun _ _ _ h => h.size.1) fuel
  have g := hg _ _ (er.sub hp rfl) hn
  have c1 := (er.cong hp rfl g.inv g.rel).1
  simp only [setSub] at c1
  rw [opt] at h
  simp only [optStep, optCrop, hn] at h
  simp only [cropRest, if_neg ha] at h
  split at h
  · cases h
  · rename_i hz
    simp only [warpAfterCrop] at hz
    rw [if_neg (by omega)] at hz
    split at hz <;> cases hz
  · rename_i inner tf' hz
    obtain ⟨w1, w2⟩ := er.warpAfterCrop (d := d) (a := a) c1 hz
    split at h
    · cases h
    · rename_i r hrr
      have g1 := hg _ _ w1 hrr
      have g2 := finishCrop_nf er g1.inv g1.nf h
      have hl : Less m inner := g2.rel.less.trans g1.rel.less
      simp only [warpAfterCrop] at hz
      rw [if_neg (by omega)] at hz
      split at hz
      · cases hz
      · rename_i i hi
        simp only [Except.ok.injEq, Option.some.injEq, Prod.mk.injEq] at hz
        obtain ⟨rfl, _⟩ := hz
        have hnear := innerSlice_near (src := l.dsize) c1.fit.1.2 c1.wf.1.2 hy hx hpt hin
        simp only at hnear
        obtain ⟨n1, n2, n3, n4, n5⟩ := hnear
        have e := mkCrop_ints hi
        subst e
        intro w hw
        obtain ⟨v, hv, wv⟩ := hl w hw
        simp only [windows] at hv
        cases hnan : l.nan with
        | true => simp [hnan] at hv
        | false =>
          simp only [hnan, Bool.false_eq_true, if_false, List.mem_singleton] at hv
          subst hv
          refine ⟨wv.file, fun y x h1 h2 h3 h4 => ?_⟩
          have a1 := axis_read n1 n2 (wv.y0.trans h1) (lt_of_lt_of_le h2 wv.y1)
          have a2 := axis_read n3 n4 (wv.x0.trans h3) (lt_of_lt_of_le h4 wv.x1)
          exact n5 y x a1.1 a1.2 a2.1 a2.2

/-! #### cases -/

/-- A picture of 100 by 100 pixels. -/
def hundred : Leaf := ⟨7, (100, 100), 1, some [p! "gray"], none, false⟩

theorem hundred_built : Tree.Built (.leaf hundred) :=
  .leaf _ ⟨by intro k h; cases h; rfl, by intro h; cases h⟩ (show Nonneg (100, 100) from ⟨by decide, by decide⟩)

/-- A part of a warped canvas of 150 by 150 pixels of it. -/
def partOf (tf : Affine) (a : Algo) (y0 y1 x0 x1 : Int) : Node :=
  .crop (mkWarp (.leaf hundred) tf (some (150, 150)) a) y0 y1 x0 x1 none

theorem partOf_built {tf : Affine} (h : tf.det ≠ 0) (a : Algo) {y0 y1 x0 x1 : Int}
    (e : mkCrop (mkWarp (.leaf hundred) tf (some (150, 150)) a) (ints y0 y1 x0 x1) none =
      .ok (partOf tf a y0 y1 x0 x1)) : Tree.Built (partOf tf a y0 y1 x0 x1) :=
  .crop _ _ (ints y0 y1 x0 x1) none (.warp _ _ (some (150, 150)) _ hundred_built h
    (show Nonneg (150, 150) from ⟨by decide, by decide⟩)) trivial e

/-- Whether an image reads exactly these parts of files. -/
def reads (x : Py Node) (ws : List Window) : Bool := holds x (fun m => decide (windows m = ws))

theorem reads_ok {x : Py Node} {ws : List Window} (h : reads x ws = true) : ∃ m, x = .ok m ∧ windows m = ws := by
  obtain ⟨m, e, h⟩ := holds_ok h
  exact ⟨m, e, by simpa using h⟩

/-- Ten by ten pixels of a picture that is enlarged twice: seven by seven pixels are read. -/
example : ∃ m, opt Heur.code 20 (partOf (.scale 2) .default 40 50 20 30) = .ok m ∧
    windows m = [⟨7, 19, 26, 9, 16⟩] := reads_ok (by decide +kernel)

/-- ... as the theorem says: the part comes from columns 10 to 15 and rows 20 to 25. -/
example : ∃ m, opt Heur.code 20 (partOf (.scale 2) .default 40 50 20 30) = .ok m ∧ windows m ≠ [] ∧
    ∀ w ∈ windows m, w.file = 7 ∧ ∀ y x, w.y0 ≤ y → y < w.y1 → w.x0 ≤ x → x < w.x1 →
      Near 20 25 40 50 y ∧ Near 10 15 20 30 x := by
  obtain ⟨m, e, hm⟩ := reads_ok (x := opt Heur.code 20 (partOf (.scale 2) .default 40 50 20 30))
    (ws := [⟨7, 19, 26, 9, 16⟩]) (by decide +kernel)
  refine ⟨m, e, by rw [hm]; simp, ?_⟩
  refine C86_window_partial Heur.code (n := mkWarp (.leaf hundred) (.scale 2) (some (150, 150)) .default) (.inl rfl) 19
    (l := hundred) (tf := .scale 2) (d := (150, 150)) (a := .default) ?_ (by decide)
    (partOf_built (by decide +kernel) _ rfl) (by decide) (by decide) ?_ ⟨(10, 20), ?_, by norm_num, by norm_num⟩ e
  · simp [opt, optStep, optWarp, warpRest, mkWarp, hundred, Tree.split, numOverviews, absorb, Node.dsize]
    intro _
    rfl
  · rintro ⟨u, v⟩ ⟨h1, h2, h3, h4⟩
    simp only [Affine.app, Affine.scale] at h1 h2 h3 h4 ⊢
    push_cast at h1 h2 h3 h4
    exact ⟨by linarith, by linarith, by linarith, by linarith⟩
  · simp only [InRect, Affine.app, Affine.scale]; norm_num

/-- A part of a part of two dequantized channels of one picture. -/
def partTwice : Node := .crop (mkDequant (.crop (.leaf { pyramid with overviews := none }) 2 9 1 8 (some [2, 0]))
  ⟨0, 1, 0, 255, none⟩) 1 4 2 4 none

theorem partTwice_built : Tree.Built partTwice := by
  refine .crop _ _ (ints 1 4 2 4) none (.dequant _ _ (.crop _ _ (ints 2 9 1 8) (some [2, 0])
    (picture_built none 1) ?_ rfl)) trivial rfl
  intro i hi
  simp only [List.mem_cons, List.not_mem_nil, or_false] at hi
  rcases hi with rfl | rfl <;> decide

example : Tree.Built partTwice ∧ Flat partTwice ∧ NoOv partTwice ∧ windows partTwice = [⟨1, 2, 9, 1, 8⟩] ∧
    ∃ m, opt Heur.code 20 partTwice = .ok m ∧ windows m = [⟨1, 3, 6, 3, 5⟩] := by
  exact ⟨partTwice_built, trivial, .inl rfl, by decide +kernel, reads_ok (by decide +kernel)⟩

/-- C86 fails for parts of a canvas to the left of a picture: nothing of the picture is in the part, and 61 columns of
it are read.  The end of the slice is negative, so it counts from the right. -/
theorem C86_outside_violated :
    Tree.Built (partOf (.trans 50 0) .default 0 10 0 10) ∧
    (∀ q : ℚ × ℚ, InRect 0 10 0 10 ((Affine.trans 50 0).app q) → q.1 ≤ -40) ∧
    ∃ m, opt Heur.code 20 (partOf (.trans 50 0) .default 0 10 0 10) = .ok m ∧ windows m = [⟨7, 0, 11, 0, 61⟩] := by
  refine ⟨partOf_built (by decide +kernel) _ rfl, ?_, reads_ok (by decide +kernel)⟩
  rintro ⟨u, v⟩ ⟨h1, h2, h3, h4⟩
  simp only [Affine.app, Affine.trans] at h2 ⊢
  push_cast at h2
  linarith

/-- C86 fails for nearest interpolation: a part of a warped picture reads the whole picture. -/
theorem C86_nearest_violated :
    Tree.Built (partOf (.scale 2) { Algo.default with interp := .nearest } 40 50 20 30) ∧
    ∃ m, opt Heur.code 20 (partOf (.scale 2) { Algo.default with interp := .nearest } 40 50 20 30) = .ok m ∧
      windows m = [⟨7, 0, 100, 0, 100⟩] :=
  ⟨partOf_built (by decide +kernel) _ rfl, reads_ok (by decide +kernel)⟩

/-- An environment in which overviews are made of pixels. -/
def viewing : Env (Nat × Nat × Nat) :=
  { cautious with
    img := fun _ => ⟨10, 10, 3, fun y x k => (y, x, k)⟩
    overview := fun _ k i => i.shift 0 0 (ovSize k i.w, ovSize k i.h) (9, 9, 9) }

theorem viewing_reads : Env.Reads viewing :=
  ⟨fun _ _ _ _ _ h => same_shift h .., fun _ _ _ h => same_shift h ..⟩

theorem viewing_views : Env.Views viewing := fun _ k i j h => by
  simp only [viewing]
  rw [h.h, h.w]
  exact same_shift h ..

/-- A part of a part of a picture; all pixels outside of rows 3 to 5 and columns 3 and 4 are erased. -/
example : Agree (finalize Heur.code viewing 20 partTwice) (finalize Heur.code { viewing with img := fun _ =>
    ⟨10, 10, 3, fun y x k => if 3 ≤ y ∧ y < 6 ∧ 3 ≤ x ∧ x < 5 then (y, x, k) else (0, 0, 0)⟩ } 20 partTwice) := by
  obtain ⟨m, e, hm⟩ := reads_ok (x := opt Heur.code 20 partTwice) (ws := [⟨1, 3, 6, 3, 5⟩]) (by decide +kernel)
  refine C86_unread_optimized_partial Heur.code viewing_reads viewing_views _ partTwice_built (.inl rfl) (fun _ => ⟨rfl, rfl, rfl⟩)
    (fun _ => ⟨rfl, rfl, rfl⟩) 20 e ?_
  rw [hm]
  intro w hw y x k h1 h2 h3 h4
  simp only [List.mem_singleton] at hw
  subst hw
  simp only [viewing] at h1 h2 h3 h4 ⊢
  rw [if_pos (by omega)]

/-- The same without optimizing, for what the image as it was made reads. -/
example : Agree (fin viewing partTwice) (fin { viewing with img := fun _ =>
    ⟨10, 10, 3, fun y x k => if 2 ≤ y ∧ y < 9 ∧ 1 ≤ x ∧ x < 8 then (y, x, k) else (0, 0, 0)⟩ } partTwice) := by
  refine C86_unread viewing_reads viewing_views _ partTwice_built (fun _ => ⟨rfl, rfl, rfl⟩)
    (fun _ => ⟨rfl, rfl, rfl⟩) ?_
  have hm : windows partTwice = [⟨1, 2, 9, 1, 8⟩] := by decide +kernel
  rw [hm]
  intro w hw y x k h1 h2 h3 h4
  simp only [List.mem_singleton] at hw
  subst hw
  simp only [viewing] at h1 h2 h3 h4 ⊢
  rw [if_pos (by omega)]

/-- One channel of two pictures of one pixel. -/
def oneOfTwo : Node := .crop (.concat [.leaf ⟨2, (1, 1), 1, some [p! "a"], none, false⟩,
  .leaf ⟨3, (1, 1), 1, some [p! "b"], none, false⟩] (1, 1)) 0 1 0 1 (some [0])

theorem pixel_built (i : Nat) (c : Str) : Tree.Built (.leaf ⟨i, (1, 1), 1, some [c], none, false⟩) :=
  .leaf _ ⟨by intro k h; cases h; rfl, by intro h; cases h⟩ (show Nonneg (1, 1) from ⟨by decide, by decide⟩)

theorem oneOfTwo_built : Tree.Built oneOfTwo := by
  refine .crop _ _ (ints 0 1 0 1) (some [0]) (.concat [.leaf ⟨2, (1, 1), 1, some [p! "a"], none, false⟩,
    .leaf ⟨3, (1, 1), 1, some [p! "b"], none, false⟩] _ ?_ rfl) ?_ rfl
  · intro p hp
    simp only [List.mem_cons, List.not_mem_nil, or_false] at hp
    rcases hp with rfl | rfl
    · exact pixel_built ..
    · exact pixel_built ..
  · intro i hi
    simp only [List.mem_cons, List.not_mem_nil, or_false] at hi
    subst hi; decide

/-- Only the picture of the selected channel is read. -/
example : NoOv oneOfTwo ∧ Fair oneOfTwo ∧ Each HasChannels oneOfTwo ∧ files oneOfTwo = [2, 3] ∧
    ∃ m, opt Heur.code 20 oneOfTwo = .ok m ∧ files m = [2] := by
  refine ⟨⟨.inl rfl, .inl rfl, trivial⟩, ⟨⟨.inr rfl, .inr rfl, trivial⟩, by simp⟩,
    ⟨fun _ => by decide, fun _ => by decide, trivial⟩, rfl, ?_⟩
  obtain ⟨m, e, h⟩ := holds_ok (x := opt Heur.code 20 oneOfTwo) (f := fun m => decide (files m = [2]))
    (by decide +kernel)
  exact ⟨m, e, by simpa using h⟩

/-- The same next to an image that changes its size. -/
def oneOfTwoStuck : Node := .concat [halfCrop, oneOfTwo] (1, 1)

/-- C86 fails for concats with overviews: if an optimized part has another size, the concat stays as it is, and files
are read that no channel comes from. -/
theorem C86_files_violated :
    Tree.Built oneOfTwoStuck ∧ ¬ Draws oneOfTwoStuck 3 ∧
    ∃ m, opt Heur.code 40 oneOfTwoStuck = .ok m ∧ 3 ∈ files m := by
  refine ⟨?_, ?_, ?_⟩
  · refine .concat [halfCrop, oneOfTwo] _ ?_ ?_
    · intro p hp
      simp only [List.mem_cons, List.not_mem_nil, or_false] at hp
      rcases hp with rfl | rfl
      · exact C36_size_violated.1
      · exact oneOfTwo_built
    · have e : halfCrop.dsize = (1, 1) := by decide +kernel
      simp only [mkConcat, e, List.all_cons, List.all_nil]
      rfl
  · rintro ⟨s, hs, i, e⟩
    have : ∀ s ∈ src oneOfTwoStuck, ∀ i, s.leaf ≠ some (3, i) := by
      intro s hs i
      have hs' : s ∈ (src oneOfTwoStuck) := hs
      simp only [oneOfTwoStuck, src, srcL, List.append_nil, List.mem_append] at hs'
      rcases hs' with h | h
      · simp [halfCrop, mkWarp, src, pyramid, selSrc] at h
        obtain ⟨_, _, rfl⟩ := h
        simp
      · simp [oneOfTwo, src, srcL, selSrc, pick] at h
        subst h
        simp
    exact this s hs i e
  · obtain ⟨m, h1, h2⟩ := holds_ok (x := opt Heur.code 40 oneOfTwoStuck) (f := fun m => decide (3 ∈ files m))
      (by decide +kernel)
    exact ⟨m, h1, by simpa using h2⟩

end Verif.Props
