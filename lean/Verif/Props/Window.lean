/-
C86, continued: what is read for parts of warped parts and of warped, dequantized files.
-/
import Verif.Props.Needed
import Verif.Props.Parts

namespace Verif.Props

open Verif.Tree Verif.Helpers Verif.Tree.Node

variable {H : Heur}

/-- The file an image is a part of, and the row and column of the file that its first pixel is. -/
def origin : Node → Option (Leaf × Int × Int)
  | .leaf l => some (l, 0, 0)
  | .crop s y0 _ x0 _ _ => (origin s).map fun o => (o.1, o.2.1 + y0, o.2.2 + x0)
  | .dequant s _ _ => origin s
  | _ => none

/-- All windows are in the given part of the given file. -/
def ReadsIn (m : Node) (l : Leaf) (y0 y1 x0 x1 : Int) : Prop :=
  ∀ w ∈ windows m, w.file = l.id ∧ ∀ y x, w.y0 ≤ y → y < w.y1 → w.x0 ≤ x → x < w.x1 →
    (y0 ≤ y ∧ y < y1) ∧ x0 ≤ x ∧ x < x1

/-- A file or a part of it. -/
def ofFile : Node → Prop
  | .leaf _ => True
  | .crop (.leaf _) .. => True
  | _ => False

/-- ..., dequantized or not. -/
def chained : Node → Prop
  | .dequant s _ _ => ofFile s
  | s => ofFile s

theorem readsIn_nan (k : Nat) (d : Int × Int) (names : Option (List Str)) (l : Leaf) (y0 y1 x0 x1 : Int) :
    ReadsIn (nanLeaf k d names) l y0 y1 x0 x1 := by
  intro w hw
  simp [nanLeaf, windows] at hw

theorem done_unique {m r : Node} (ho : NoOv m) (hd : Done H m) {f : Nat} (h : opt H f m = .ok r) : r = m := by
  have e1 := done_opt (max f (deepness m)) m ho hd (le_max_right _ _)
  have e2 := opt_extends f (max f (deepness m)) (le_max_left _ _) m (by rw [h]; simp)
  rw [e1, h] at e2
  cases e2
  rfl

/-- A part of a file reads that part. -/
theorem crop_leaf_reads {l : Leaf} {y0 y1 x0 x1 : Int} {c : Option (List Nat)} {f : Nat} {m : Node}
    (h : opt H f (.crop (.leaf l) y0 y1 x0 x1 c) = .ok m) : ReadsIn m l y0 y1 x0 x1 ∧ ofFile m := by
  cases f with
  | zero => cases h
  | succ f =>
    simp only [opt, optStep, optCrop] at h
    cases f with
    | zero => cases h
    | succ f =>
      have e0 : opt H (f + 1) (.leaf l : Node) = .ok (.leaf l) := rfl
      simp only [e0] at h
      cases hn : l.nan with
      | false =>
        simp only [hn, Bool.false_eq_true, if_false, cropRest, finishCrop, finish, subOf, Except.ok.injEq] at h
        subst h
        refine ⟨fun w hw => ?_, trivial⟩
        simp only [windows, hn, Bool.false_eq_true, if_false, List.mem_singleton] at hw
        subst hw
        exact ⟨rfl, fun y x h1 h2 h3 h4 => ⟨⟨h1, h2⟩, h3, h4⟩⟩
      | true =>
        simp only [hn, if_true] at h
        split at h
        · cases h
        · rename_i r hr
          have : ∃ d names, r = nanLeaf l.id d names := by
            unfold nanCrop at hr
            split at hr
            · cases hr
            · split at hr
              · cases hr
              · split at hr
                · cases hr
                · cases hr
                  exact ⟨_, _, rfl⟩
          obtain ⟨d, names, rfl⟩ := this
          cases h
          exact ⟨readsIn_nan _ _ _ _ _ _ _ _, trivial⟩

/-- A part of a part of a file reads the part of the file. -/
theorem crop_crop_reads {l : Leaf} (hl : l.nan = false) {i0 i1 j0 j1 y0 y1 x0 x1 : Int} {ic c : Option (List Nat)}
    (hi : 0 ≤ i0) (hi' : i0 ≤ i1) (hj : 0 ≤ j0) (hj' : j0 ≤ j1) (hy : 0 ≤ y0) (hy' : 0 ≤ y1) (hx : 0 ≤ x0) (hx' : 0 ≤ x1)
    {f : Nat} {m : Node}
    (h : opt H f (.crop (.crop (.leaf l) i0 i1 j0 j1 ic) y0 y1 x0 x1 c) = .ok m) :
    ReadsIn m l (i0 + y0) (i0 + y1) (j0 + x0) (j0 + x1) ∧ ofFile m := by
  cases f with
  | zero => cases h
  | succ f =>
    simp only [opt, optStep, optCrop] at h
    have hdone : Done H (.crop (.leaf l) i0 i1 j0 j1 ic) := by
      simp only [Done]
      exact ⟨trivial, hl⟩
    cases e : opt H f (.crop (.leaf l) i0 i1 j0 j1 ic) with
    | error e' => rw [e] at h; cases h
    | ok u =>
      have hu : u = .crop (.leaf l) i0 i1 j0 j1 ic := by
        cases f with
        | zero => cases e
        | succ f =>
          simp only [opt, optStep, optCrop] at e
          cases f with
          | zero => cases e
          | succ f =>
            have e0 : opt H (f + 1) (.leaf l : Node) = .ok (.leaf l) := rfl
            simp only [e0, hl, Bool.false_eq_true, if_false, cropRest, finishCrop, finish, subOf, Except.ok.injEq] at e
            exact e.symm
      subst hu
      rw [e] at h
      simp only [fuseCrops] at h
      cases ec : fuseChans ic c with
      | error e' => rw [ec] at h; cases h
      | ok nc =>
        rw [ec] at h
        simp only at h
        cases em : mkCrop (.leaf l : Node) (ints (fuseAxis i0 i1 y0 y1).1 (fuseAxis i0 i1 y0 y1).2
          (fuseAxis j0 j1 x0 x1).1 (fuseAxis j0 j1 x0 x1).2) nc with
        | error e' => rw [em] at h; cases h
        | ok u =>
          rw [em] at h
          have := mkCrop_ints em
          subst this
          simp only [hl, Bool.false_eq_true, if_false, cropRest, finishCrop, finish, subOf, Except.ok.injEq] at h
          subst h
          refine ⟨fun w hw => ?_, trivial⟩
          simp only [windows, hl, Bool.false_eq_true, if_false, List.mem_singleton] at hw
          subst hw
          refine ⟨rfl, fun y x h1 h2 h3 h4 => ?_⟩
          simp only [fuseAxis] at h1 h2 h3 h4
          have a1 := axis_read (by omega) (by omega) h1 h2
          have a2 := axis_read (by omega) (by omega) h3 h4
          omega

theorem chained_of {m : Node} (h : ofFile m) : chained m := by
  cases m with
  | dequant => exact h.elim
  | _ => exact h

/-- A part of an optimized part of a file reads the part of the file. -/
theorem part_reads_file {x : Node} {l : Leaf} {oy ox : Int} (ho : NoOv x) (hw : WF x) (hf : Fit x) (hd : Done H x)
    (hu : isLOC x) (e : origin x = some (l, oy, ox)) {y0 y1 x0 x1 : Int} {c : Option (List Nat)} (hy : 0 ≤ y0)
    (hy' : 0 ≤ y1) (hx : 0 ≤ x0) (hx' : 0 ≤ x1) {f : Nat} {m : Node} (h : opt H f (.crop x y0 y1 x0 x1 c) = .ok m) :
    ReadsIn m l (oy + y0) (oy + y1) (ox + x0) (ox + x1) ∧ ofFile m := by
  cases x with
  | leaf k =>
    simp only [origin, Option.some.injEq, Prod.mk.injEq] at e
    obtain ⟨rfl, rfl, rfl⟩ := e
    simpa using crop_leaf_reads h
  | crop s i0 i1 j0 j1 ic =>
    simp only [Done] at hd
    cases s with
    | leaf k =>
      simp only [origin, Option.map_some, Option.some.injEq, Prod.mk.injEq] at e
      obtain ⟨rfl, rfl, rfl⟩ := e
      have := crop_crop_reads hd.2 hw.2.1 hf.2.1 hw.2.2.1 hf.2.2.2.1 hy hy' hx hx' h
      simpa using this
    | overview => exact hd.1.elim
    | warp => simp [origin] at e
    | concat => exact hd.2.elim
    | crop => exact hd.2.elim
    | dequant => exact hd.2.elim
  | overview => exact ho.elim
  | warp => exact hu.elim
  | concat => exact hu.elim
  | dequant => exact hu.elim

/-- ..., dequantized or not. -/
theorem part_reads {x : Node} {l : Leaf} {oy ox : Int} (ho : NoOv x) (hw : WF x) (hf : Fit x) (hd : Done H x)
    (hu : underWarp x) (e : origin x = some (l, oy, ox)) {y0 y1 x0 x1 : Int} {c : Option (List Nat)} (hy : 0 ≤ y0)
    (hy' : 0 ≤ y1) (hx : 0 ≤ x0) (hx' : 0 ≤ x1) {f : Nat} {m : Node} (h : opt H f (.crop x y0 y1 x0 x1 c) = .ok m) :
    ReadsIn m l (oy + y0) (oy + y1) (ox + x0) (ox + x1) ∧ chained m := by
  cases x with
  | leaf k =>
    obtain ⟨h1, h2⟩ := part_reads_file ho hw hf hd trivial e hy hy' hx hx' h
    exact ⟨h1, chained_of h2⟩
  | crop s i0 i1 j0 j1 ic =>
    obtain ⟨h1, h2⟩ := part_reads_file ho hw hf hd trivial e hy hy' hx hx' h
    exact ⟨h1, chained_of h2⟩
  | overview => exact ho.elim
  | warp => exact hu.elim
  | concat => exact hu.elim
  | dequant z q dq =>
    cases f with
    | zero => cases h
    | succ f =>
      simp only [opt, optStep, optCrop] at h
      cases ez : opt H f (.dequant z q dq) with
      | error e' => rw [ez] at h; cases h
      | ok u =>
        have hu' : u = .dequant z q dq := done_unique ho hd ez
        subst hu'
        rw [ez] at h
        simp only [cropRest] at h
        simp only [Done] at hd
        cases er : opt H f (mkDequant (.crop z y0 y1 x0 x1 c) q) with
        | error e' => rw [er] at h; cases h
        | ok r =>
          rw [er] at h
          cases f with
          | zero => cases er
          | succ f =>
            simp only [opt, optStep, mkDequant, optDequant] at er
            cases e2 : opt H f (.crop z y0 y1 x0 x1 c) with
            | error e' => rw [e2] at er; cases er
            | ok v =>
              obtain ⟨k1, k2⟩ := part_reads_file (x := z) ho hw hf.1 hd.1 hd.2 e hy hy' hx hx' e2
              rw [e2] at er
              have hr : r = .dequant v q (Node.crop z y0 y1 x0 x1 c).dsize := by
                cases v with
                | leaf => cases er; rfl
                | crop t =>
                  cases t with
                  | leaf => cases er; rfl
                  | _ => exact k2.elim
                | _ => exact k2.elim
              subst hr
              have hm : m = .dequant v q (Node.crop z y0 y1 x0 x1 c).dsize := by
                cases v with
                | leaf => cases h; rfl
                | crop t =>
                  cases t with
                  | leaf => cases h; rfl
                  | _ => exact k2.elim
                | _ => exact k2.elim
              subst hm
              exact ⟨fun w hw => k1 w hw, k2⟩

/-- A warp of a chain reads what the chain reads, or nothing. -/
theorem warp_reads {s : Node} {l : Leaf} {y0 y1 x0 x1 : Int} (ho : NoOv s) (hd : Done H s) (hc : chained s)
    (hr : ReadsIn s l y0 y1 x0 x1) {tf : Affine} {d : Int × Int} {a : Algo} {f : Nat} {r : Node}
    (h : warpRest H (opt H f) s tf d a = .ok r) {rec : Node → Py Node} {m : Node} (hm : finishCrop rec r = .ok m) :
    ReadsIn m l y0 y1 x0 x1 := by
  -- chains and warps of chains are left as they are
  have keep : ∀ {s : Node}, chained s → ReadsIn s l y0 y1 x0 x1 → ∀ {m}, finishCrop rec s = .ok m →
      ReadsIn m l y0 y1 x0 x1 := by
    intro s hc hr m hm
    cases s with
    | leaf => cases hm; exact hr
    | crop t =>
      cases t with
      | leaf => cases hm; exact hr
      | _ => exact hc.elim
    | dequant t =>
      cases t with
      | leaf => cases hm; exact hr
      | crop t => cases hm; exact hr
      | _ => exact hc.elim
    | _ => exact hc.elim
  by_cases hz : d = s.dsize ∧ H.negl a.noopEps tf = true
  · unfold warpRest at h
    rw [if_pos hz] at h
    cases h
    exact keep hc hr hm
  · have hnc : ∀ ps e, s ≠ .concat ps e := by
      rintro ps e rfl
      exact hc.elim
    obtain ⟨o, hnum⟩ := numOverviews_chain s ho hd hnc
    by_cases hsol : solid s
    · rw [warpRest_noOv ho hnum hnc hsol hz, Except.ok.injEq] at h
      subst h
      have : m = .warp s tf d a := by
        cases s with
        | concat => exact hc.elim
        | _ => cases hm; rfl
      subst this
      exact fun w hw => hr w hw
    · cases s with
      | leaf k =>
        have hnan : k.nan = true := by simpa [solid] using hsol
        unfold warpRest at h
        rw [if_neg hz] at h
        simp only [hnan, if_true] at h
        have hr' : r = nanLeaf k.id d k.names := by
          cases f with
          | zero => cases h
          | succ f => cases h; rfl
        subst hr'
        exact keep (s := nanLeaf k.id d k.names) trivial (readsIn_nan _ _ _ _ _ _ _ _) hm
      | _ => exact absurd trivial hsol

theorem near_shift {A B : ℚ} {r0 r1 o x : Int} (h : Near (A - o) (B - o) r0 r1 (x - o)) : Near A B r0 r1 x := by
  unfold Near at h ⊢
  push_cast at h
  have e : B - o - (A - o) + 2 = B - A + 2 := by ring
  rw [e] at h
  exact ⟨by linarith [h.1], by linarith [h.2]⟩

/-- C86, parts of warped parts of files, dequantized or not: the image is any image that is a warp of such when
optimized.  The points are points of the file, whose pixel in row `oy` and column `ox` is the first that is warped.  As
before, the optimized part of the image reads only pixels near those its points come from.  Missing: warps of
overviews; nearest interpolation, see `C86_nearest_violated`; parts that lie wholly to the left of or above what is
warped, see `C86_outside_violated`. -/
theorem C86_window_parts_partial (H : Heur) {n : Node} (ho : NoOv n) (fuel : Nat) {s : Node} {l : Leaf} {oy ox : Int}
    {tf : Affine} {d : Int × Int} {a : Algo} (hn : opt H fuel n = .ok (.warp s tf d a))
    (hs : origin s = some (l, oy, ox)) (ha : a.interp ≠ .nearest) {y0 y1 x0 x1 : Int} {c : Option (List Nat)}
    (hb : Tree.Built (.crop n y0 y1 x0 x1 c)) (hy : y0 < y1) (hx : x0 < x1) {A B C D : ℚ}
    (hpt : ∀ q, InRect y0 y1 x0 x1 (tf.app q) → A ≤ ox + q.1 ∧ ox + q.1 ≤ B ∧ C ≤ oy + q.2 ∧ oy + q.2 ≤ D)
    (hin : ∃ q, InRect y0 y1 x0 x1 (tf.app q) ∧ 0 ≤ q.1 ∧ 0 ≤ q.2) {m : Node}
    (h : opt H (fuel + 1) (.crop n y0 y1 x0 x1 c) = .ok m) :
    ∀ w ∈ windows m, w.file = l.id ∧ ∀ y x, w.y0 ≤ y → y < w.y1 → w.x0 ≤ x → x < w.x1 →
      Near C D y0 y1 y ∧ Near A B x0 x1 x := by
  have hp : Plain (.crop n y0 y1 x0 x1 c) := ⟨hb.ok.1, hb.ok.2, ho⟩
  have er := sizeRules H
  have hg : RecOk H Plain SameDims true (opt H fuel) := opt_good er (fun _ _ _ h => h.1) fuel
  have g := hg _ _ (er.sub hp rfl) hn
  have c1 := (er.cong hp rfl g.inv g.rel).1
  simp only [setSub] at c1
  have hd := opt_done fuel _ _ (er.sub hp rfl) hn
  simp only [Done] at hd
  rw [opt] at h
  simp only [optStep, optCrop, hn] at h
  simp only [cropRest, if_neg ha] at h
  split at h
  · cases h
  · rename_i hz
    simp only [warpAfterCrop] at hz
    rw [if_neg (by omega)] at hz
    split at hz <;> cases hz
  · rename_i inner tf' hz
    have w1 := (er.warpAfterCrop (d := d) (a := a) c1 hz).1
    split at h
    · cases h
    · rename_i r hrr
      simp only [warpAfterCrop] at hz
      rw [if_neg (by omega)] at hz
      split at hz
      · cases hz
      · rename_i i hi
        simp only [Except.ok.injEq, Option.some.injEq, Prod.mk.injEq] at hz
        obtain ⟨rfl, _⟩ := hz
        have hnear := innerSlice_near (src := s.dsize) (A := A - ox) (B := B - ox) (C := C - oy) (D := D - oy)
          (c1.fit.1.2.nonneg c1.wf.1.1) c1.wf.1.2 hy hx
          (fun q hq => by
            obtain ⟨p1, p2, p3, p4⟩ := hpt q hq
            exact ⟨by linarith, by linarith, by linarith, by linarith⟩) hin
        simp only at hnear
        obtain ⟨n1, n2, n3, n4, n5⟩ := hnear
        have e := mkCrop_ints hi
        subst e
        cases fuel with
        | zero => cases hrr
        | succ f =>
          have hg' : RecOk H Plain SameDims true (opt H f) := opt_good er (fun _ _ _ h => h.1) f
          simp only [opt, optStep, optWarp] at hrr
          have pi := er.sub w1 rfl
          cases e0 : opt H f (.crop s _ _ _ _ c) with
          | error e' => rw [e0] at hrr; cases hrr
          | ok v =>
            obtain ⟨v1, v2⟩ := part_reads (x := s) pi.noOv pi.wf.1 c1.fit.1.2 hd.1 hd.2.1 hs (normBound_nonneg _ _)
              (le_max_of_le_left (normBound_nonneg _ _)) (normBound_nonneg _ _)
              (le_max_of_le_left (normBound_nonneg _ _)) e0
            have dv := opt_done f _ _ pi e0
            have gv := hg' _ _ pi e0
            rw [e0] at hrr
            have hw : warpRest H (opt H f) v tf' (x1 - x0, y1 - y0) a.common = .ok r := by
              cases v with
              | warp => exact v2.elim
              | _ => exact hrr
            have key := warp_reads gv.inv.noOv dv v2 v1 hw h
            intro w hw
            obtain ⟨k1, k2⟩ := key w hw
            refine ⟨k1, fun y x h1 h2 h3 h4 => ?_⟩
            obtain ⟨⟨b1, b2⟩, b3, b4⟩ := k2 y x h1 h2 h3 h4
            have a1 := axis_read (D := s.dsize.2) (x := y - oy) n1 n2 (by omega) (by omega)
            have a2 := axis_read (D := s.dsize.1) (x := x - ox) n3 n4 (by omega) (by omega)
            obtain ⟨m1, m2⟩ := n5 (y - oy) (x - ox) a1.1 a1.2 a2.1 a2.2
            exact ⟨near_shift m1, near_shift m2⟩

/-! ### concats -/

theorem opt_unique {n a b : Node} {f g : Nat} (ha : opt H f n = .ok a) (hb : opt H g n = .ok b) : a = b := by
  have e1 := opt_extends f (max f g) (le_max_left _ _) n (by rw [ha]; simp)
  have e2 := opt_extends g (max f g) (le_max_right _ _) n (by rw [hb]; simp)
  rw [ha] at e1
  rw [hb, e1] at e2
  cases e2
  rfl

theorem runAll_noOv : ∀ {js : List Job} {n m : Node}, NoOverviews js → runAll n js = .ok m → NoOv n → NoOv m
  | [], n, m, _, h, hn => by cases h; exact hn
  | j :: js, n, m, ho, h, hn => by
    rw [runAll] at h
    cases e : j.run n with
    | error e' => rw [e] at h; cases h
    | ok k =>
      rw [e] at h
      refine runAll_noOv (fun i hi => ho i (by simp [hi])) h ?_
      cases j with
      | warp tf d a => cases e; exact hn
      | crop sl =>
        cases e
        exact hn
      | padded y0 y1 x0 x1 pad =>
        obtain ⟨a, b, c, d, rfl | ⟨x, y, d, al, rfl⟩⟩ := paddedCrop_form e
        · exact hn
        · exact hn
      | overview i => exact absurd (by simp) (ho i)
      | dequant q => cases e; exact hn

/-- C86, concats: an image made from a concat reads, when optimized, exactly what the images made in the same way from
its parts read, when optimized.  So with the other theorems a part of a concat of warped files reads of each file only
pixels near those shown.  Missing: overviews, and warps by the identity that keep the size. -/
theorem C86_concat_partial {ps : List Node} (hb : ∀ p ∈ ps, Tree.Built p) (hp : ∀ p ∈ ps, NoOv p) {n : Node}
    (hn : mkConcat ps = .ok n) {js : List Job} (ho : NoOverviews js) (hm : Moves H n js) {m : Node}
    (h1 : runAll n js = .ok m) (hbm : Tree.Built m) {f : Nat} {r : Node} (h : opt H f m = .ok r) (w : Window) :
    w ∈ windows r ↔ ∃ p ∈ ps, ∃ q, runAll p js = .ok q ∧ ∃ f t, opt H f q = .ok t ∧ w ∈ windows t := by
  rcases C89_announced hn js with ⟨e, he, _⟩ | ⟨m', qs, c, e1, hq, hc, e2, e3, e4, -⟩
  · rw [h1] at he; cases he
  · rw [h1] at e1
    cases e1
    obtain ⟨g, hg⟩ := ((C89_results (H := H) (V := Unit) hb hp hn ho hm h1 hbm hq hc).1 r).1 ⟨f, h⟩
    obtain ⟨d, rfl, hne, hd⟩ := mkConcat_ok hc
    cases g with
    | zero => cases hg
    | succ g =>
      simp only [opt, optStep, optConcat] at hg
      cases em : mapAll (opt H g) qs with
      | error e => rw [em] at hg; cases hg
      | ok ts =>
        rw [em] at hg
        have hall := mapAll_ok em
        have t1 : ∀ q ∈ qs, ∃ t ∈ ts, opt H g q = .ok t := fun q hq' => forall₂_mem_right hall.flip hq'
        have t2 : ∀ t ∈ ts, ∃ q ∈ qs, opt H g q = .ok t := fun t ht => forall₂_mem_right hall ht
        have hplain : ∀ q ∈ qs, Plain q := by
          intro q hq'
          obtain ⟨p, hp', e⟩ := forall₂_mem_right hq hq'
          obtain ⟨o, ho', rfl⟩ := List.getElem_of_mem hp'
          obtain ⟨d0, rfl, -, hd0⟩ := mkConcat_ok hn
          rcases carried_runAll (held_carried _ js) js (fun _ h => h) (held_part hd0 ho') with
            ⟨e', g1, -⟩ | ⟨x, y, g1, g2, g3⟩
          · rw [h1] at g1; cases g1
          · rw [h1] at g1
            rw [e] at g2
            cases g1
            cases g2
            have k := g3.ok hbm.ok
            exact ⟨k.1, k.2, runAll_noOv ho e (hp _ hp')⟩
        have hts : ∀ t ∈ ts, t.dsize = d := by
          intro t ht
          obtain ⟨q, hq', e⟩ := t2 t ht
          have := (opt_good (deep := true) (sizeRules H) (fun _ _ _ h => h.1) g q t (hplain q hq') e).rel.1
          rw [this, hd q hq']
        have hne' : ts ≠ [] := by
          rintro rfl
          cases qs with
          | nil => exact hne rfl
          | cons q qs =>
            obtain ⟨y, hy, _⟩ := t1 q (by simp)
            simp at hy
        simp only [mkConcat_same hne' hts] at hg
        cases hg
        simp only [windows, mem_windowsL]
        constructor
        · rintro ⟨t, ht, hw⟩
          obtain ⟨q, hq', e⟩ := t2 t ht
          obtain ⟨p, hp', e'⟩ := forall₂_mem_right hq hq'
          exact ⟨p, hp', q, e', g, t, e, hw⟩
        · rintro ⟨p, hp', q, e', g', t, e, hw⟩
          obtain ⟨q', hq', e''⟩ := forall₂_mem_right hq.flip hp'
          rw [e'] at e''
          cases e''
          obtain ⟨t', ht', e3⟩ := t1 q hq'
          rw [opt_unique e e3] at hw
          exact ⟨t', ht', hw⟩

/-! ### cases -/

/-- Eighty by sixty pixels of a picture, dequantized. -/
def eighty : Node := mkDequant (.crop (.leaf hundred) 30 90 20 100 none) ⟨0, 1, 0, 255, none⟩

/-- They are enlarged, and ten by ten pixels are taken: the points come from columns 30 to 35 and rows 50 to 55 of the
picture, and seven by seven pixels of it are read. -/
example : ∃ m, opt Heur.code 20 (.crop (mkWarp eighty (.scale 2) (some (150, 110)) .default) 40 50 20 30 none) = .ok m ∧
    windows m = [⟨7, 49, 56, 29, 36⟩] ∧
    ∀ w ∈ windows m, w.file = 7 ∧ ∀ y x, w.y0 ≤ y → y < w.y1 → w.x0 ≤ x → x < w.x1 →
      Near 50 55 40 50 y ∧ Near 30 35 20 30 x := by
  obtain ⟨m, e, hm⟩ := reads_ok (x := opt Heur.code 20 (.crop (mkWarp eighty (.scale 2) (some (150, 110)) .default)
    40 50 20 30 none)) (ws := [⟨7, 49, 56, 29, 36⟩]) (by decide +kernel)
  refine ⟨m, e, hm, ?_⟩
  have hb : Tree.Built (mkWarp eighty (.scale 2) (some (150, 110)) .default) :=
    .warp _ _ _ _ (.dequant _ _ (.crop _ _ (ints 30 90 20 100) none hundred_built trivial rfl)) (by decide +kernel)
      (show Nonneg (150, 110) from ⟨by decide, by decide⟩)
  have hd : Done Heur.code (mkWarp eighty (.scale 2) (some (150, 110)) .default) := by
    simp only [mkWarp, eighty, mkDequant, Done]
    refine ⟨⟨⟨trivial, rfl⟩, trivial⟩, trivial, trivial, fun h => ?_⟩
    exact absurd h.1 (by decide)
  refine C86_window_parts_partial Heur.code (n := mkWarp eighty (.scale 2) (some (150, 110)) .default) (.inl rfl) 19
    (s := eighty) (l := hundred) (oy := 30) (ox := 20) (tf := .scale 2) (d := (150, 110)) (a := .default)
    (y0 := 40) (y1 := 50) (x0 := 20) (x1 := 30) (done_opt 19 _ (.inl rfl) hd (by decide)) (by decide +kernel) (by decide)
    (.crop _ _ (ints 40 50 20 30) none hb trivial rfl) (by decide) (by decide) ?_ ⟨(10, 20), ?_, by norm_num, by norm_num⟩ e
  · rintro ⟨u, v⟩ ⟨h1, h2, h3, h4⟩
    simp only [Affine.app, Affine.scale] at h1 h2 h3 h4 ⊢
    push_cast at h1 h2 h3 h4 ⊢
    exact ⟨by linarith, by linarith, by linarith, by linarith⟩
  · simp only [InRect, Affine.app, Affine.scale]
    norm_num

/-- A picture next to the pixels above, both enlarged. -/
def duo : List Node := [mkWarp (.leaf { hundred with id := 8 }) (.scale 2) (some (150, 110)) .default,
  mkWarp eighty (.scale 2) (some (150, 110)) .default]

theorem duo_built : ∀ p ∈ duo, Tree.Built p := by
  intro p hp
  simp only [duo, List.mem_cons, List.not_mem_nil, or_false] at hp
  rcases hp with rfl | rfl
  · exact .warp _ _ _ _ (.leaf _ ⟨by intro k h; cases h; rfl, by intro h; cases h⟩
      (show Nonneg (100, 100) from ⟨by decide, by decide⟩)) (by decide +kernel)
      (show Nonneg (150, 110) from ⟨by decide, by decide⟩)
  · exact .warp _ _ _ _ (.dequant _ _ (.crop _ _ (ints 30 90 20 100) none hundred_built trivial rfl)) (by decide +kernel)
      (show Nonneg (150, 110) from ⟨by decide, by decide⟩)

/-- Ten by ten pixels of the two read seven by seven pixels of each of the pictures. -/
example : ∃ n m r, mkConcat duo = .ok n ∧ runAll n [.crop ((some 40, some 50), (some 20, some 30))] = .ok m ∧
    opt Heur.code 40 m = .ok r ∧ windows r = [⟨8, 19, 26, 9, 16⟩, ⟨7, 49, 56, 29, 36⟩] ∧
    ∀ w, w ∈ windows r ↔ ∃ p ∈ duo, ∃ q, runAll p [.crop ((some 40, some 50), (some 20, some 30))] = .ok q ∧
      ∃ f t, opt Heur.code f q = .ok t ∧ w ∈ windows t := by
  have hn : mkConcat duo = .ok (.concat duo (150, 110)) := rfl
  have h1 : runAll (.concat duo (150, 110)) [.crop ((some 40, some 50), (some 20, some 30))] =
    .ok (.crop (.concat duo (150, 110)) 40 50 20 30 none) := rfl
  obtain ⟨r, e, hr⟩ := reads_ok (x := opt Heur.code 40 (.crop (.concat duo (150, 110)) 40 50 20 30 none))
    (ws := [⟨8, 19, 26, 9, 16⟩, ⟨7, 49, 56, 29, 36⟩]) (by decide +kernel)
  refine ⟨_, _, r, hn, h1, e, hr, fun w => ?_⟩
  refine C86_concat_partial duo_built ?_ hn ?_ ?_ h1 ?_ e w
  · intro p hp
    simp only [duo, List.mem_cons, List.not_mem_nil, or_false] at hp
    rcases hp with rfl | rfl <;> exact .inl rfl
  · intro k hk
    simp at hk
  · intro m e
    cases e
    exact ⟨fun s tf d a e => (by cases e), trivial⟩
  · exact .crop _ _ (ints 40 50 20 30) none (.concat duo _ duo_built hn) trivial rfl

end Verif.Props
