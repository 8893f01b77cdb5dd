/-
C36 and C37: what `optimize` keeps, that it ends and what its results look like.
-/
import Verif.NameRules
import Verif.Props.Shape
import Verif.Props.Warp

namespace Verif.Props

open Tree Helpers Node

/-- Evaluating a result. -/
def holds {α : Type} (x : Py α) (f : α → Bool) : Bool :=
  match x with
  | .ok a => f a
  | .error _ => false

theorem holds_ok {α : Type} {x : Py α} {f : α → Bool} (h : holds x f = true) : ∃ a, x = .ok a ∧ f a = true := by
  unfold holds at h
  split at h
  · exact ⟨_, rfl, h⟩
  · cases h

/-! ### C36 -/

/-- C36: `optimize` keeps the channel codes and the number of channels of every tree, whatever its
tolerances are. -/
theorem C36_channels (H : Heur) {n : Node} (hb : Built n) (fuel : Nat) {m : Node} (h : opt H fuel n = .ok m) :
    m.channels = n.channels ∧ m.nchan = n.nchan := by
  have g := opt_good (deep := false) (nameRules H) (by simp) fuel n m hb.ok.1 h
  exact ⟨g.rel.channels, g.rel.nchan⟩

/-- A channel shows something. -/
def Visible (c : Chan) : Prop := ∃ p, c.dom p

/-- C36, sources: every output channel that shows something comes from the same leaf channel through the
same total transform and the same dequantizations, and shows at least the points it showed, where the
comparisons with the identity are exact (`Sharp`): those of the code are for images without overviews whose warps
have the default tolerance 0 (`sharp_code`).  Missing: `C36_tolerance_violated` shows that the code's tolerance for
overviews changes transforms; a channel that shows nothing may have another transform (`C36_empty_violated`). -/
theorem C36_sources_partial (H : Heur) {n : Node} (hH : Sharp H n) (hb : Built n) (fuel : Nat) {m : Node}
    (h : opt H fuel n = .ok m) (i : Nat) (c : Chan) (hc : (den n)[i]? = some c) (hv : Visible c) :
    ∃ c', (den m)[i]? = some c' ∧ c'.id = c.id ∧ c'.ch = c.ch ∧ c'.tf = c.tf ∧ c'.qs = c.qs ∧
      ∀ p, c.dom p → c'.dom p := by
  have g := (hH.opt hb.ok.1 h).1
  have hlen := g.den.length_eq
  obtain ⟨hi, e⟩ := List.getElem?_eq_some_iff.1 hc
  have hi' : i < (den m).length := by omega
  have hle : ((den n)[i]).Le ((den m)[i]) := List.Forall₂.get g.den hi hi'
  rw [e] at hle
  refine ⟨(den m)[i], List.getElem?_eq_getElem hi', ?_⟩
  obtain ⟨p, hp⟩ := hv
  rcases hle.2 with h0 | ⟨e1, e2, e3, e4⟩
  · exact absurd hp (h0 p)
  · exact ⟨e1, e2, e3, e4, hle.1⟩

/-- The comparisons of the code are exact on a rotated crop of an enlarged image, and not on a warp with a tolerance. -/
example : Sharp Heur.code (mkWarp (.crop (mkWarp (.leaf ⟨1, (10, 20), 2, none, none, false⟩) (.scale 2) none .default)
      3 9 2 8 (some [1, 0])) ⟨0, -1, 6, 1, 0, 0⟩ none .default) ∧
    ¬ Sharp Heur.code (mkWarp (.leaf ⟨1, (10, 20), 2, none, none, false⟩) (.trans (1 / 10) 0) none ⟨.other 0, true, none, 1, 0⟩) := by
  refine ⟨sharp_code (.inl rfl) ⟨rfl, rfl, trivial⟩, ?_⟩
  rintro (h | ⟨_, _, h, _⟩)
  · have := congrArg Affine.tx (h.negl 1 (.trans (1 / 10) 0) (by decide +kernel))
    simp [Affine.trans, Affine.id] at this
  · exact absurd h (by decide)

/-- C36, size: without overviews the size is kept, and everything is as announced afterwards.  With
overviews it is not (`C36_size_violated`). -/
theorem C36_size_partial (H : Heur) {n : Node} (hb : Built n) (ho : NoOv n) (fuel : Nat)
    {m : Node} (h : opt H fuel n = .ok m) : m.dsize = n.dsize :=
  (opt_good (deep := false) (sizeRules H) (by simp) fuel n m ⟨hb.ok.1, hb.ok.2, ho⟩ h).rel.1

/-- C36 without warps: size, channels, sources and the points that are shown are exactly the same, with
overviews, crops, dequantizations and channel selections in any order, but no crops below overviews
(`NoWarp`, `Simple`; `C36_snug_partial` has them).  Missing: warps. -/
theorem C36_no_warps_partial (H : Heur) {n : Node} (hb : Built n) (hw : NoWarp n) (fuel : Nat)
    {m : Node} (h : opt H fuel n = .ok m) :
    m.dsize = n.dsize ∧ m.channels = n.channels ∧ m.nchan = n.nchan ∧
    ∀ {V : Type} (img : Nat → Nat → ℚ × ℚ → V) (deq : Quantization → V → V) (i : Nat) (p : ℚ × ℚ),
      ((den m).getD i Chan.none).value img deq p = ((den n).getD i Chan.none).value img deq p := by
  have g := opt_good (deep := false) (exactRules H) (by simp) fuel n m ⟨hb.ok.1, hb.ok.2, hw⟩ h
  refine ⟨g.rel.dsize, g.rel.fwd.channels, g.rel.fwd.nchan, ?_⟩
  intro V img deq i p
  have l1 := forall₂_getD g.rel.fwd.den i
  have l2 := forall₂_getD g.rel.bwd.den i
  cases hv : ((den n).getD i Chan.none).value img deq p with
  | some v => exact l1.value img deq p v hv
  | none =>
    cases hv' : ((den m).getD i Chan.none).value img deq p with
    | none => rfl
    | some v => rw [l2.value img deq p v hv'] at hv; cases hv

/-- The channel codes of a result. -/
def codesAre (n : Node) (cs : List Str) : Bool :=
  match n.channels with
  | some l => decide (l = cs)
  | none => false

theorem pyramid_built : Built (.leaf pyramid) := .leaf pyramid
  ⟨by intro l h; simp only [pyramid, Option.some.injEq] at h; subst h; rfl, by intro h; cases h⟩
  ⟨by decide, by decide⟩

/-- An overview of an overview, dequantized, cropped and with selected channels. -/
def noWarpTree : Node :=
  .crop (mkDequant (mkOverview (mkOverview (.leaf pyramid) 1) 1) ⟨0, 1, 0, 255, none⟩) 0 2 1 3 (some [2, 0])

example : Built noWarpTree ∧ NoWarp noWarpTree ∧ noWarpTree.dsize = (2, 2) ∧
    ∃ m, opt Heur.code 40 noWarpTree = .ok m ∧ codesAre m [p! "b", p! "r"] := by
  refine ⟨.crop _ _ (some ((some 0, some 2), (some 1, none))) (some [2, 0])
      (.dequant _ ⟨0, 1, 0, 255, none⟩ (.overview _ 1 (.overview _ 1 pyramid_built))) ?_ ?_,
    ⟨by decide, by decide, trivial⟩, rfl, holds_ok (by decide +kernel)⟩
  · intro i hi
    simp only [List.mem_cons, List.not_mem_nil, or_false] at hi
    rcases hi with rfl | rfl <;> decide
  · have e : (mkDequant (mkOverview (mkOverview (.leaf pyramid) 1) 1) ⟨0, 1, 0, 255, none⟩ :
      Node).dsize = (3, 3) := by
      decide +kernel
    unfold mkCrop
    rw [e]
    rfl

variable {V : Type}

/-- The environment with other resampling. -/
def Env.moved (E : Env V) : Env V :=
  { E with warp := fun tf d _ i => i.carry tf d E.nan }

theorem Env.moved_ok {E : Env V} (h : ∀ q, E.deq q E.nan = E.nan) : (Env.moved E).Ok where
  turn := fun _ _ _ _ _ _ => Img.Same.refl _
  deq := h

mutual
theorem fin_flat (E : Env V) : ∀ n : Node, Flat n → fin (Env.moved E) n = fin E n
  | .leaf l, _ => rfl
  | .concat ps d, h => by rw [fin, fin, finL_flat E ps h]
  | .warp _ _ _ _, h => h.elim
  | .crop s _ _ _ _ _, h => by rw [fin, fin, fin_flat E s h]
  | .overview _ _ _, h => h.elim
  | .dequant s q d, h => by rw [fin, fin, fin_flat E s h]; rfl
theorem finL_flat (E : Env V) : ∀ ps : List Node, FlatL ps → finL (Env.moved E) ps = finL E ps
  | [], _ => rfl
  | p :: ps, h => by rw [finL, finL, fin_flat E p h.1, finL_flat E ps h.2]
end

/-- C36, arrays of crops, channel selections, dequantizations and concats of files in any order
(`Flat`): `finalize()`, which optimizes, and `finalize(optimize=False)` give the same array.  Missing:
warps and overviews. -/
theorem C36_arrays_flat_partial (H : Heur) (E : Env V) {n : Node} (hb : Built n) (hf : Flat n)
    (hm : Each E.Matches n) (hq : ∀ q, E.deq q E.nan = E.nan) (fuel : Nat) {m : Node}
    (h : opt H fuel n = .ok m) :
    ∃ i j, fin E n = .ok i ∧ finalize H E fuel n = .ok j ∧ i.Same j := by
  obtain ⟨hw, hfit⟩ := hb.ok
  have g := opt_good (deep := false) (exactRules H) (by simp) fuel n m ⟨hw, hfit, hf.noWarp⟩ h
  have g1 := opt_good (deep := false) (keepRules H (nameRules H) stable_flat) (by simp) fuel n m ⟨hw, hf⟩ h
  have g2 := opt_good (deep := false) (keepRules H (nameRules H) (stable_each (Env.moved E).Matches
    (fun _ _ _ h => by cases h))) (by simp) fuel n m ⟨hw, hm⟩ h
  obtain ⟨i, ei, hi⟩ := fin_den (Env.moved_ok hq) n hw hfit hf.pix hm
  obtain ⟨j, ej, hj⟩ := fin_den (Env.moved_ok hq) m g.inv.wf g.inv.fit g1.inv.2.pix g2.inv.2
  rw [fin_flat E n hf] at ei
  rw [fin_flat E m g1.inv.2] at ej
  exact ⟨i, j, ei, by rw [finalize, h]; exact ej, shows_same g.rel hi hj⟩

/-- Two parts of a concat, dequantized. -/
def flatTree : Node :=
  .crop (.dequant (.concat [.leaf pyramid, .crop (.leaf rgbLeaf) 0 4 0 5 none] (5, 4)) ⟨0, 1, 0, 255, none⟩ (5, 4))
    1 3 0 2 (some [4, 0])

example : Flat flatTree := ⟨trivial, trivial, trivial⟩

/-- C36, arrays with warps that mirror, turn by quarters or move by whole pixels: every pixel that is not NaN keeps its value, and the shape is
the same.  The optimized array may have data where the other has NaN (`thereAndBack` in C29).  Missing:
other warps. -/
theorem C36_arrays_moves_partial (H : Heur) (E : Env V) (hE : E.Ok) {n : Node} (hH : Sharp H n) (hb : Built n)
    (ho : NoOv n) (hp : Pix n) (hm : Each E.Matches n) (fuel : Nat) {m : Node} (h : opt H fuel n = .ok m) :
    ∃ i j, fin E n = .ok i ∧ finalize H E fuel n = .ok j ∧ i.h = j.h ∧ i.w = j.w ∧ i.n = j.n ∧
      ∀ y x k, y < i.h → x < i.w → k < i.n → i.px y x k ≠ E.nan → j.px y x k = i.px y x k := by
  obtain ⟨hw, hfit⟩ := hb.ok
  have g := opt_good (deep := false) (pixRules H) (by simp) fuel n m ⟨⟨hw, hfit, ho⟩, hp⟩ h
  have g1 := (hH.opt hw h).1
  have g2 := opt_good (deep := false) (keepRules H (nameRules H) (stable_each E.Matches
    (fun _ _ _ h => by cases h))) (by simp) fuel n m ⟨hw, hm⟩ h
  obtain ⟨i, ei, hi⟩ := fin_den hE n hw hfit hp hm
  obtain ⟨j, ej, hj⟩ := fin_den hE m g.inv.1.wf g.inv.1.fit g.inv.2 g2.inv.2
  obtain ⟨e1, e2, e3, e4⟩ := shows_sim g.rel.1 g1 hi hj
  exact ⟨i, j, ei, by rw [finalize, h]; exact ej, e1, e2, e3, e4⟩

/-- The transforms of the channels. -/
def tfsOf (n : Node) : List Affine := (den n).map (·.tf)

/-- A part of a channel of an image that is mirrored and turned by a quarter. -/
def turnTree : Node :=
  .crop (mkWarp (mkWarp (.leaf rgbLeaf) ⟨-1, 0, 5, 0, 1, 0⟩ (some (5, 4)) .default) ⟨0, -1, 4, 1, 0, 0⟩ (some (4, 5))
    .default) 1 4 0 3 (some [2])

theorem turnTree_ok : Built turnTree ∧ NoOv turnTree ∧ Pix turnTree ∧ Sharp Heur.code turnTree ∧
    ∃ m, opt Heur.code 40 turnTree = .ok m ∧
      decide (tfsOf m = [⟨0, -1, 4, -1, 0, 4⟩]) := by
  refine ⟨.crop _ _ (some ((some 1, some 4), (some 0, some 3))) (some [2])
      (.warp _ _ (some (4, 5)) _ (.warp _ _ (some (5, 4)) _ (.leaf rgbLeaf ⟨?_, by intro h; cases h⟩
        ⟨by decide, by decide⟩) (by decide +kernel) ⟨by decide, by decide⟩) (by decide +kernel)
        ⟨by decide, by decide⟩) ?_ rfl, .inl rfl, ⟨?_, by decide, ?_, by decide, trivial⟩,
    sharp_code (.inl rfl) ⟨rfl, rfl, trivial⟩, holds_ok (by decide +kernel)⟩
  · intro l h; simp only [rgbLeaf, Option.some.injEq] at h; subst h; rfl
  · intro i hi
    simp only [List.mem_cons, List.not_mem_nil, or_false] at hi
    subst hi; decide
  · exact ⟨.inr ⟨.inr rfl, .inl rfl, rfl, rfl⟩, ⟨4, rfl⟩, 0, rfl⟩
  · exact ⟨.inl ⟨.inr rfl, .inl rfl, rfl, rfl⟩, ⟨5, rfl⟩, 0, rfl⟩

/-- C36 fails for sizes: an image of one pixel becomes one of four. -/
theorem C36_size_violated :
    Built halfCrop ∧ halfCrop.dsize = (1, 1) ∧ ∃ m, opt Heur.code 40 halfCrop = .ok m ∧ m.dsize = (2, 2) := by
  refine ⟨?_, C45_finalize_shape_violated⟩
  refine .warp (.crop (.leaf pyramid) 1 3 1 3 none) (.scale (1 / 2)) none .default
    (.crop _ _ (some ((some 1, some 3), (some 1, some 3))) none pyramid_built trivial rfl) (by decide +kernel) ?_
  have e : halfCrop.dsize = (1, 1) := by decide +kernel
  rw [show mkWarp (.crop (.leaf pyramid) 1 3 1 3 none) (.scale (1 / 2)) none .default = halfCrop from rfl, e]
  exact ⟨by decide, by decide⟩

/-- Almost half the size. -/
def almostHalf : Node := mkWarp (.leaf pyramid) (.scale (1 / 2 - 1 / 10000000)) (some (5, 5)) .default

/-- C36 fails for transforms within the tolerance: scaling by 0.4999999 becomes scaling by 0.5, although
both show all of the image. -/
theorem C36_tolerance_violated :
    Built almostHalf ∧ tfsOf almostHalf = List.replicate 3 (.scale (4999999 / 10000000)) ∧
    ∃ m, opt Heur.code 40 almostHalf = .ok m ∧ tfsOf m = List.replicate 3 (.scale (1 / 2)) := by
  refine ⟨?_, by decide +kernel, ?_⟩
  · exact .warp _ _ (some (5, 5)) _ pyramid_built (by decide +kernel) ⟨by decide, by decide⟩
  · obtain ⟨m, h1, h2⟩ := holds_ok (x := opt Heur.code 40 almostHalf)
      (f := fun m => decide (tfsOf m = List.replicate 3 (.scale (1 / 2)))) (by decide +kernel)
    exact ⟨m, h1, by simpa using h2⟩

/-- A part of an image far out of the image. -/
def farOut : Node := .crop (mkWarp (.leaf pyramid) (.trans (-100) 0) (some (200, 10)) .default) 0 10 0 5 none

/-- C36 fails for the transforms of channels that show nothing. -/
theorem C36_empty_violated :
    Built farOut ∧ tfsOf farOut = List.replicate 3 (.trans (-100) 0) ∧
    ∃ m, opt Heur.code 40 farOut = .ok m ∧ tfsOf m = List.replicate 3 (.trans (-11) 0) := by
  refine ⟨?_, by decide +kernel, ?_⟩
  · exact .crop _ _ (some ((none, none), (none, some 5))) none
      (.warp _ _ (some (200, 10)) _ pyramid_built (by decide +kernel) ⟨by decide, by decide⟩) trivial rfl
  · obtain ⟨m, h1, h2⟩ := holds_ok (x := opt Heur.code 40 farOut)
      (f := fun m => decide (tfsOf m = List.replicate 3 (.trans (-11) 0))) (by decide +kernel)
    exact ⟨m, h1, by simpa using h2⟩

/-! ### C37 -/

/-- The operations on a path from the root to a leaf. -/
inductive Step where
  | warp (nearest : Bool)
  | dequant
  | crop (empty : Bool)
  | overview
  | concat
deriving DecidableEq

mutual
/-- The paths from the root to the leaves. -/
def paths : Node → List (List Step)
  | .leaf _ => [[]]
  | .concat ps _ => (pathsL ps).map (Step.concat :: ·)
  | .warp s _ _ a => (paths s).map (Step.warp (decide (a.interp = .nearest)) :: ·)
  | .crop s y0 y1 x0 x1 _ => (paths s).map (Step.crop (decide (x1 - x0 = 0 ∨ y1 - y0 = 0)) :: ·)
  | .overview s _ _ => (paths s).map (Step.overview :: ·)
  | .dequant s _ _ => (paths s).map (Step.dequant :: ·)
def pathsL : List Node → List (List Step)
  | [] => []
  | p :: ps => paths p ++ pathsL ps
end

/-- The order of the operations; concats have no place in it. -/
def Step.rank : Step → Nat
  | .warp _ => 1
  | .dequant => 2
  | .crop _ => 3
  | .overview => 4
  | .concat => 0

/-- The second step may be directly below the first one: it is later in the order warp, dequantize, crop,
overview, or it is a warp below a crop, if it interpolates with nearest or the crop is empty. -/
def Below : Step → Step → Prop
  | .crop e, .warp n => e = true ∨ n = true
  | a, b => a.rank < b.rank

/-- Concats, and below them operations in the right order. -/
def Tidy (p : List Step) : Prop :=
  ∃ k q, p = List.replicate k .concat ++ q ∧ Step.concat ∉ q ∧ q.IsChain Below

/-- A path without the exceptions. -/
def Regular (p : List Step) : Prop := Step.warp true ∉ p ∧ Step.crop true ∉ p

/-- The operations in order. -/
def order : List Step := [.warp false, .dequant, .crop false, .overview]

theorem order_sublist : ∀ (q : List Step) (a : Step), Step.concat ∉ a :: q → Regular (a :: q) →
    (a :: q).IsChain Below → List.Sublist (a :: q) (order.drop (a.rank - 1))
  | [], a, hc, hr, _ => by
    cases a with
    | warp n => cases n with
      | true => exact absurd (List.mem_cons_self ..) hr.1
      | false => decide
    | crop e => cases e with
      | true => exact absurd (List.mem_cons_self ..) hr.2
      | false => decide
    | dequant => decide
    | overview => decide
    | concat => exact absurd (List.mem_cons_self ..) hc
  | b :: q, a, hc, hr, h => by
    rw [List.isChain_cons_cons] at h
    have hr' : Regular (b :: q) := ⟨fun h => hr.1 (List.mem_cons_of_mem _ h), fun h => hr.2 (List.mem_cons_of_mem _ h)⟩
    have ih := order_sublist q b (fun h => hc (List.mem_cons_of_mem _ h)) hr' h.2
    have hlt : a.rank < b.rank := by
      have h1 := h.1
      unfold Below at h1
      split at h1
      · rename_i e n
        rcases h1 with rfl | rfl
        · exact absurd (List.mem_cons_self ..) hr.2
        · exact absurd (List.mem_cons_self ..) hr'.1
      · exact h1
    have hd : order.drop (a.rank - 1) = a :: order.drop a.rank := by
      cases a with
      | warp n => cases n with
        | true => exact absurd (List.mem_cons_self ..) hr.1
        | false => rfl
      | crop e => cases e with
        | true => exact absurd (List.mem_cons_self ..) hr.2
        | false => rfl
      | dequant => rfl
      | overview => rfl
      | concat => exact absurd (List.mem_cons_self ..) hc
    rw [hd]
    refine List.Sublist.cons_cons _ (ih.trans ?_)
    exact List.drop_sublist_drop_left _ (by omega)

/-- What a tidy path is without the exceptions: at most one warp, one dequantization, one crop and one
overview, in this order. -/
theorem Tidy.sublist {p : List Step} (h : Tidy p) (hr : Regular p) :
    ∃ k q, p = List.replicate k .concat ++ q ∧
      List.Sublist q [.warp false, .dequant, .crop false, .overview] := by
  obtain ⟨k, q, rfl, hc, hq⟩ := h
  refine ⟨k, q, rfl, ?_⟩
  have hr' : Regular q := ⟨fun h => hr.1 (by simp [h]), fun h => hr.2 (by simp [h])⟩
  cases q with
  | nil => simp
  | cons a q => exact (order_sublist q a hc hr' hq).trans (List.drop_sublist _ _)

/-- The first step of the paths. -/
def headOf : Node → Option Step
  | .leaf _ => none
  | .concat _ _ => some .concat
  | .warp _ _ _ a => some (.warp (decide (a.interp = .nearest)))
  | .crop _ y0 y1 x0 x1 _ => some (.crop (decide (x1 - x0 = 0 ∨ y1 - y0 = 0)))
  | .overview _ _ _ => some .overview
  | .dequant _ _ _ => some .dequant

theorem paths_head (n : Node) (p : List Step) (h : p ∈ paths n) : p.head? = headOf n := by
  cases n <;> simp only [paths, List.mem_map, List.mem_singleton] at h
  case leaf l => subst h; rfl
  all_goals
    obtain ⟨q, _, rfl⟩ := h
    rfl

theorem head_underWarp {s : Node} (h : underWarp s) (n : Bool) :
    headOf s ≠ some .concat ∧ ∀ b, headOf s = some b → Below (.warp n) b := by
  cases s
  all_goals first | exact h.elim | (refine ⟨by rintro ⟨⟩, ?_⟩; rintro b ⟨⟩)
  all_goals simp only [Below, Step.rank]; decide

theorem head_isLOC {s : Node} (h : isLOC s) :
    headOf s ≠ some .concat ∧ ∀ b, headOf s = some b → Below .dequant b := by
  cases s
  all_goals first | exact h.elim | (refine ⟨by rintro ⟨⟩, ?_⟩; rintro b ⟨⟩)
  all_goals simp only [Below, Step.rank]; decide

theorem head_underCrop {s : Node} {w h : Int} (hu : underCrop w h s) :
    headOf s ≠ some .concat ∧ ∀ b, headOf s = some b → Below (.crop (decide (w = 0 ∨ h = 0))) b := by
  cases s with
  | leaf l => exact ⟨by rintro ⟨⟩, by rintro b ⟨⟩⟩
  | overview s k d => exact ⟨by rintro ⟨⟩, by rintro b ⟨⟩; simp only [Below, Step.rank]; decide⟩
  | warp s tf d a =>
    refine ⟨by rintro ⟨⟩, ?_⟩
    rintro b ⟨⟩
    rcases hu with h1 | h1
    · exact .inr (by simpa using h1)
    · exact .inl (by simpa using h1)
  | concat _ _ => exact hu.elim
  | crop _ _ _ _ _ _ => exact hu.elim
  | dequant _ _ _ => exact hu.elim

/-- Results below concats. -/
theorem nf_chain {H : Heur} {deep : Bool} : ∀ n : Node, NF H deep n → headOf n ≠ some .concat → ∀ p ∈ paths n,
    Step.concat ∉ p ∧ p.IsChain Below := by
  have step : ∀ (st : Step) (s : Node), st ≠ .concat →
      (∀ p ∈ paths s, Step.concat ∉ p ∧ p.IsChain Below) → (∀ b, headOf s = some b → Below st b) →
      ∀ p ∈ (paths s).map (st :: ·), Step.concat ∉ p ∧ p.IsChain Below := by
    intro st s hst ih hb p hp
    obtain ⟨q, hq, rfl⟩ := List.mem_map.1 hp
    obtain ⟨h1, h2⟩ := ih q hq
    refine ⟨by simp only [List.mem_cons, not_or]; exact ⟨hst.symm, h1⟩, ?_⟩
    have hh := paths_head s q hq
    cases q with
    | nil => exact List.IsChain.singleton _
    | cons b q => exact List.isChain_cons_cons.2 ⟨hb b hh.symm, h2⟩
  intro n
  induction n using Node.rec (motive_2 := fun _ => True) with
  | leaf l => intro _ _ p hp; simp only [paths, List.mem_singleton] at hp; subst hp; exact ⟨by simp, .nil⟩
  | concat ps d _ => intro _ h; exact absurd rfl h
  | warp s tf d a ih =>
    intro h _
    rw [NF] at h
    rw [paths]
    have := head_underWarp h.2.1 (decide (a.interp = .nearest))
    exact step _ s (by rintro ⟨⟩) (ih h.1 this.1) this.2
  | crop s y0 y1 x0 x1 c ih =>
    intro h _
    rw [NF] at h
    rw [paths]
    have := head_underCrop h.2
    exact step _ s (by rintro ⟨⟩) (ih h.1 this.1) this.2
  | overview s k d ih =>
    intro h _
    rw [NF] at h
    rw [paths]
    have h2 := h.2.2
    refine step _ s (by rintro ⟨⟩) (ih h.1 ?_) ?_ <;> cases s <;> first | exact h2.elim | rintro _ ⟨⟩ | rintro ⟨⟩
  | dequant s q d ih =>
    intro h _
    rw [NF] at h
    rw [paths]
    have := head_isLOC h.2
    exact step _ s (by rintro ⟨⟩) (ih h.1 this.1) this.2
  | nil => trivial
  | cons _ _ _ _ => trivial

mutual
theorem nf_tidy {H : Heur} : ∀ n : Node, NF H true n → ∀ p ∈ paths n, Tidy p
  | .concat ps d, h, p, hp => by
    rw [paths] at hp
    obtain ⟨q, hq, rfl⟩ := List.mem_map.1 hp
    rw [NF] at h
    obtain ⟨k, r, rfl, h1, h2⟩ := nfL_tidy ps (h rfl) q hq
    exact ⟨k + 1, r, rfl, h1, h2⟩
  | .leaf l, h, p, hp => ⟨0, p, rfl, nf_chain _ h (by simp [headOf]) p hp⟩
  | .warp .., h, p, hp => ⟨0, p, rfl, nf_chain _ h (by simp [headOf]) p hp⟩
  | .crop .., h, p, hp => ⟨0, p, rfl, nf_chain _ h (by simp [headOf]) p hp⟩
  | .overview .., h, p, hp => ⟨0, p, rfl, nf_chain _ h (by simp [headOf]) p hp⟩
  | .dequant .., h, p, hp => ⟨0, p, rfl, nf_chain _ h (by simp [headOf]) p hp⟩
theorem nfL_tidy {H : Heur} : ∀ ps : List Node, NFL H true ps → ∀ p ∈ pathsL ps, Tidy p
  | [], _, p, hp => by simp [pathsL] at hp
  | n :: ns, h, p, hp => by
    rw [pathsL, List.mem_append] at hp
    rcases hp with hp | hp
    · exact nf_tidy n h.1 p hp
    · exact nfL_tidy ns h.2 p hp
end

/-- C37, normal form of images without overviews: on every path of the result there are concats and
below them operations in the order warp, dequantize, crop, overview; so at most one of each without
nearest warps and empty crops.  Missing: images with overviews, see the next theorem and
`C37_normal_form_violated`. -/
theorem C37_normal_form_partial (H : Heur) {n : Node} (hb : Built n) (ho : NoOv n) (fuel : Nat) {m : Node}
    (h : opt H fuel n = .ok m) (p : List Step) (hp : p ∈ paths m) : Tidy p :=
  nf_tidy m (opt_good (sizeRules H) (fun _ _ _ h => h.1) fuel n m ⟨hb.ok.1, hb.ok.2, ho⟩ h).nf p hp

/-- C37, normal form of all images, with overviews, if the result is not a concat.  Missing: concats. -/
theorem C37_normal_form_single_partial (H : Heur) {n : Node} (hb : Built n) (fuel : Nat) {m : Node}
    (h : opt H fuel n = .ok m) (hm : headOf m ≠ some .concat) (p : List Step) (hp : p ∈ paths m) : Tidy p :=
  ⟨0, p, rfl, nf_chain m (opt_good (deep := false) (nameRules H) (by simp) fuel n m hb.ok.1 h).nf hm p hp⟩

/-- A warp of a warp. -/
def twice : Node := mkWarp (mkWarp (.leaf pyramid) (.trans 1 0) (some (1, 1)) .default) (.trans 1 0) (some (1, 1)) .default

/-- Next to an image that changes its size. -/
def stuck : Node := .concat [halfCrop, twice] (1, 1)

/-- C37 fails for concats with overviews: if an optimized part has another size, the concat stays as it
is, with two warps on a path. -/
theorem C37_normal_form_violated :
    Built stuck ∧ ∃ m, opt Heur.code 40 stuck = .ok m ∧
      [Step.concat, Step.warp false, Step.warp false] ∈ paths m ∧
      ¬ Tidy [Step.concat, Step.warp false, Step.warp false] := by
  refine ⟨?_, ?_⟩
  · refine .concat [halfCrop, twice] _ ?_ ?_
    · intro p hp
      simp only [List.mem_cons, List.not_mem_nil, or_false] at hp
      rcases hp with rfl | rfl
      · exact C36_size_violated.1
      · exact .warp _ _ (some (1, 1)) _ (.warp _ _ (some (1, 1)) _ pyramid_built (by decide +kernel)
          ⟨by decide, by decide⟩) (by decide +kernel) ⟨by decide, by decide⟩
    · have e : halfCrop.dsize = (1, 1) := by decide +kernel
      simp only [mkConcat, e, List.all_cons, List.all_nil]
      rfl
  · obtain ⟨m, h1, h2⟩ := holds_ok (x := opt Heur.code 40 stuck)
      (f := fun m => decide ([Step.concat, Step.warp false, Step.warp false] ∈ paths m)) (by decide +kernel)
    refine ⟨m, h1, by simpa using h2, ?_⟩
    rintro ⟨k, q, e, hc, hq⟩
    match k, e with
    | 0, e => simp only [List.replicate_zero, List.nil_append] at e; subst e; simp at hc
    | 1, e =>
      simp only [List.replicate_one, List.cons_append, List.nil_append, List.cons.injEq, true_and] at e
      subst e
      simp [List.isChain_cons_cons, Below, Step.rank] at hq
    | k + 2, e => simp [List.replicate_succ] at e

/-- C37, the end of `optimize` and its independence of the stack: there is a result, an image or one of
the exceptions that the code raises, that is reached by all large enough stacks.  `Calm True 0 0` are
the images without overviews, with any invertible warps, and the images with pyramids that are at least as
deep as all warps and overviews above them shrink, and only scaled along the axes.  Missing: rotated
warps and too many overviews of images that have overviews. -/
theorem C37_terminates_partial {n : Node} (hb : Built n) (hc : Calm True 0 0 n) :
    ∃! r : Py Node, r ≠ .error .recursion ∧ ∃ F, ∀ f, F ≤ f → opt Heur.code f n = r := by
  obtain ⟨r, h⟩ := tame_ends Heur.code Heur.code_coded ⟨hb.ok.1, hc⟩
  exact ⟨r, h, fun r' h' => Ends.det h' h⟩

/-- C37, the stack: a result found with some stack is found with every larger one, for all images. -/
theorem C37_stack (H : Heur) (n : Node) {f g : Nat} (hfg : f ≤ g) {r : Py Node} (h : opt H f n = r)
    (hr : r ≠ .error .recursion) : opt H g n = r := by
  rw [opt_extends f g hfg n (by rw [h]; exact hr), h]

example : ∃ m, opt Heur.code 40 stuck = .ok m ∧ ∀ g, 40 ≤ g → opt Heur.code g stuck = .ok m := by
  obtain ⟨m, h, _⟩ := C37_normal_form_violated.2
  exact ⟨m, h, fun g hg => C37_stack _ _ hg h (by simp)⟩

mutual
theorem noOv_calm : ∀ n : Node, NoOv n → ∀ (D : Prop) (j : Int), Calm D 0 j n
  | .leaf l, h, D, j => by
    rw [NoOv] at h
    rw [Calm]
    rcases h with h | h
    · exact .inl h
    · exact .inr (.inl ⟨rfl, h⟩)
  | .concat ps _, h, D, j => by rw [Calm]; exact noOv_calmL ps h D j
  | .warp s tf _ _, h, D, j => by rw [Calm]; exact noOv_calm s h _ _
  | .crop s _ _ _ _ _, h, D, j => by rw [Calm]; exact noOv_calm s h _ _
  | .overview _ _ _, h, _, _ => h.elim
  | .dequant s _ _, h, D, j => by rw [Calm]; exact noOv_calm s h _ _
theorem noOv_calmL : ∀ ps : List Node, NoOvL ps → ∀ (D : Prop) (j : Int), CalmL D 0 j ps
  | [], _, _, _ => trivial
  | p :: ps, h, D, j => ⟨noOv_calm p h.1 D j, noOv_calmL ps h.2 D j⟩
end

/-- C37 for all images without overviews: the end and the normal form. -/
theorem C37_no_overviews_partial {n : Node} (hb : Built n) (ho : NoOv n) :
    ∃ r : Py Node, r ≠ .error .recursion ∧ (∃ F, ∀ f, F ≤ f → opt Heur.code f n = r) ∧
      ∀ m, r = .ok m → ∀ p ∈ paths m, Tidy p := by
  obtain ⟨r, h, F, hF⟩ := tame_ends Heur.code Heur.code_coded ⟨hb.ok.1, noOv_calm n ho True 0⟩
  refine ⟨r, h, ⟨F, hF⟩, ?_⟩
  rintro m rfl p hp
  exact C37_normal_form_partial Heur.code hb ho F (hF F (le_refl _)) p hp

/-- An overview of a part of a scaled image with overviews, next to a turned image without. -/
example : Calm True 0 0 (.concat [.overview (.crop (.warp (.leaf pyramid) (.scale (1 / 2)) (5, 5) .default) 0 4 0 4
    none) 1 (2, 2), .warp (.leaf { pyramid with overviews := none }) ⟨0, -1, 2, 1, 0, 0⟩ (2, 2) .default] (2, 2)) := by
  have h : shrink (.scale (1 / 2)) ≤ 2 := by decide +kernel
  refine ⟨⟨by decide, .inr (.inr ⟨⟨trivial, ?_⟩, ?_⟩)⟩, .inl rfl, trivial⟩
  · exact ⟨rfl, rfl, by norm_num [Affine.scale], by norm_num [Affine.scale]⟩
  · rintro o ⟨⟩
    omega

end Verif.Props
