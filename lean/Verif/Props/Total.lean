/-
C55: which images `optimize` refuses.
-/
import Verif.Total
import Verif.Props.Fix

namespace Verif.Props

open Tree Helpers Node

/-! ### C55 -/

/-- C55 for images without overviews, with codes for all channels, without empty selections of channels
and with at most one dequantization on each path: `optimize` returns an image, without an exception, with
every stack that is large enough.  Missing: the other images, where it raises several exceptions
(`C55_unknown_overviews_violated`, `C55_overview_of_concat_violated`, `C55_empty_part_violated`,
`C55_two_dequantizations_violated`, `C55_unnamed_violated`, `C55_no_channels_violated`). -/
theorem C55_no_exception_partial {n : Node} (hb : Built n) (ho : NoOv n) (hf : Fair n) (hd : deqs n ≤ 1) :
    ∃ m F, ∀ f, F ≤ f → opt Heur.code f n = .ok m := by
  obtain ⟨r, hr, F, hF⟩ := tame_ends Heur.code Heur.code_coded ⟨hb.ok.1, noOv_calm n ho True 0⟩
  cases r with
  | ok m => exact ⟨m, F, hF⟩
  | error e =>
    have := opt_raises Heur.code F n e ⟨⟨hb.ok.1, hb.ok.2, ho⟩, hf⟩ hd (hF F (le_refl _))
    exact absurd (by rw [this]) hr

/-- C55 with any tolerances and any stack: an image of the same kind is returned, or the stack is too
small. -/
theorem C55_same_result_partial (H : Heur) {n : Node} (hb : Built n) (ho : NoOv n) (hf : Fair n) (hd : deqs n ≤ 1)
    (fuel : Nat) : (∃ m, opt H fuel n = .ok m ∧ NoOv m ∧ Fair m ∧ deqs m ≤ 1) ∨
      opt H fuel n = .error .recursion := by
  have hs : Sane n := ⟨⟨hb.ok.1, hb.ok.2, ho⟩, hf⟩
  cases h : opt H fuel n with
  | ok m =>
    have g := opt_good (deep := false) (saneRules H) (by simp) fuel n m hs h
    exact .inl ⟨m, rfl, g.inv.plain.noOv, g.inv.fair, g.rel.deq.trans hd⟩
  | error e => exact .inr (by rw [opt_raises H fuel n e hs hd h])

/-- Quantized values of a picture turned and placed next to another, two channels of them on a part. -/
def plainParts : Node := .crop (.concat [mkWarp (mkDequant (.leaf { pyramid with overviews := none }) ⟨0, 1, 0, 255, none⟩)
  ⟨0, -1, 9, 1, 0, 0⟩ (some (10, 10)) .default, .leaf { pyramid with overviews := none, id := 2 }] (10, 10))
  1 5 2 6 (some [4, 0])

theorem picture_built (o : Option Int) (i : Nat) : Built (.leaf { pyramid with overviews := o, id := i }) :=
  .leaf _ ⟨by intro k h; cases h; rfl, by intro h; cases h⟩
    (show Nonneg (10, 10) from ⟨by decide, by decide⟩)

example : Built plainParts ∧ NoOv plainParts ∧ Fair plainParts ∧ deqs plainParts = 1 := by
  refine ⟨?_, ⟨.inl rfl, .inl rfl, trivial⟩, ⟨⟨.inr rfl, .inr rfl, trivial⟩, by simp⟩, rfl⟩
  refine .crop _ _ (some ((some 1, some 5), (some 2, some 6))) (some [4, 0]) (.concat
    [mkWarp (mkDequant (.leaf { pyramid with overviews := none }) ⟨0, 1, 0, 255, none⟩)
      ⟨0, -1, 9, 1, 0, 0⟩ (some (10, 10)) .default, .leaf { pyramid with overviews := none, id := 2 }] _ ?_ rfl) ?_ rfl
  · intro p hp
    simp only [List.mem_cons, List.not_mem_nil, or_false] at hp
    rcases hp with rfl | rfl
    · exact .warp _ _ (some (10, 10)) _ (.dequant _ _ (picture_built none 1)) (by decide +kernel)
        ⟨by decide, by decide⟩
    · exact picture_built none 2
  · intro i hi
    simp only [List.mem_cons, List.not_mem_nil, or_false] at hi
    rcases hi with rfl | rfl <;> decide

/-- An exception that is raised with one stack is raised with all larger ones. -/
theorem always {f : Nat} {n : Node} {e : PyErr} (he : e ≠ .recursion) (h : raises (opt Heur.code f n) e = true) :
    ∀ g, f ≤ g → opt Heur.code g n = .error e := fun g hg => by
  have := raises_iff h
  rw [opt_extends f g hg n (by rw [this]; simpa using he), this]

/-- `data.get_overview(1).scale(2)`, where the number of overviews is not known. -/
def unknownView : Node := mkWarp (mkOverview (.leaf { pyramid with overviews := none }) 1) (.scale 2) none .default

/-- C55 fails: enlarging an overview of an image that does not know its number of overviews raises
TypeError. -/
theorem C55_unknown_overviews_violated :
    Built unknownView ∧ ∀ f, 40 ≤ f → opt Heur.code f unknownView = .error .typeError :=
  ⟨.warp _ _ none _ (.overview _ 1 (picture_built none 1)) (by decide +kernel) ⟨by decide +kernel, by decide +kernel⟩,
    always (by decide) (by decide +kernel)⟩

/-- The overview 0 of two pictures side by side. -/
def firstView : Node := mkOverview (.concat [.leaf pyramid, .leaf pyramid] (10, 10)) 0

/-- C55 fails: the overview 0 of a concat raises AttributeError. -/
theorem C55_overview_of_concat_violated :
    Built firstView ∧ ∀ f, 40 ≤ f → opt Heur.code f firstView = .error .attributeError := by
  refine ⟨.overview _ 0 (.concat [.leaf pyramid, .leaf pyramid] _ ?_ rfl), always (by decide) (by decide +kernel)⟩
  intro p hp
  simp only [List.mem_cons, List.not_mem_nil, or_false, or_self] at hp
  rw [hp]; exact pyramid_built

/-- An empty part of an overview, enlarged. -/
def emptyPart : Node := mkWarp (.crop (.overview (.leaf pyramid) 1 (5, 5)) 0 0 0 0 none) (.scale 3) none .default

/-- C55 fails: an enlarged empty part of an overview raises KeyError. -/
theorem C55_empty_part_violated :
    Built emptyPart ∧ ∀ f, 40 ≤ f → opt Heur.code f emptyPart = .error .keyError := by
  have e : (mkOverview (.leaf pyramid) 1 : Node) = .overview (.leaf pyramid) 1 (5, 5) := by
    have h : ovSize 1 10 = 5 := by decide +kernel
    show (Node.overview _ _ (ovSize 1 10, ovSize 1 10) : Node) = _
    rw [h]
  refine ⟨.warp _ _ none _ (.crop (.overview (.leaf pyramid) 1 (5, 5)) _ (some ((some 0, some 0), (some 0, some 0))) none
    (e ▸ .overview _ 1 pyramid_built) trivial rfl) (by decide +kernel) ⟨by decide +kernel, by decide +kernel⟩,
    always (by decide) (by decide +kernel)⟩

/-- Dequantized twice, with a warp in between. -/
def twiceDequantized : Node := mkDequant (mkWarp (mkDequant (.leaf { pyramid with overviews := none })
  ⟨0, 1, 0, 255, none⟩) (.scale 2) none .default) ⟨0, 1, 0, 255, none⟩

/-- C55 fails: dequantizing a dequantized image raises AssertionError, also without overviews and with codes
for all channels. -/
theorem C55_two_dequantizations_violated :
    Built twiceDequantized ∧ NoOv twiceDequantized ∧ Fair twiceDequantized ∧
      ∀ f, 40 ≤ f → opt Heur.code f twiceDequantized = .error .assertionError :=
  ⟨.dequant _ _ (.warp _ _ none _ (.dequant _ _ (picture_built none 1)) (by decide +kernel)
    ⟨by decide +kernel, by decide +kernel⟩), .inl rfl, .inr rfl, always (by decide) (by decide +kernel)⟩

/-- A channel of the first part of a concat whose second part has no codes. -/
def halfNamed : Node := .crop (.concat [.leaf { pyramid with overviews := none },
  .leaf { pyramid with overviews := none, names := none, id := 2 }] (10, 10)) 0 10 0 10 (some [1])

/-- C55 fails: the channels of a concat cannot be selected by number if some part has no codes, even if the
selected channel has one: AssertionError. -/
theorem C55_unnamed_violated :
    Built halfNamed ∧ NoOv halfNamed ∧ deqs halfNamed = 0 ∧
      ∀ f, 40 ≤ f → opt Heur.code f halfNamed = .error .assertionError := by
  refine ⟨.crop _ _ (some ((some 0, some 10), (some 0, some 10))) (some [1]) (.concat
    [.leaf { pyramid with overviews := none }, .leaf { pyramid with overviews := none, names := none, id := 2 }]
    _ ?_ rfl) ?_ rfl, ⟨.inl rfl, .inl rfl, trivial⟩, rfl, always (by decide) (by decide +kernel)⟩
  · intro p hp
    simp only [List.mem_cons, List.not_mem_nil, or_false] at hp
    rcases hp with rfl | rfl
    · exact picture_built none 1
    · exact .leaf _ ⟨(by intro k h; cases h), (by intro h; cases h)⟩ ⟨by decide, by decide⟩
  · intro i hi
    simp only [List.mem_cons, List.not_mem_nil, or_false] at hi
    rw [hi]; decide

/-- No channels of two pictures side by side. -/
def noChannels : Node := .crop (.concat [.leaf { pyramid with overviews := none },
  .leaf { pyramid with overviews := none, id := 2 }] (10, 10)) 0 10 0 10 (some [])

/-- C55 fails: no channels of a concat (`data.crop(None, [])`) raises an exception, while no channels of
each part does not. -/
theorem C55_no_channels_violated :
    Built noChannels ∧ NoOv noChannels ∧ (∀ f, 40 ≤ f → opt Heur.code f noChannels = .error .generic) ∧
      ∃ m, ∀ f, 40 ≤ f → opt Heur.code f (.crop (.leaf { pyramid with overviews := none }) 0 10 0 10 (some []) : Node) =
        .ok m := by
  refine ⟨.crop _ _ (some ((some 0, some 10), (some 0, some 10))) (some []) (.concat
    [.leaf { pyramid with overviews := none }, .leaf { pyramid with overviews := none, id := 2 }]
    _ ?_ rfl) ?_ rfl, ⟨.inl rfl, .inl rfl, trivial⟩, always (by decide) (by decide +kernel), ?_⟩
  · intro p hp
    simp only [List.mem_cons, List.not_mem_nil, or_false] at hp
    rcases hp with rfl | rfl
    · exact picture_built none 1
    · exact picture_built none 2
  · intro i hi; cases hi
  · obtain ⟨m, h1, _⟩ := holds_ok (x := opt Heur.code 40 (.crop (.leaf { pyramid with overviews := none }) 0 10 0 10
      (some []) : Node)) (f := fun _ => true) (by decide +kernel)
    exact ⟨m, enough h1⟩

end Verif.Props
