/-
C54: optimizing an optimized image.
-/
import Verif.Fix
import Verif.Props.Opt

namespace Verif.Props

open Tree Helpers Node

/-! ### C54 -/

/-- C54 for images without overviews: `optimize` returns what it returned before, with every stack that is
large enough, whatever its tolerances are.  Missing: images with overviews
(`C54_overviews_violated`, `C54_raises_violated`). -/
theorem C54_idempotent_partial (H : Heur) {n : Node} (hb : Built n) (ho : NoOv n) (fuel : Nat) {m : Node}
    (h : opt H fuel n = .ok m) : ∃ F, ∀ f, F ≤ f → opt H f m = .ok m := by
  have hp : Plain n := ⟨hb.ok.1, hb.ok.2, ho⟩
  have g := opt_good (deep := false) (sizeRules H) (by simp) fuel n m hp h
  exact ⟨deepness m, fun f hf => done_opt f m g.inv.noOv (opt_done fuel n m hp h) hf⟩

/-- C54: an image without overviews has one optimized form, and it is its own optimized form. -/
theorem C54_fixed_form_partial {n : Node} (hb : Built n) (ho : NoOv n) :
    ∃ r : Py Node, r ≠ .error .recursion ∧ ∃ F, ∀ f, F ≤ f → opt Heur.code f n = r ∧
      ∀ m, r = .ok m → opt Heur.code f m = .ok m := by
  obtain ⟨r, hr, F, hF⟩ := tame_ends Heur.code Heur.code_coded ⟨hb.ok.1, noOv_calm n ho True 0⟩
  cases r with
  | error e => exact ⟨_, hr, F, fun f hf => ⟨hF f hf, by rintro m ⟨⟩⟩⟩
  | ok m =>
    obtain ⟨G, hG⟩ := C54_idempotent_partial Heur.code hb ho F (hF F (le_refl _))
    refine ⟨_, hr, max F G, fun f hf => ⟨hF f ((le_max_left _ _).trans hf), ?_⟩⟩
    rintro m' ⟨⟩
    exact hG f ((le_max_right _ _).trans hf)

/-- The colors of a picture next to those of the picture turned and moved. -/
def turnedParts : Node := .concat [mkWarp (mkWarp (.leaf { pyramid with overviews := none })
  ⟨0, -1, 9, 1, 0, 0⟩ (some (10, 10)) .default) (.trans 1 0) (some (10, 10)) .default,
  .leaf { pyramid with overviews := none, id := 2 }] (10, 10)

theorem turnedParts_built : Built turnedParts := by
  have hl : ∀ l : Leaf, l.names = pyramid.names → l.nchan = 3 → l.nan = false → l.dsize = (10, 10) →
      Built (.leaf l) := fun l h1 h2 h3 h4 => .leaf l
    ⟨by intro k h; rw [h1] at h; cases h; rw [h2]; rfl, by rw [h3]; intro h; cases h⟩
    (by rw [h4]; exact ⟨by decide, by decide⟩)
  refine .concat [mkWarp (mkWarp (.leaf { pyramid with overviews := none })
    ⟨0, -1, 9, 1, 0, 0⟩ (some (10, 10)) .default) (.trans 1 0) (some (10, 10)) .default,
    .leaf { pyramid with overviews := none, id := 2 }] _ ?_ rfl
  intro p hp
  simp only [List.mem_cons, List.not_mem_nil, or_false] at hp
  rcases hp with rfl | rfl
  · exact .warp _ _ (some (10, 10)) _ (.warp _ _ (some (10, 10)) _ (hl _ rfl rfl rfl rfl) (by decide +kernel)
      ⟨by decide, by decide⟩) (by decide +kernel) ⟨by decide, by decide⟩
  · exact hl _ rfl rfl rfl rfl

/-- Two of its channels on a part of the area: `optimize` takes the concat apart and joins the warps. -/
def cutParts : Node := .crop turnedParts 1 5 2 6 (some [4, 0])

theorem cutParts_built : Built cutParts := by
  refine .crop turnedParts _ (some ((some 1, some 5), (some 2, some 6))) (some [4, 0]) turnedParts_built ?_ rfl
  intro i hi
  simp only [List.mem_cons, List.not_mem_nil, or_false] at hi
  rcases hi with rfl | rfl <;> decide

example : Built cutParts ∧ NoOv cutParts ∧ ∃ m, opt Heur.code 40 cutParts = .ok m ∧ paths m ≠ paths cutParts := by
  refine ⟨cutParts_built, ⟨.inl rfl, .inl rfl, trivial⟩, ?_⟩
  obtain ⟨m, h1, h2⟩ := holds_ok (x := opt Heur.code 40 cutParts)
    (f := fun m => decide (paths m ≠ paths cutParts)) (by decide +kernel)
  exact ⟨m, h1, by simpa using h2⟩

/-- A picture with three overviews, enlarged after taking the third. -/
def deepView : Node := mkWarp (mkOverview (.leaf pyramid) 3) (.scale 2) none .default

theorem enough {f : Nat} {n m : Node} (h : opt Heur.code f n = .ok m) : ∀ g, f ≤ g → opt Heur.code g n = .ok m :=
  fun g hg => by rw [opt_extends f g hg n (by rw [h]; simp), h]

/-- C54 fails with overviews: optimizing `data.get_overview(3).scale(2)` gives a warp of the full picture
by a quarter, and optimizing that gives a warp of a crop of its second overview. -/
theorem C54_overviews_violated :
    Built deepView ∧ ∃ m m', (∀ f, 40 ≤ f → opt Heur.code f deepView = .ok m) ∧
      (∀ f, 40 ≤ f → opt Heur.code f m = .ok m') ∧
      paths m = [[Step.warp false]] ∧ paths m' = [[Step.warp false, Step.crop false, Step.overview]] := by
  refine ⟨.warp _ _ none _ (.overview _ 3 pyramid_built) (by decide +kernel) ?_, ?_⟩
  · exact ⟨by decide +kernel, by decide +kernel⟩
  obtain ⟨m, h1, h2⟩ := holds_ok (x := opt Heur.code 40 deepView)
    (f := fun m => decide (paths m = [[Step.warp false]]) &&
      holds (opt Heur.code 40 m) (fun m' => decide (paths m' = [[Step.warp false, Step.crop false, Step.overview]])))
    (by decide +kernel)
  simp only [Bool.and_eq_true, decide_eq_true_eq] at h2
  obtain ⟨m', h5, h6⟩ := holds_ok h2.2
  simp only [decide_eq_true_eq] at h6
  exact ⟨m, m', enough h1, enough h5, h2.1, h6⟩

/-- An empty part of such a picture, enlarged. -/
def emptyView : Node := mkWarp (.crop (mkWarp (mkOverview (.leaf pyramid) 3) (.scale 2) (some (3, 3)) .default)
  0 0 0 0 none) (.scale 3) none .default

theorem emptyView_built : Built emptyView := by
  refine .warp _ _ none _ (.crop (mkWarp (mkOverview (.leaf pyramid) 3) (.scale 2) (some (3, 3)) .default) _
    (some ((some 0, some 0), (some 0, some 0))) none ?_ ?_ rfl) (by decide +kernel)
    ⟨by decide +kernel, by decide +kernel⟩
  · exact .warp _ _ (some (3, 3)) _ (.overview _ 3 pyramid_built) (by decide +kernel) ⟨by decide, by decide⟩
  · trivial

/-- Whether an exception is raised. -/
def raises {α : Type} (x : Py α) (e : PyErr) : Bool :=
  match x with
  | .ok _ => false
  | .error e' => decide (e' = e)

theorem raises_iff {α : Type} {x : Py α} {e : PyErr} (h : raises x e = true) : x = .error e := by
  cases x with
  | ok a => cases h
  | error e' => simp only [raises, decide_eq_true_eq] at h; rw [h]

/-- C54 fails with overviews in another way: the image is optimized without an error, but optimizing the
result raises KeyError. -/
theorem C54_raises_violated :
    Built emptyView ∧ ∃ m, (∀ f, 40 ≤ f → opt Heur.code f emptyView = .ok m) ∧
      (∀ f, 40 ≤ f → opt Heur.code f m = .error .keyError) := by
  refine ⟨emptyView_built, ?_⟩
  obtain ⟨m, h1, h2⟩ := holds_ok (x := opt Heur.code 40 emptyView)
    (f := fun m => raises (opt Heur.code 40 m) .keyError) (by decide +kernel)
  refine ⟨m, enough h1, fun f hf => ?_⟩
  have e := raises_iff h2
  rw [opt_extends 40 f hf m (by rw [e]; simp), e]

end Verif.Props
