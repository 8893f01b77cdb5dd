/-
C83 with overviews: optimizing images in advance makes no difference where crops start on pixels of the overviews taken
after them.
-/
import Verif.Props.Lasting
import Verif.Props.Snug
import Verif.Props.Early

namespace Verif
namespace Props

open Tree Tree.Node Helpers

/-- C83 with overviews: if crops start on pixels of the overviews taken after them and there are no warps (`Paced`), then
the image made of optimized parts can be built, is such an image again, announces the same size and channels, and
shows everything that is shown otherwise, from the same places.  Missing: other images with overviews, see
`C83_overviews_violated`. -/
theorem C83_paced_partial {H : Heur} (hH : H.closeOff 0 0 = true) {n m : Node} (h : Early H n m) (hb : Built n)
    (hn : Paced 0 n) : Built m ∧ Paced 0 m ∧ m.dsize = n.dsize ∧ m.channels = n.channels ∧ m.nchan = n.nchan ∧
    ∀ {V : Type} (img : Nat → Nat → ℚ × ℚ → V) (deq : Quantization → V → V) (i : Nat) (p : ℚ × ℚ) (v : V),
      ((den n).getD i Chan.none).value img deq p = some v → ((den m).getD i Chan.none).value img deq p = some v := by
  obtain ⟨g1, g2⟩ := early_good (pacedRules H hH) h ⟨hb.ok.1, hb.ok.2, hn⟩
  exact ⟨built_of _ g1.wf g1.fit, g1.steps, g2.dsize, g2.fwd.channels, g2.fwd.nchan, fun img deq i p v hv =>
    (forall₂_getD g2.fwd.den i).value img deq p v hv⟩

/-- C83 with overviews: if in addition crops end on such pixels or at the border (`Snug`), then exactly the same is
shown. -/
theorem C83_snug_partial {H : Heur} (hH : H.closeOff 0 0 = true) {n m : Node} (h : Early H n m) (hb : Built n)
    (hn : Paced 0 n) (he : Snug 0 n) : Paced 0 m ∧ Snug 0 m ∧
    ∀ {V : Type} (img : Nat → Nat → ℚ × ℚ → V) (deq : Quantization → V → V) (i : Nat) (p : ℚ × ℚ),
      ((den m).getD i Chan.none).value img deq p = ((den n).getD i Chan.none).value img deq p := by
  obtain ⟨g1, g2⟩ := early_good (snugRules H hH) h ⟨⟨hb.ok.1, hb.ok.2, hn⟩, he⟩
  refine ⟨g1.steps, g1.ends, ?_⟩
  intro V img deq i p
  have l1 := forall₂_getD g2.fwd.den i
  have l2 := forall₂_getD g2.bwd.den i
  cases hv : ((den n).getD i Chan.none).value img deq p with
  | some v => exact l1.value img deq p v hv
  | none =>
    cases hv' : ((den m).getD i Chan.none).value img deq p with
    | none => rfl
    | some v => rw [l2.value img deq p v hv'] at hv; cases hv

/-- C83 with overviews: no exception is raised by `finalize()` whether parts were optimized in advance or not, and the
arrays have the same shape. -/
theorem C83_finalize_paced_partial {V : Type} {E : Env V} (hE : Env.Shaped E) {n m : Node} (h : Early Heur.code n m)
    (hb : Built n) (hn : Paced 0 n) (hc : Coarse n) (hf : Fair n) (hd : deqs n ≤ 1) (hm : Each E.Matches n) :
    ∃ i j F, (∀ f, F ≤ f → finalize Heur.code E f n = .ok i) ∧ (∀ f, F ≤ f → finalize Heur.code E f m = .ok j) ∧
      i.h = j.h ∧ i.w = j.w ∧ i.n = j.n := by
  obtain ⟨g1, g2⟩ := early_good (fairPacedRules Heur.code closeOff_zero) h ⟨⟨hb.ok.1, hb.ok.2, hn⟩, hf, hc⟩
  obtain ⟨l1, _⟩ := early_good (keepRules Heur.code (nameRules Heur.code) (stable_each E.Matches
    (fun _ _ _ h => by cases h))) h ⟨hb.ok.1, hm⟩
  obtain ⟨i, F, ai, hi⟩ := C45_finalize_paced_partial hE hb hn hc hf hd hm
  obtain ⟨j, F', aj, hj⟩ := C45_finalize_paced_partial hE (built_of _ g1.wf g1.fit) g1.steps g1.coarse g1.fair
    (g2.deq.trans hd) l1.2
  refine ⟨i, j, max F F', fun f h => hi f (by omega), fun f h => hj f (by omega), ?_, ?_, ?_⟩
  · have h1 := ai.h; have h2 := aj.h; rw [g2.dsize] at h2; omega
  · have h1 := ai.w; have h2 := aj.w; rw [g2.dsize] at h2; omega
  · rw [ai.n, aj.n, g2.fwd.nchan]

/-- The overview of an optimized part of an overview. -/
def earlyView : Node := mkOverview (.crop (.concat [.dequant (.crop (.overview (.leaf pyramid) 1 (5, 5)) 2 5 2 5 none)
  ⟨0, 1, 0, 255, none⟩ (3, 3), .crop (.overview (.leaf { pyramid with id := 2 }) 1 (5, 5)) 2 5 2 5 none] (3, 3)) 0 3 2 3 none) 1

theorem earlyView_early : Early Heur.code lowerView earlyView := by
  have e : lowerView = .overview (.crop lowerPart 0 3 2 3 none) 1 (1, 2) := by decide +kernel
  have e' : earlyView = .overview (.crop (.concat [.dequant (.crop (.overview (.leaf pyramid) 1 (5, 5)) 2 5 2 5 none)
      ⟨0, 1, 0, 255, none⟩ (3, 3), .crop (.overview (.leaf { pyramid with id := 2 }) 1 (5, 5)) 2 5 2 5 none] (3, 3))
      0 3 2 3 none) 1 (1, 2) := by decide +kernel
  have h : opt Heur.code 40 lowerPart = .ok (.concat [.dequant (.crop (.overview (.leaf pyramid) 1 (5, 5)) 2 5 2 5 none)
      ⟨0, 1, 0, 255, none⟩ (3, 3), .crop (.overview (.leaf { pyramid with id := 2 }) 1 (5, 5)) 2 5 2 5 none] (3, 3)) := by
    obtain ⟨m, h1, h2⟩ := holds_ok (x := opt Heur.code 40 lowerPart)
      (f := fun m => decide (m = .concat [.dequant (.crop (.overview (.leaf pyramid) 1 (5, 5)) 2 5 2 5 none)
        ⟨0, 1, 0, 255, none⟩ (3, 3), .crop (.overview (.leaf { pyramid with id := 2 }) 1 (5, 5)) 2 5 2 5 none] (3, 3)))
      (by decide +kernel)
    rw [decide_eq_true_eq] at h2
    rw [h1, h2]
  rw [e, e']
  exact .overview 1 (1, 2) (.crop 0 3 2 3 none (.opt 40 h (.refl _)) (.refl _)) (.refl _)

example : Built earlyView ∧ Paced 0 earlyView ∧ earlyView.dsize = (1, 2) ∧ earlyView ≠ lowerView ∧
    ∃ i j F, (∀ f, F ≤ f → finalize Heur.code squareEnv f lowerView = .ok i) ∧
      (∀ f, F ≤ f → finalize Heur.code squareEnv f earlyView = .ok j) ∧ i.h = j.h ∧ i.w = j.w ∧ i.n = j.n := by
  obtain ⟨h1, h2, _⟩ := C83_paced_partial closeOff_zero earlyView_early lowerView_built lowerView_paced
  exact ⟨h1, h2, by decide +kernel, by decide +kernel, C83_finalize_paced_partial squareEnv_shaped earlyView_early
    lowerView_built lowerView_paced lowerView_fair.1 lowerView_fair.2.1 lowerView_fair.2.2.1 lowerView_fair.2.2.2⟩

/-- With the inner overview of `cornerView` optimized in advance. -/
example {f : Nat} {m : Node} (h : opt Heur.code f (mkOverview (.crop sideBySide 4 8 4 10 none) 1) = .ok m) :
    Snug 0 (.overview (.crop m 0 2 2 3 none) 1 cornerView.dsize) ∧
    ∀ p, ((den (.overview (.crop m 0 2 2 3 none) 1 cornerView.dsize)).getD 4 Chan.none).value (fun i k p => (i, k, p))
      (fun _ v => v) p = ((den cornerView).getD 4 Chan.none).value (fun i k p => (i, k, p)) (fun _ v => v) p := by
  obtain ⟨_, h2, h3⟩ := C83_snug_partial closeOff_zero (n := cornerView)
    (.overview 1 _ (.crop 0 2 2 3 none (.opt f h (.refl _)) (.refl _)) (.refl _)) cornerView_ok.1 cornerView_ok.2.1
    cornerView_ok.2.2.1
  exact ⟨h2, fun p => h3 _ _ 4 p⟩

end Props
end Verif
