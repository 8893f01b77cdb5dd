/-
Concrete cases of theorems whose own files show none beside them.
-/
import Verif.Props.Stepped
import Verif.Props.Envi
import Verif.Props.Equal
import Verif.Props.Fused
import Verif.Props.Oset
import Verif.Props.Readers
import Verif.Props.SensorChans
import Verif.Props.Heap
import Verif.Props.ChanIdx
import Verif.Props.Parts
import Verif.Props.Fix
import Verif.Props.Transform
import Verif.Props.SensorChan

namespace Verif.Props

section
open Envi

/-- C58_refused -/
example : readHeader (p! "samples = 3\nbands = 1") = .error .generic :=
  C58_refused (p! "samples = 3") [p! "bands = 1"] (by decide) (by decide)

/-- C58_unclosed -/
example : readHeader (p! "ENVI\nbands = 2\nband names = {a,\n b") = .error .indexError :=
  C58_unclosed (p! "ENVI") [.field (p! "bands ") (p! " 2")] (p! "band names ") (p! " ") (p! "a,") [p! " b"] (by decide)
    (by
      intro i hi
      rw [List.mem_singleton.1 hi]
      exact ⟨by decide, by decide, by decide⟩)
    (by decide) (by decide) (by intro c hc; rw [List.mem_singleton.1 hc]; decide) (by decide) (by decide) (by decide)

end

section
open Fused

/-- C73_texts: spaces matter. -/
example : (parse (p! "r|g")).eq (parse (p! "r |g")) = false := by
  cases h : (parse (p! "r|g")).eq (parse (p! "r |g")) with
  | false => rfl
  | true => exact absurd ((C73_texts _ _).1 h) (by decide)

/-- C73_length -/
example : ∃ f', (parse (p! "rgb|a.0:3")).normalize = .ok f' ∧ (parse (p! "rgb|a.0:3")).numel = .ok f'.len ∧
    f'.len = 6 := by
  obtain ⟨f', h, e⟩ := holds_ok (x := (parse (p! "rgb|a.0:3")).normalize) (f := fun f' => decide (f'.len = 6))
    (by decide +kernel)
  exact ⟨f', h, (C73_length (.ofStr _) h).1, of_decide_eq_true e⟩

/-- C02_slice_meaning -/
example : asList ⟨[p! "B.2:5"], false⟩ = .ok [p! "B.2", p! "B.3", p! "B.4"] :=
  C02_slice_meaning (root := p! "B") (by decide) (by decide) 2 5

/-- C02_refused: an open slice, a slice with step 0 and a slice of a code. -/
example : asList ⟨[p! "B.2:"], false⟩ = .error .valueError ∧ asList ⟨[p! "B.2:7:0"], false⟩ = .error .valueError ∧
    asList ⟨[p! "B:B.7"], false⟩ = .error .valueError :=
  C02_refused (root := p! "B") (by decide) (by decide) (some 2) 7 '.' (.inl rfl)

/-- C02_slice_forms -/
example : ∃ l, asList ⟨[p! "B.7:1:-2"], false⟩ = .ok (l.map (dotted (p! "B"))) ∧ SliceNumbers 7 1 (-2) l := by
  have e : p! "B.7:1:-2" = p! "B" ++ '.' :: (optStr (some 7) ++ ':' :: (intStr 1 ++ ':' :: optStr (some (-2)))) := by
    decide +kernel
  rw [e]
  exact (C02_slice_forms (root := p! "B") (by decide) (by decide) (some 7) (some (-2)) 1 (by decide) '.' (.inl rfl)).2.2

end

/-- C15_insert -/
example : Consistent ((OSet.ofList [10, 20, 30]).insert 1 15) :=
  (C15_insert _ (ofList_consistent _ (by decide)) 1 (by decide) 15).1

/-- C15_delitem_int -/
example : ∃ s', (OSet.ofList [10, 20, 30]).delInt (-1) = (s', none) ∧ Consistent s' ∧ s'.items = [10, 20] :=
  C15_delitem_int _ (ofList_consistent _ (by decide)) (-1) 2 (by decide) (.inr (by decide))

section
open Tree Node Helpers

/-- C39_partial -/
example : (optimize Heur.code (fun _ _ => 0) 40 [(8, 8)] views).1.map erase = opt Heur.code 40 (erase views) := by
  refine C39_partial _ _ _ _ _ ⟨⟨rfl, trivial⟩, ⟨rfl, trivial⟩, trivial, trivial⟩
    ⟨.inl rfl, .inl rfl, trivial, trivial⟩ ?_
  obtain ⟨m, e, -⟩ := holds_ok (x := opt Heur.code 40 (erase views)) (f := fun _ => true) (by decide +kernel)
  rw [e]; simp

/-- C72_negative_first_part: the last channel of two files is looked for in the first one. -/
example : takeInts (.concat [.leaf rgbLeaf, .leaf { rgbLeaf with id := 2 }] (5, 4)) [-1] =
    (match takeInts (.leaf rgbLeaf) [-1] with
      | .error e => (.error e : Py Node)
      | .ok t => .ok (.concat [t] t.dsize)) :=
  C72_negative_first_part (p := .leaf rgbLeaf) (ps := [.leaf { rgbLeaf with id := 2 }]) (l := [-1]) rfl (by decide)
    (by decide)

/-- C54_idempotent_partial -/
example : ∃ m F, opt Heur.code 40 onceTree = .ok m ∧ m ≠ onceTree ∧ ∀ f, F ≤ f → opt Heur.code f m = .ok m := by
  obtain ⟨h1, h2, -⟩ := onceTree_ok
  obtain ⟨m, e, hne⟩ := holds_ok (x := opt Heur.code 40 onceTree) (f := fun m => decide (m ≠ onceTree)) (by decide +kernel)
  obtain ⟨F, hF⟩ := C54_idempotent_partial Heur.code h1 h2 40 e
  exact ⟨m, F, e, of_decide_eq_true hne, hF⟩

/-- C36_snug_partial, C36_paced_partial and C37_paced_partial are shown at `cornerView_ok`; here C86_never_more_partial. -/
example : ∃ m, opt Heur.code 40 onceTree = .ok m ∧ (∀ w ∈ windows m, ∃ v ∈ windows onceTree, w.Within v) ∧
    windows m ≠ windows onceTree := by
  obtain ⟨h1, h2, -⟩ := onceTree_ok
  obtain ⟨m, e, hne⟩ := holds_ok (x := opt Heur.code 40 onceTree) (f := fun m => decide (windows m ≠ windows onceTree))
    (by decide +kernel)
  exact ⟨m, e, C86_never_more_partial Heur.code h1 h2 40 e, of_decide_eq_true hne⟩

/-- C45_finalize_shape_partial -/
example : ∃ i, finalize Heur.code bilEnv 40 onceTree = .ok i ∧ i.h = 2 ∧ i.w = 3 ∧ Announced onceTree i := by
  obtain ⟨h1, h2, h3, h4, h5⟩ := onceTree_ok
  obtain ⟨m, e, -⟩ := holds_ok (x := opt Heur.code 40 onceTree) (f := fun _ => true) (by decide +kernel)
  obtain ⟨i, j, _, hj, _⟩ := C36_arrays_once_partial Heur.code bilEnv_shaped bil_linear (fun _ => bil_void) h4 h1 h2 h3 h5 40 e
  have := C45_finalize_shape_partial Heur.code bilEnv_shaped h1 h2 (each_imp (fun _ h => h.2) _ h5) 40 hj
  have e1 := this.h
  have e2 := this.w
  rw [show onceTree.dsize = (3, 2) by decide +kernel] at e1 e2
  simp only at e1 e2
  exact ⟨j, hj, by omega, by omega, this⟩

/-- C89_announced: two files, cropped and dequantized. -/
example : ∃ m qs c, runAll (.concat [.leaf rgbLeaf, .leaf { rgbLeaf with id := 2 }] (5, 4))
      [.crop ((some 1, none), (some (-2), none)), .dequant ⟨0, 1, 0, 10, none⟩] = .ok m ∧
    mkConcat qs = .ok c ∧ den c = den m ∧ m.dsize = (2, 3) := by
  rcases C89_announced (ps := [.leaf rgbLeaf, .leaf { rgbLeaf with id := 2 }])
    (n := .concat [.leaf rgbLeaf, .leaf { rgbLeaf with id := 2 }] (5, 4)) rfl
    [.crop ((some 1, none), (some (-2), none)), .dequant ⟨0, 1, 0, 10, none⟩] with ⟨e, h, _⟩ | ⟨m, qs, c, h1, h2, h3, h4⟩
  · cases h
  · refine ⟨m, qs, c, h1, h3, h4.2.2.2.1, ?_⟩
    cases h1
    rfl

/-- C31_self -/
example : transformFrom onceTree onceTree = .ok .id := C31_self onceTree_ok.1

/-- C37_normal_form_partial, C36_size_partial and C69_origin -/
example : ∃ m, opt Heur.code 40 onceTree = .ok m ∧ (∀ p ∈ paths m, Tidy p) ∧ m.dsize = (3, 2) ∧ src m = src onceTree ∧
    paths m ≠ paths onceTree := by
  obtain ⟨h1, h2, -⟩ := onceTree_ok
  obtain ⟨m, e, hne⟩ := holds_ok (x := opt Heur.code 40 onceTree) (f := fun m => decide (paths m ≠ paths onceTree))
    (by decide +kernel)
  exact ⟨m, e, C37_normal_form_partial Heur.code h1 h2 40 e,
    (C36_size_partial Heur.code h1 h2 40 e).trans (by decide +kernel), (C69_origin Heur.code h1 40 e).1, of_decide_eq_true hne⟩

/-- C91_number: of three overviews of each file one is left after two. -/
example : LeavesLeft cornerView 1 := (C91_number cornerView_ok.1 1).1 (by decide +kernel)

/-- C29_size: a picture of 10 rows in the second overview. -/
example : (10 : Int) ≤ 4 * (mkOverview sideBySide 2).dsize.1 ∧ 4 * (mkOverview sideBySide 2).dsize.1 < 14 :=
  ⟨(C29_size sideBySide 2).1, (C29_size sideBySide 2).2.1⟩

/-- C51_evaluate -/
example : ∃ i m E', finalize Heur.code cornerEnv 60 cornerView = .ok i ∧
    evaluate Heur.code cornerEnv 60 cornerView 7 = .ok (m, E') ∧ m.nchan = 6 ∧ fin E' m = .ok i := by
  obtain ⟨i, hi, hn⟩ := holds_ok (x := finalize Heur.code cornerEnv 60 cornerView) (f := fun i => decide (i.n = 6))
    (by decide +kernel)
  obtain ⟨m, E', h1, _, _, h4, h5, _⟩ := C51_evaluate Heur.code cornerEnv 60 cornerView 7 i hi
  exact ⟨i, m, E', hi, h1, h4.trans (of_decide_eq_true hn), h5⟩

end

/-- C18_late_fuse_streams -/
example : ∃ sa sb, SC.streams (p! "S2:r|g") = .ok sa ∧ SC.streams (p! "(L8,WV):pan") = .ok sb ∧
    SC.streams (SC.lateFuse [p! "S2:r|g", p! "(L8,WV):pan"]) = .ok (sa ++ sb) ∧ (sa ++ sb).length = 3 := by
  obtain ⟨sa, h1, e1⟩ := holds_ok (x := SC.streams (p! "S2:r|g")) (f := fun s => decide (s.length = 1)) (by decide +kernel)
  obtain ⟨sb, h2, e2⟩ := holds_ok (x := SC.streams (p! "(L8,WV):pan")) (f := fun s => decide (s.length = 2))
    (by decide +kernel)
  refine ⟨sa, sb, h1, h2, C18_late_fuse_streams (by decide) (by decide) h1 h2, ?_⟩
  rw [List.length_append, of_decide_eq_true e1, of_decide_eq_true e2]

end Verif.Props
