/-
Further concrete cases of theorems whose own files show none beside them.
-/
import Verif.Props.Cases
import Verif.Props.Chan
import Verif.Props.Split
import Verif.Props.Stride
import Verif.Props.Number
import Verif.Props.Helpers
import Verif.Props.Loader
import Verif.Props.Concise
import Verif.Props.FloatSize
import Verif.Props.Source

namespace Verif.Props

section
open Fused

/-- C02_alias_meaning -/
example : expandCode (p! "rgb") = .ok [p! "r", p! "g", p! "b"] := C02_alias_meaning (p! "rgb", [p! "r", p! "g", p! "b"]) (by decide)

/-- C02_normalize_concat -/
example : (Fused.concat [parse (p! "rgb"), parse (p! "a.0:2")]).asList =
    .ok [p! "r", p! "g", p! "b", p! "a.0", p! "a.1"] :=
  C02_normalize_concat [parse (p! "rgb"), parse (p! "a.0:2")] [[p! "r", p! "g", p! "b"], [p! "a.0", p! "a.1"]]
    (by intro f hf; simp only [List.mem_cons, List.not_mem_nil, or_false] at hf; rcases hf with rfl | rfl <;> exact .ofStr _)
    (by decide +kernel)

/-- C02_normalize_idempotent -/
example : ∃ g, (parse (p! "rgb|a.0:2")).normalize = .ok g ∧ g.normalize = .ok g ∧ g.parsed.length = 5 := by
  obtain ⟨g, h, e⟩ := holds_ok (x := (parse (p! "rgb|a.0:2")).normalize) (f := fun g => decide (g.parsed.length = 5))
    (by decide +kernel)
  exact ⟨g, h, (C02_normalize_idempotent (.ofStr _) h).2.1, of_decide_eq_true e⟩

/-- C03_concise_lossless -/
example : ∃ g, (parse (p! "a.0|a.1|a.2|b")).concise = .ok g ∧ g.asList = .ok [p! "a.0", p! "a.1", p! "a.2", p! "b"] := by
  refine C03_concise_lossless (.ofStr _) (by decide +kernel) ?_
  intro c hc
  simp only [List.mem_cons, List.not_mem_nil, or_false] at hc
  rcases hc with rfl | rfl | rfl | rfl
  · exact .inr ⟨p! "a", 0, by decide, by decide⟩
  · exact .inr ⟨p! "a", 1, by decide, by decide⟩
  · exact .inr ⟨p! "a", 2, by decide, by decide⟩
  · exact .inl (by decide)

/-- C03_concise_general: leading zeros are lost. -/
example : ∃ g, (parse (p! "a.00|a.1")).concise = .ok g ∧ g.asList = .ok [p! "a.0", p! "a.1"] := by
  obtain ⟨g, h, e⟩ := holds_ok (x := (parse (p! "a.00|a.1")).concise) (f := fun _ => true) (by decide +kernel)
  obtain ⟨l', h1, h2, -⟩ := (C03_concise_general (f := parse (p! "a.00|a.1")) (.ofStr _)
    (l := [p! "a.00", p! "a.1"]) (by decide +kernel)).2 g h
  have : respellAll [p! "a.00", p! "a.1"] = .ok [p! "a.0", p! "a.1"] := by decide +kernel
  rw [this] at h1
  cases h1
  exact ⟨g, h, h2⟩

/-- C04_set_operations -/
example : ∃ i, (parse (p! "rgb|a")).intersection (.spec (parse (p! "a|b"))) = .ok i ∧
    ∀ c, c ∈ i.parsed ↔ c ∈ [p! "r", p! "g", p! "b", p! "a"] ∧ c ∈ [p! "a", p! "b"] := by
  obtain ⟨-, -, ⟨i, h1, -, h2, -⟩, -⟩ := C04_set_operations (f := parse (p! "rgb|a")) (o := parse (p! "a|b")) (.ofStr _) (.ofStr _)
    (l := [p! "r", p! "g", p! "b", p! "a"]) (m := [p! "a", p! "b"]) (by decide +kernel) (by decide +kernel)
  exact ⟨i, h1, h2⟩

/-- C04_plain_codes_partial -/
example : ∃ b, (parse (p! "rgb")).issubset (.codes [p! "b", p! "g", p! "r", p! "nir"]) = .ok b ∧
    (b = true ↔ ∀ c ∈ [p! "r", p! "g", p! "b"], c ∈ [p! "b", p! "g", p! "r", p! "nir"]) :=
  (C04_plain_codes_partial (f := parse (p! "rgb")) [p! "b", p! "g", p! "r", p! "nir"] (l := [p! "r", p! "g", p! "b"])
    (by decide +kernel)).2.2.2.1

/-- C04_malformed -/
example : (parse (p! "rgb")).union (.spec (parse (p! "a.0:"))) = .error .typeError ∧
    (parse (p! "rgb")).intersection (.spec (parse (p! "a.0:"))) = .error .valueError :=
  have h := C04_malformed (f := parse (p! "rgb")) (o := parse (p! "a.0:")) (l := [p! "r", p! "g", p! "b"])
    (e := .valueError) (by decide +kernel) (by decide +kernel)
  ⟨h.1, h.2.2.1⟩

/-- C06_getitem_int -/
example : (parse (p! "rgb|a")).getInt (-1) = .ok (p! "a") ∧ (parse (p! "rgb|a")).getInt 4 = .error .indexError :=
  have h (i : Int) := C06_getitem_int (f := parse (p! "rgb|a")) (.ofStr _) (l := [p! "r", p! "g", p! "b", p! "a"])
    (by decide +kernel) i
  ⟨(h (-1)).1 3 (by decide) (.inr (by decide)), (h 4).2 (.inr (by decide))⟩

/-- C06_getitem_list -/
example : ∃ g, (parse (p! "rgb|a")).getList [3, -4] = .ok g ∧ g.numel = .ok 2 := by
  obtain ⟨g, h, -⟩ := holds_ok (x := (parse (p! "rgb|a")).getList [3, -4]) (f := fun _ => true) (by decide +kernel)
  exact ⟨g, h, (C06_getitem_list (.ofStr _) (l := [p! "r", p! "g", p! "b", p! "a"]) (by decide +kernel) h).2.1⟩

/-- C06_step_zero and C06_getitem_step: every step but 0 takes something. -/
example : (parse (p! "rgb|a")).getStride none none 0 = .error .valueError ∧
    ∃ g ps, Strides 4 none none (-2) ps ∧ (parse (p! "rgb|a")).getStride none none (-2) = .ok g ∧
      g.parsed.map some = ps.map (fun p => [p! "r", p! "g", p! "b", p! "a"][p]?) := by
  have hl : (parse (p! "rgb|a")).asList = .ok [p! "r", p! "g", p! "b", p! "a"] := by decide +kernel
  obtain ⟨h1, h2⟩ := C06_step_zero (.ofStr (p! "rgb|a")) hl none none
  obtain ⟨ps, h3⟩ := h2 (-2) (by decide)
  obtain ⟨g, h4, -, -, h5⟩ := C06_getitem_step (.ofStr (p! "rgb|a")) hl h3
  exact ⟨h1, g, ps, h3, h4, h5⟩

/-- C73_equivalence -/
example (h : Verif.Fused) (e : (parse (p! "r|g")).eq h = true) : h.eq (parse (p! "r|g")) = true :=
  (C73_equivalence (parse (p! "r|g")) h h).2.1 ▸ e

/-- C68_shortest_partial: four codes in one run. -/
example : ∃ g, (parse (p! "a.0|a.1|a.2|b")).concise = .ok g ∧ g.parsed.length ≤ 4 := by
  obtain ⟨g, h, e⟩ := holds_ok (x := (parse (p! "a.0|a.1|a.2|b")).concise) (f := fun g => decide (g.asList =
    asList ⟨[p! "a.0", p! "a.1", p! "a.2", p! "b"], false⟩)) (by decide +kernel)
  refine ⟨g, h, C68_shortest_partial (.ofStr _) h [p! "a.0", p! "a.1", p! "a.2", p! "b"] ?_ (of_decide_eq_true e).symm⟩
  intro c hc
  simp only [List.mem_cons, List.not_mem_nil, or_false] at hc
  rcases hc with rfl | rfl | rfl | rfl <;> exact plain_run (by decide)

end

section
open Fused

/-- C13_late_fuse_streams -/
example (a b : AnySpec) (ha : a.spec = p! "r|g") (hb : b.spec = p! "a,b") :
    (AnySpec.lateFuse a b).toChan.keys = a.toChan.keys ++ b.toChan.keys :=
  C13_late_fuse_streams a b (by rw [ha]; decide) (by rw [hb]; decide)

/-- C12_union -/
example : ∃ sn on : Chan, (⟨p! "rgb,a", none⟩ : Chan).normalize = .ok sn ∧ (⟨p! "b:2", none⟩ : Chan).normalize = .ok on ∧
    (⟨p! "rgb,a", none⟩ : Chan).union ⟨p! "b:2", none⟩ = .ok ⟨p! "r|g|b,a,b.0|b.1", none⟩ := by
  obtain ⟨sn, h1, e⟩ := holds_ok (x := (⟨p! "rgb,a", none⟩ : Chan).normalize)
    (f := fun sn => holds (⟨p! "b:2", none⟩ : Chan).normalize fun on =>
      decide (specOf ((sn.parse ++ on.parse).map (fun p => p.2.parsed)) = p! "r|g|b,a,b.0|b.1")) (by decide +kernel)
  obtain ⟨on, h2, e⟩ := holds_ok e
  exact ⟨sn, on, h1, h2, by rw [C12_union _ _ h1 h2, of_decide_eq_true e]⟩

end

section
open Helpers

/-- C20_identity -/
example : autoDsize none (7, 5) = (7, 5) ∧ autoDsize (some ⟨1, 0, 0, 0, 1, 0⟩) (7, 5) = (7, 5) :=
  C20_identity 7 5 (by decide) (by decide)

/-- C19_monotone -/
example (t : IntType) : ∃ a b q, quantizeFloat01 [some (-3), some (1 / 3)] 0 1 t.info = .ok ([a, b], q) ∧ a ≤ b :=
  C19_monotone t 0 1 (by norm_num) _ _ (by norm_num)

/-- C19_codes_in_range -/
example (t : IntType) : ∃ codes q n, quantizeFloat01 [none, some 2] 0 1 t.info = .ok (codes, q) ∧ q.nodata = some n ∧
    List.Forall₂ (fun (x : Option ℚ) c => t.lo ≤ c ∧ c ≤ t.hi ∧ (c = n ↔ x = none)) [none, some 2] codes :=
  C19_codes_in_range t 0 1 (by norm_num) _

/-- C19_requantize -/
example (t : IntType) : ∃ codes q, quantizeFloat01 [none, some (1 / 3)] 0 1 t.info = .ok (codes, q) ∧
    quantizeFloat01 (dequantize codes q t.info) 0 1 t.info = .ok (codes, q) := by
  obtain ⟨codes, q, n, h, -⟩ := C19_codes_in_range t 0 1 (by norm_num) [none, some (1 / 3)]
  exact ⟨codes, q, h, C19_requantize t 0 1 (by norm_num) _ codes q h⟩

/-- C21_order_partial -/
example : largestShape [some [some 3, none], none, some [some 2, some 5]] =
    largestShape [some [some 2, some 5], some [some 3, none], none] := by
  refine C21_order_partial _ _ (by intro s; simp only [List.mem_cons, List.not_mem_nil, or_false]; tauto) ?_
  rintro i ⟨s, hs, h⟩
  simp only [List.mem_cons, List.not_mem_nil, or_false] at hs
  rcases hs with h' | h' | h' <;> cases h' <;> rcases i with _ | _ | i <;> simp at h

end

section
open Loader

/-- C22_slice_rows and C22_full_axis -/
example (skip : Bool) : rowsRead skip (.slice (some 2) (some (-1))) 6 = .ok [2, 3, 4] ∧
    rowsRead skip .none 3 = .ok [0, 1, 2] :=
  ⟨(C22_slice_rows skip 6 (some 2) (some (-1))).1 (by decide +kernel), (C22_full_axis skip 3 (by decide)).1⟩

/-- C22_slice_bands_partial -/
example : bandsRead (.slice (some 1) (some (-1))) 4 = .ok [1, 2] :=
  C22_slice_bands_partial 4 (some 1) (some (-1)) (by intro i h; cases h; decide) (by intro i h; cases h; decide)

/-- C22_axes_independent -/
example (skip : Bool) : getItem skip [.slice (some 2) (some (-1)), .none, .slice (some 1) none] 6 3 3 =
    .ok ([2, 3, 4], [0, 1, 2], [1, 2]) :=
  (C22_axes_independent skip _ _ _ 6 3 3 _ _ _ (by decide) (by decide) (by decide)).2
    ⟨(C22_slice_rows skip 6 (some 2) (some (-1))).1 (by decide +kernel), (C22_full_axis skip 3 (by decide)).1,
      C22_slice_bands_partial 3 (some 1) none (by intro i h; cases h; decide) (by intro i h; cases h)⟩

end

section

/-- C18_late_fuse_monoid -/
example : SC.lateFuse [SC.lateFuse [p! "S2:r", []], p! "L8:b"] = SC.lateFuse [p! "S2:r", p! "L8:b"] := by
  rw [(C18_late_fuse_monoid (p! "S2:r") [] []).2.1]

/-- C43_numel_late_fuse -/
example : SC.numel (SC.lateFuse [p! "S2:r|g", p! "L8:(a,b|c)"]) = .ok (2 + 3) :=
  C43_numel_late_fuse (by decide) (by decide) (by decide +kernel) (by decide +kernel)

/-- C17_normalize_streams -/
example : ∃ ss t, SC.streams (p! "(S2,L8):(r|g,b)") = .ok ss ∧ ss.length = 4 ∧
    SC.normalize (p! "(S2,L8):(r|g,b)") = .ok t ∧ SC.streams t = .ok ss := by
  obtain ⟨ss, h, e⟩ := holds_ok (x := SC.streams (p! "(S2,L8):(r|g,b)")) (f := fun ss => decide (ss.length = 4))
    (by decide +kernel)
  obtain ⟨t, h1, h2⟩ := C17_normalize_streams h (by decide)
  exact ⟨ss, t, h, of_decide_eq_true e, h1, h2⟩

end

section
open Tree

theorem sideBySide_matches : Each steadyEnv.Matches sideBySide :=
  ⟨fun _ => ⟨rfl, rfl, rfl⟩, fun _ => ⟨rfl, rfl, rfl⟩, trivial⟩

theorem sideBySide_fin : ∃ i, fin steadyEnv sideBySide = .ok i ∧ i.h = 10 ∧ i.w = 10 ∧ i.n = 6 := by
  obtain ⟨i, h, e⟩ := holds_ok (x := fin steadyEnv sideBySide) (f := fun i => decide (i.h = 10 ∧ i.w = 10 ∧ i.n = 6))
    (by decide +kernel)
  exact ⟨i, h, of_decide_eq_true e⟩

/-- C28_construction: images of different sizes cannot be put together. -/
example : ¬ ∃ n, mkConcat [sideBySide, mkOverview sideBySide 1] = .ok n := fun h =>
  absurd (((C28_construction _).1 h).2 sideBySide (by simp) (mkOverview sideBySide 1) (by simp)) (by decide +kernel)

/-- C28_announces -/
example : ∃ n, mkConcat [sideBySide, sideBySide] = .ok n ∧ n.nchan = 12 ∧ n.dsize = (10, 10) := by
  refine ⟨_, rfl, ?_, ?_⟩
  · rw [(C28_announces [sideBySide, sideBySide] _ rfl).2.1]; rfl
  · exact (C28_announces [sideBySide, sideBySide] _ rfl).1 sideBySide (by simp)

/-- C45_announced_shape, C24_crop_is_numpy_slice and C61_pixels -/
example : ∃ i, fin steadyEnv sideBySide = .ok i ∧ Announced sideBySide i ∧
    Agree (pixels steadyEnv (Tree.crop sideBySide (some ((some (-3), none), (some 1, some 4))) (some [5, 0]) true true (.int 0)
      false)) ((i.slice (some (-3), none) (some 1, some 4)).select (some [5, 0])) ∧
    Agree (pixels steadyEnv (getitem sideBySide (.two ((some (-3), none), (some 1, some 4)))))
      (.ok (i.slice (some (-3), none) (some 1, some 4))) := by
  obtain ⟨i, h, -⟩ := sideBySide_fin
  have ha := C45_announced_shape steadyEnv_shaped sideParts_built.2 sideBySide_matches h
  exact ⟨i, h, ha, C24_crop_is_numpy_slice _ _ i h ha _ _, (C61_pixels _ _ i h ha _ []).1⟩

/-- C24_crop_announces -/
example : ∃ t, Tree.crop sideBySide (some ((some (-3), none), (some 1, some 4))) (some [5, 0]) true true (.int 0) false =
    .ok t ∧ t.dsize = (3, 3) ∧ t.nchan = 2 := by
  obtain ⟨t, h, -⟩ := holds_ok (x := Tree.crop sideBySide (some ((some (-3), none), (some 1, some 4))) (some [5, 0]) true true
    (.int 0) false) (f := fun _ => true) (by decide +kernel)
  have := C24_crop_announces sideBySide t ⟨by decide, by decide⟩ _ _ h
  exact ⟨t, h, this.1, this.2.1⟩

/-- C26_backward_slice -/
example : Tree.crop sideBySide (some ((some 5, some 2), (some 0, some 3))) none false false (.int 1) false =
    .error .valueError := C26_backward_slice _ _ _ _ _ _ _ (by decide)

/-- C27_index_succeeds and C27_take_by_index -/
example : ∃ t i j, takeIdx sideBySide [4, 1] = .ok t ∧ fin steadyEnv sideBySide = .ok i ∧ fin steadyEnv t = .ok j ∧ j.n = 2 ∧
    j.px 3 2 0 = i.px 3 2 4 := by
  obtain ⟨i, hi, e1, e2, e3⟩ := sideBySide_fin
  obtain ⟨t, h⟩ := C27_index_succeeds sideParts_built.2 (by decide) (idxs := [4, 1]) (by decide) (by decide)
  obtain ⟨-, -, j, hj, -, -, h3, h4⟩ := C27_take_by_index steadyEnv_shaped sideParts_built.2 sideBySide_matches hi
    (idxs := [4, 1]) (by decide) h
  exact ⟨t, i, j, h, hi, hj, h3, h4 0 4 rfl 3 2 (by omega) (by omega)⟩

/-- C29_count and C29_sizes_compose -/
example : (levels sideBySide [1, 0, 1]).numOverviews = .ok (some (3 - 2)) ∧
    (mkOverview (mkOverview sideBySide 1) 2).dsize = (mkOverview sideBySide 3).dsize :=
  ⟨C29_count sideBySide 3 (by decide) [1, 0, 1], C29_sizes_compose sideBySide 1 2⟩

/-- C36_channels, C45_finalize_channels and C54_paced_partial -/
example : ∃ m, opt Heur.code 60 cornerView = .ok m ∧ m.channels = cornerView.channels ∧
    (∀ i, finalize Heur.code steadyEnv 60 cornerView = .ok i → i.n = cornerView.nchan) ∧
    ∃ F, ∀ f, F ≤ f → opt Heur.code f m = .ok m := by
  obtain ⟨g1, g2, g3, -⟩ := cornerView_ok
  obtain ⟨m, h, -⟩ := holds_ok (x := opt Heur.code 60 cornerView) (f := fun _ => true) (by decide +kernel)
  exact ⟨m, h, (C36_channels _ g1 60 h).1, fun i hi => C45_finalize_channels _ steadyEnv_shaped g1 cornerView_fair.2.2.2 60 hi,
    C54_paced_partial _ closeOff_zero g1 g2 60 h⟩

/-- C62_paced_partial and C62_meaning -/
example : validate Heur.code steadyEnv 60 cornerView = .ok () ∧ ∃ i, fin steadyEnv cornerView = .ok i ∧
    (i.h : Int) = cornerView.dsize.2 := by
  obtain ⟨g1, g2, g3, -⟩ := cornerView_ok
  obtain ⟨m, h, -⟩ := holds_ok (x := opt Heur.code 60 cornerView) (f := fun _ => true) (by decide +kernel)
  have hv := C62_paced_partial Heur.code closeOff_zero steadyEnv_shaped g1 g2 cornerView_fair.2.2.2 (paced_smooth g2) 60 h
  obtain ⟨i, h1, h2, -⟩ := C62_meaning _ _ hv
  exact ⟨hv, i, h1, h2⟩

/-- C62_concat -/
example : validate Heur.code steadyEnv 60 sideBySide = .ok () :=
  C62_concat _ steadyEnv_shaped sideParts_built.2 sideBySide_matches
    (paced_smooth (L := 0) (show Paced 0 sideBySide from ⟨trivial, trivial, trivial⟩)) 60

/-- C40_traverse and C40_leafs -/
example : (traverse sideBySide).length = 4 ∧ (leafs sideBySide).length = 2 ∧
    ∃ as : List (List Nat), as.Nodup ∧ (leafs sideBySide).map some = as.map (nodeAt sideBySide) := by
  obtain ⟨as, h1, -, h2⟩ := C40_leafs sideBySide sideParts_built.2.ok.1
  exact ⟨by decide +kernel, by decide +kernel, as, h1, h2⟩

/-- C84_announced -/
example : ∃ t m m', takeIdx sideBySide [4, 1] = .ok t ∧ runAll sideBySide cornerJobs = .ok m ∧ runAll t cornerJobs = .ok m' ∧
    ∀ u, Tree.Built m → takeIdx m [4, 1] = .ok u → m'.dsize = u.dsize ∧ m'.channels = u.channels ∧ den m' = den u := by
  obtain ⟨t, ht⟩ := C27_index_succeeds sideParts_built.2 (by decide) (idxs := [4, 1]) (by decide) (by decide)
  rcases C84_announced sideParts_built.2 (c := [4, 1]) (by decide) ht cornerJobs with ⟨e, h, -⟩ | ⟨m, m', h1, h2, h3⟩
  · rw [cornerJobs_run] at h
    cases h
  · exact ⟨t, m, m', ht, h1, h2, fun u hb hu => have h := h3 u hb hu
      ⟨h.1, h.2.1, h.2.2.2.1⟩⟩

/-- C84_arrays -/
example : ∃ t u m' a b, takeIdx cornerView [4, 1] = .ok u ∧ takeIdx sideBySide [4, 1] = .ok t ∧ runAll t cornerJobs = .ok m' ∧
    fin steadyEnv u = .ok a ∧ fin steadyEnv m' = .ok b ∧ a.Same b := by
  obtain ⟨g1, g2, g3, -⟩ := cornerView_ok
  obtain ⟨u, h1, h2⟩ := holds_ok (x := takeIdx cornerView [4, 1]) (f := fun u => holds (takeIdx sideBySide [4, 1]) fun t =>
      holds (runAll t cornerJobs) fun _ => holds (fin steadyEnv cornerView) fun _ => true) (by decide +kernel)
  obtain ⟨t, h3, h4⟩ := holds_ok h2
  obtain ⟨m', h5, h6⟩ := holds_ok h4
  obtain ⟨i, h7, -⟩ := holds_ok h6
  obtain ⟨a, b, k1, k2, k3⟩ := C84_arrays steadyEnv_shaped steadyEnv_even sideParts_built.2 sideBySide_matches (by decide)
    (fun tf d a h _ => absurd h ((paced_jobs cornerJobs_run 0 g2).2 tf d a)) (fun _ _ => steadyEnv_even_overviews)
    cornerJobs_run g1 h1 h3 h5 h7
  exact ⟨t, u, m', a, b, h1, h3, h5, k1, k2, k3⟩

end

section
open Tree

/-- C27_raises_iff_missing -/
example : takeNames (.leaf pyramid : Node Helpers.Quantization) [p! "g", p! "nir"] .error = .error .valueError ∧
    ∃ t, takeNames (.leaf pyramid : Node Helpers.Quantization) [p! "g", p! "nir"] .returnNan = .ok t :=
  have h := C27_raises_iff_missing pyramid_built (names := [p! "r", p! "g", p! "b"]) (codes := [p! "g", p! "nir"]) rfl
    (by decide)
  ⟨h.2.2 ⟨p! "nir", by simp, by decide⟩, h.1⟩

/-- C69_take: a channel keeps its source, one that is missing has none. -/
example : ∃ t : Tree.Node Helpers.Quantization, takeNames (.leaf pyramid) [p! "b", p! "nir"] .returnNan = .ok t ∧ (src t)[0]? = (src (.leaf pyramid))[2]? ∧
    (src t)[1]? = some ⟨none, []⟩ := by
  obtain ⟨t, h⟩ := (C27_raises_iff_missing pyramid_built (names := [p! "r", p! "g", p! "b"]) (codes := [p! "b", p! "nir"]) rfl
    (by decide)).1
  exact ⟨t, h, (C69_take pyramid_built (names := [p! "r", p! "g", p! "b"]) rfl (by decide) h (k := 0) rfl).1 2 rfl,
    (C69_take pyramid_built (names := [p! "r", p! "g", p! "b"]) rfl (by decide) h (k := 1) rfl).2 (by decide)⟩

/-- C83_channels and C83_arrays_snug_partial: optimizing once before the last overview. -/
example : ∃ m, Early Heur.code cornerView m ∧ m.channels = cornerView.channels ∧
    ∃ i j, fin steadyEnv cornerView = .ok i ∧ fin steadyEnv m = .ok j ∧ i.Same j := by
  obtain ⟨g1, g2, g3, -⟩ := cornerView_ok
  obtain ⟨s, h, -⟩ := holds_ok (x := opt Heur.code 60 (.crop (mkOverview (.crop sideBySide 4 8 4 10 none) 1) 0 2 2 3 none))
    (f := fun _ => true) (by decide +kernel)
  have he : Early Heur.code cornerView (.overview s 1 cornerView.dsize) := .overview 1 _ (.opt 60 h (.refl _)) (.refl _)
  exact ⟨_, he, (C83_channels he g1).1, C83_arrays_snug_partial closeOff_zero steadyEnv_blocks he g1 g2 g3
    cornerView_fair.2.2.2⟩

/-- C88_size_partial -/
example : ∃ i, FloatWarp.fin steadyEnv ⟨sideBySide, .scale (1 / 2), (9 / 2, 5), .default⟩ = .ok i ∧ i.n = 6 ∧
    ((i.w : ℚ), (i.h : ℚ)) ≠ (9 / 2, 5) := by
  obtain ⟨i, h1, h2, h3, h4, -, -, h5⟩ := C88_size_partial steadyEnv_shaped sideParts_built.2 sideBySide_matches
    (paced_smooth (L := 0) (show Paced 0 sideBySide from ⟨trivial, trivial, trivial⟩)) (.scale (1 / 2)) (9 / 2, 5)
    ⟨by norm_num, by norm_num⟩ .default (by decide)
  refine ⟨i, h1, h2, fun h => ?_⟩
  obtain ⟨k, l, e⟩ := h5.1 h
  have e1 : (9 / 2 : ℚ) = k := congrArg Prod.fst e
  have e2 : (9 : ℚ) = (2 * k : Int) := by push_cast; linarith
  have e3 : (9 : Int) = 2 * k := by exact_mod_cast e2
  omega

end

section
open Fused

/-- C16_path_sanitize_unchanged -/
example (hash : Str → Str) : pathSanitize hash (Fused.parse (p! "nir.0")) (some 20) = .ok (p! "nir.0") :=
  C16_path_sanitize_unchanged hash (Fused.parse (p! "nir.0")) (some 20) 1 (by decide +kernel) (by decide) (by decide) (by decide)
    (by intro m h; cases h; decide)

end

section

/-- C71_coerce_number -/
example : SC.streams (SC.coerce (.int 2)) = .ok [⟨p! "*", ⟨[p! "u0", p! "u1"], false⟩⟩] := C71_coerce_number 1

end
end Verif.Props
