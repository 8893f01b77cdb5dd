/-
C79: images without data stay without data.
-/
import Verif.Props.Masked

namespace Verif.Props

open Tree Node Helpers

variable {V : Type}

/-- Crops, channel selections and warps of a leaf without data. -/
def Absent (kind : Nat) : Node → Prop
  | .leaf l => l.nan = true ∧ l.id = kind
  | .warp s _ _ _ => Absent kind s
  | .crop s _ _ _ _ _ => Absent kind s
  | _ => False

/-- The number of operations. -/
def opsOf : Node → Nat
  | .warp s _ _ _ => opsOf s + 1
  | .crop s _ _ _ _ _ => opsOf s + 1
  | _ => 0

theorem nanCrop_some {l : Leaf} (hl : l.WF) (hn : l.nan = true) {y0 y1 x0 x1 : Int} {c : Option (List Nat)}
    (hc : IdxOk l.nchan c) (hy : y0 ≤ y1) (hx : x0 ≤ x1) : ∃ r : Node, nanCrop l y0 y1 x0 x1 c = .ok r := by
  obtain ⟨names, he⟩ := Option.isSome_iff_exists.1 (hl.2 hn).1
  have hlen := hl.1 names he
  unfold nanCrop embedSlice
  rw [if_neg (by omega), if_neg (by omega)]
  cases c with
  | none => exact ⟨_, rfl⟩
  | some c =>
    have : (c.all fun i => decide (i < names.length)) = true := by
      rw [List.all_eq_true]
      intro i hi
      rw [hlen]
      exact decide_eq_true (hc i hi)
    simp only [he, this, if_true]
    exact ⟨_, rfl⟩

/-- An optimized image without data is a leaf of the same kind. -/
theorem opt_absent (H : Heur) (kind : Nat) : ∀ (n : Node), WF n → Fit n → Absent kind n → ∀ fuel, opsOf n < fuel →
    ∃ l : Leaf, opt H fuel n = .ok (.leaf l) ∧ l.nan = true ∧ l.id = kind ∧ l.WF ∧ Nonneg l.dsize ∧
      l.dsize = n.dsize ∧ l.nchan = n.nchan ∧ l.names = n.channels
  | .leaf l, hw, hf, ha, fuel, hs => by
    obtain ⟨f, rfl⟩ : ∃ f, fuel = f + 1 := ⟨fuel - 1, by omega⟩
    exact ⟨l, rfl, ha.1, ha.2, hw, hf, rfl, rfl, rfl⟩
  | .concat _ _, _, _, ha, _, _ => ha.elim
  | .overview _ _ _, _, _, ha, _, _ => ha.elim
  | .dequant _ _ _, _, _, ha, _, _ => ha.elim
  | .warp s tf d a, hw, hf, ha, fuel, hs => by
    obtain ⟨f, rfl⟩ : ∃ f, fuel = f + 1 := ⟨fuel - 1, by omega⟩
    have hs' : opsOf s < f := by simp only [opsOf] at hs; omega
    obtain ⟨l, h1, h2, h3, h4, h5, h6, h7, h8⟩ := opt_absent H kind s hw.1 hf.2 ha f hs'
    obtain ⟨g, rfl⟩ : ∃ g, f = g + 1 := ⟨f - 1, by omega⟩
    have e : opt H (g + 1 + 1) (.warp s tf d a) = warpRest H (opt H (g + 1)) (.leaf l) tf d a := by
      show optWarp H (opt H (g + 1)) s tf d a = _
      unfold optWarp
      rw [h1]
    obtain ⟨names, he⟩ := Option.isSome_iff_exists.1 (h4.2 h2).1
    rw [e]
    unfold warpRest
    by_cases hi : d = (.leaf l : Node).dsize ∧ H.negl a.noopEps tf = true
    · rw [if_pos hi]
      refine ⟨l, rfl, h2, h3, h4, h5, hi.1.symm, ?_, ?_⟩
      · rw [h7]; rfl
      · rw [h8]; rfl
    · rw [if_neg hi]
      simp only [h2, if_true]
      refine ⟨⟨l.id, d, (l.names.map List.length).getD 0, l.names, none, true⟩, rfl, rfl, h3,
        ⟨?_, fun _ => ⟨(h4.2 h2).1, rfl⟩⟩, hf.1, rfl, ?_, ?_⟩
      · intro ns hns
        simp only at hns ⊢
        rw [hns]; rfl
      · simp only [he, Option.map_some, Option.getD_some]
        rw [h4.1 _ he, h7]; rfl
      · rw [h8]; rfl
  | .crop s y0 y1 x0 x1 c, hw, hf, ha, fuel, hs => by
    obtain ⟨f, rfl⟩ : ∃ f, fuel = f + 1 := ⟨fuel - 1, by omega⟩
    have hs' : opsOf s < f := by simp only [opsOf] at hs; omega
    obtain ⟨l, h1, h2, h3, h4, h5, h6, h7, h8⟩ := opt_absent H kind s hw.1 hf.1 ha f hs'
    obtain ⟨g, rfl⟩ : ∃ g, f = g + 1 := ⟨f - 1, by omega⟩
    obtain ⟨w1, w2, w3, w4⟩ := hw
    obtain ⟨f1, f2, f3, f4, f5⟩ := hf
    have hc : IdxOk l.nchan c := by rw [h7]; exact w4
    obtain ⟨r, hr⟩ := nanCrop_some h4 h2 hc f2 f4
    obtain ⟨⟨hch, hden⟩, hwf⟩ := sim_nanCrop h4 h2 hc hr
    obtain ⟨names, rfl⟩ := nanCrop_size h5 w2 w3 f2 (by rw [h6]; exact f3) f4 (by rw [h6]; exact f5) hr
    have e : opt H (g + 1 + 1) (.crop s y0 y1 x0 x1 c) = .ok (nanLeaf l.id (x1 - x0, y1 - y0) names) := by
      show optCrop (opt H (g + 1)) s y0 y1 x0 x1 c = _
      unfold optCrop
      rw [h1]
      simp only [h2, if_true, hr]
      rfl
    refine ⟨_, e, rfl, h3, hwf, ⟨?_, ?_⟩, rfl, ?_, ?_⟩
    · simp only; omega
    · simp only; omega
    · have := hden.length_eq
      rw [den_length, den_length] at this
      simp only [nchan, nanLeaf] at this ⊢
      cases c with
      | none => simp only at this ⊢; omega
      | some c => simp only at this ⊢; omega
    · simp only [channels_crop, nanLeaf, channels] at hch ⊢
      rw [hch, h8]

/-- All pixels are NaN. -/
def AllNan (E : MEnv V) (i : Img (V × Bool)) : Prop := ∀ y x c, i.px y x c = (E.vals.nan, false)

/-- All pixels are masked. -/
def AllMasked (i : Img (V × Bool)) : Prop := ∀ y x c, (i.px y x c).2 = true

/-- What is expected of an image without data. -/
def NoData (E : MEnv V) (kind : Nat) (n : Node) (r : Py (Img (V × Bool))) : Prop :=
  match E.fill kind with
  | .refused => r = .error .keyError
  | .nans => ∃ i, r = .ok i ∧ (i.h : Int) = n.dsize.2 ∧ (i.w : Int) = n.dsize.1 ∧ i.n = n.nchan ∧ AllNan E i
  | .masked => ∃ i, r = .ok i ∧ (i.h : Int) = n.dsize.2 ∧ (i.w : Int) = n.dsize.1 ∧ i.n = n.nchan ∧ AllMasked i

theorem empty_leaf (E : MEnv V) {l : Leaf} (hn : l.nan = true) (hd : Nonneg l.dsize) :
    NoData E l.id (.leaf l) (finM E (.leaf l)) := by
  obtain ⟨h1, h2⟩ := hd
  have hneg : ¬ (l.dsize.1 < 0 ∨ l.dsize.2 < 0) := by omega
  unfold NoData
  simp only [finM, hn, if_true, fillAbsent, fin, if_neg hneg]
  cases E.fill l.id with
  | refused => rfl
  | nans =>
    refine ⟨_, rfl, ?_, ?_, rfl, fun _ _ _ => rfl⟩
    · simp only [dsize]; omega
    · simp only [dsize]; omega
  | masked =>
    refine ⟨_, rfl, ?_, ?_, rfl, fun _ _ _ => rfl⟩
    · simp only [dsize]; omega
    · simp only [dsize]; omega

/-- C79: an image without data that is cropped, restricted to channels and warped in any way is finalized to an
array of the announced shape without data. -/
theorem C79_finalize (H : Heur) (E : MEnv V) {kind : Nat} {n : Node} (hb : Built n) (ha : Absent kind n) (fuel : Nat)
    (hs : opsOf n < fuel) : NoData E kind n (finalizeM H E fuel n) := by
  obtain ⟨hw, hf⟩ := hb.ok
  obtain ⟨l, h1, h2, h3, h4, h5, h6, h7, h8⟩ := opt_absent H kind n hw hf ha fuel hs
  have := empty_leaf E h2 h5
  unfold finalizeM
  rw [h1]
  subst h3
  unfold NoData at this ⊢
  rw [← h6, ← h7]
  exact this

/-- C79: its channels and its `nodata_method` are kept, and a single leaf is left. -/
theorem C79_optimize (H : Heur) {kind : Nat} {n : Node} (hb : Built n) (ha : Absent kind n) (fuel : Nat)
    (hs : opsOf n < fuel) : ∃ l : Leaf, opt H fuel n = .ok (.leaf l) ∧ l.nan = true ∧ l.id = kind ∧
      l.dsize = n.dsize ∧ l.nchan = n.nchan ∧ l.names = n.channels := by
  obtain ⟨hw, hf⟩ := hb.ok
  obtain ⟨l, h1, h2, h3, h4, h5, h6, h7, h8⟩ := opt_absent H kind n hw hf ha fuel hs
  exact ⟨l, h1, h2, h3, h6, h7, h8⟩

theorem slice_const (i : Img (V × Bool)) (ysl xsl : Option Int × Option Int) (y x c : Nat) :
    ∃ y' x', (i.slice ysl xsl).px y x c = i.px y' x' c := ⟨_, _, rfl⟩

/-- C79 without optimization, for crops and selections. -/
theorem C79_crops (E : MEnv V) {kind : Nat} : ∀ {n : Node}, WF n → Fit n → Absent kind n → Flat n →
    NoData E kind n (finM E n)
  | .leaf l, _, hf, ha, _ => by
    have := empty_leaf E ha.1 hf
    rw [ha.2] at this
    exact this
  | .concat _ _, _, _, ha, _ => ha.elim
  | .overview _ _ _, _, _, ha, _ => ha.elim
  | .dequant _ _ _, _, _, ha, _ => ha.elim
  | .warp _ _ _ _, _, _, _, h => h.elim
  | .crop s y0 y1 x0 x1 c, hw, hf, ha, hl => by
    have ih := C79_crops E hw.1 hf.1 ha hl
    obtain ⟨w1, w2, w3, w4⟩ := hw
    obtain ⟨f1, f2, f3, f4, f5⟩ := hf
    have key : ∀ i : Img (V × Bool), (i.h : Int) = s.dsize.2 → (i.w : Int) = s.dsize.1 → i.n = s.nchan →
        ∃ j, (i.slice (some y0, some y1) (some x0, some x1)).select c = .ok j ∧ (j.h : Int) = y1 - y0 ∧
          (j.w : Int) = x1 - x0 ∧ j.n = nchan (.crop s y0 y1 x0 x1 c : Node) ∧
          ∀ y x k, ∃ y' x' k', j.px y x k = i.px y' x' k' := by
      intro i h1 h2 h3
      have e1 : ((i.slice (some y0, some y1) (some x0, some x1)).h : Int) = y1 - y0 := by
        show ((npSlice i.h (some y0) (some y1)).length : Int) = _
        rw [npSlice_range i.h y0 y1 (by omega) (by omega) (by omega), List.length_map, List.length_range]
        omega
      have e2 : ((i.slice (some y0, some y1) (some x0, some x1)).w : Int) = x1 - x0 := by
        show ((npSlice i.w (some x0) (some x1)).length : Int) = _
        rw [npSlice_range i.w x0 x1 (by omega) (by omega) (by omega), List.length_map, List.length_range]
        omega
      cases c with
      | none =>
        refine ⟨_, rfl, e1, e2, h3, fun y x k => ?_⟩
        obtain ⟨y', x', h⟩ := slice_const i (some y0, some y1) (some x0, some x1) y x k
        exact ⟨y', x', k, h⟩
      | some c =>
        have ok : (c.all fun j => decide (j < i.n)) = true := by
          rw [List.all_eq_true]
          intro j hj
          rw [h3]
          exact decide_eq_true (w4 j hj)
        refine ⟨⟨_, _, c.length, fun y x k =>
          (i.slice (some y0, some y1) (some x0, some x1)).px y x (c.getD k 0)⟩, ?_, e1, e2, rfl, fun y x k => ?_⟩
        · unfold Img.select
          have : (c.all fun j => decide (j < (i.slice (some y0, some y1) (some x0, some x1)).n)) = true := ok
          simp only [this, if_true]
        · obtain ⟨y', x', h⟩ := slice_const i (some y0, some y1) (some x0, some x1) y x (c.getD k 0)
          exact ⟨y', x', _, h⟩
    unfold NoData at ih ⊢
    simp only [finM]
    cases hk : E.fill kind with
    | refused =>
      simp only [hk] at ih ⊢
      rw [ih]
    | nans =>
      simp only [hk] at ih ⊢
      obtain ⟨i, e, h1, h2, h3, h4⟩ := ih
      obtain ⟨j, g1, g2, g3, g4, g5⟩ := key i h1 h2 h3
      rw [e]
      refine ⟨j, g1, g2, g3, g4, fun y x k => ?_⟩
      obtain ⟨y', x', k', h⟩ := g5 y x k
      rw [h]; exact h4 _ _ _
    | masked =>
      simp only [hk] at ih ⊢
      obtain ⟨i, e, h1, h2, h3, h4⟩ := ih
      obtain ⟨j, g1, g2, g3, g4, g5⟩ := key i h1 h2 h3
      rw [e]
      refine ⟨j, g1, g2, g3, g4, fun y x k => ?_⟩
      obtain ⟨y', x', k', h⟩ := g5 y x k
      rw [h]; exact h4 _ _ _

/-- Two of three channels of an image of 5 x 4 pixels without data, cropped and enlarged. -/
def absentPart (kind : Nat) : Node :=
  mkWarp (.crop (.leaf ⟨kind, (5, 4), 3, some [p! "a", p! "b", p! "c"], none, true⟩) 1 3 0 5 (some [2, 0])) (.scale 2)
    (some (10, 4)) .default

theorem absentPart_built (kind : Nat) : Built (absentPart kind) := by
  refine .warp _ _ (some (10, 4)) .default (.crop (.leaf ⟨kind, (5, 4), 3, some [p! "a", p! "b", p! "c"], none, true⟩) _ (some ((some 1, some 3), (some 0, some 5))) (some [2, 0])
    (.leaf _ ⟨?_, fun _ => ⟨rfl, rfl⟩⟩ ⟨show (0 : Int) ≤ 5 by decide, show (0 : Int) ≤ 4 by decide⟩) ?_ rfl) (by decide +kernel) 
    ⟨show (0 : Int) ≤ 10 by decide, show (0 : Int) ≤ 4 by decide⟩
  · intro ns h; cases h; rfl
  · intro i hi
    simp only [List.mem_cons, List.not_mem_nil, or_false] at hi
    rcases hi with rfl | rfl
    · exact show 2 < 3 by decide
    · exact show 0 < 3 by decide

example : (absentPart 1).dsize = (10, 4) ∧ (absentPart 1).nchan = 2 := by decide +kernel

/-- With 'ma' all is masked, with an unknown method KeyError is raised, else all is NaN. -/
example : NoData maskedEnv 1 (absentPart 1) (finalizeM Heur.code maskedEnv 3 (absentPart 1)) ∧
    finalizeM Heur.code maskedEnv 3 (absentPart 2) = .error .keyError ∧
    holds (finalizeM Heur.code maskedEnv 3 (absentPart 1)) (fun i => (i.px 3 9 1).2 && decide (i.h = 4)) = true ∧
    holds (finalizeM Heur.code maskedEnv 3 (absentPart 0)) (fun i => !(i.px 3 9 1).2) = true :=
  ⟨C79_finalize _ _ (absentPart_built 1) ⟨rfl, rfl⟩ 3 (by decide),
    C79_finalize Heur.code maskedEnv (kind := 2) (absentPart_built 2) ⟨rfl, rfl⟩ 3 (by decide),
    by decide +kernel, by decide +kernel⟩

/-- The crop alone, without optimization. -/
example (l : Leaf) (h : l = ⟨1, (5, 4), 3, some [p! "a", p! "b", p! "c"], none, true⟩) :
    NoData maskedEnv 1 (.crop (.leaf l) 1 3 0 5 (some [2, 0])) (finM maskedEnv (.crop (.leaf l) 1 3 0 5 (some [2, 0]))) := by
  subst h
  refine C79_crops maskedEnv ⟨⟨?_, fun _ => ⟨rfl, rfl⟩⟩, by decide, by decide, ?_⟩
    ⟨⟨by decide, by decide⟩, by decide, by decide, by decide, by decide⟩ ⟨rfl, rfl⟩ trivial
  · intro ns h; cases h; rfl
  · intro i hi
    simp only [List.mem_cons, List.not_mem_nil, or_false] at hi
    rcases hi with rfl | rfl <;> decide

/-- C79 fails within concats: of an image without data that is masked, next to any other image, nothing is masked,
and the pixels are whatever `np.empty` found. -/
theorem C79_concat_violated (E : MEnv V) {l : Leaf} (hl : l.nan = true) (hk : E.fill l.id = .masked) (p : Node)
    (d : Int × Int) {i a : Img (V × Bool)} (hp : finM E p = .ok a)
    (h : finM E (.concat [p, .leaf l] d) = .ok i) (y x k : Nat) : i.px y x (a.n + k) = (E.junk y x k, false) := by
  simp only [finM, finML, hp, hl, if_true, fillAbsent, hk] at h
  cases hf : fin E.vals (.leaf l) with
  | error e => rw [hf] at h; cases h
  | ok j =>
    rw [hf] at h
    simp only [catMasked, List.map_cons, List.map_nil, catAll] at h
    split at h
    · cases h
      rw [cat_px, if_neg (by simp [Img.unmask, Img.map])]
      simp [Img.unmask, Img.map]
    · cases h

/-- A file next to an image that is masked all over. -/
example : holds (finM maskedEnv (.concat [.leaf rgbLeaf, .leaf ⟨1, (5, 4), 1, some [p! "a"], none, true⟩] (5, 4)))
    (fun i => decide (i.n = 4) && !(i.px 0 0 3).2) = true := by decide +kernel

end Verif.Props
