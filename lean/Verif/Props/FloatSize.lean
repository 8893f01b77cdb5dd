/-
C88: sizes and boxes that are not whole.
-/
import Verif.FloatSize
import Verif.Props.Shape
import Verif.Props.Opt

namespace Verif.Props

open Verif.Tree Verif.Helpers Verif.Tree.Node

variable {V : Type}

theorem toInt_nonneg {x : ℚ} (h : 0 ≤ x) : 0 ≤ toInt x ∧ (toInt x : ℚ) ≤ x ∧ x < toInt x + 1 := by
  rw [toInt, if_pos h]
  exact ⟨Int.floor_nonneg.2 h, Int.floor_le x, Int.lt_floor_add_one x⟩

theorem toInt_int (k : Int) : toInt (k : ℚ) = k := by
  rw [toInt]
  split <;> simp

/-- **C88**, what is announced: the array of a warp is smaller than the announced size by less than a pixel, and has the
announced size only if that is whole. -/
theorem C88_size_partial {E : Env V} (hE : Env.Shaped E) {n : Node} (hb : Built n) (hm : Each E.Matches n) (hs : Smooth n)
    (tf : Affine) (d : ℚ × ℚ) (h0 : 0 ≤ d.1 ∧ 0 ≤ d.2) (a : Algo) (ha : a.interp ≠ .nearest) :
    ∃ i, FloatWarp.fin E ⟨n, tf, d, a⟩ = .ok i ∧ i.n = n.nchan ∧ (i.w : ℚ) ≤ d.1 ∧ d.1 < i.w + 1 ∧ (i.h : ℚ) ≤ d.2 ∧
      d.2 < i.h + 1 ∧ (((i.w : ℚ), (i.h : ℚ)) = d ↔ ∃ k l : Int, d = ((k : ℚ), (l : ℚ))) := by
  obtain ⟨j, hj, aj⟩ := C45_finalize_succeeds hE hb hm hs
  obtain ⟨x0, x1, x2⟩ := toInt_nonneg h0.1
  obtain ⟨y0, y1, y2⟩ := toInt_nonneg h0.2
  have e := hE.warp tf (validDsize d) a j
  simp only [Prod.mk.injEq, validDsize] at e
  obtain ⟨e1, e2, e3⟩ := e
  have w1 : (((toInt d.1).toNat : Nat) : ℚ) = toInt d.1 := by exact_mod_cast congrArg (Int.cast : Int → ℚ) (Int.toNat_of_nonneg x0)
  have w2 : (((toInt d.2).toNat : Nat) : ℚ) = toInt d.2 := by exact_mod_cast congrArg (Int.cast : Int → ℚ) (Int.toNat_of_nonneg y0)
  refine ⟨E.warp tf (validDsize d) a j, ?_, e3.trans aj.n, ?_⟩
  · simp only [FloatWarp.fin, hj, finWarp, if_neg ha]
  rw [validDsize, e1, e2, w1, w2]
  refine ⟨x1, x2, y1, y2, fun h => ⟨_, _, h.symm⟩, ?_⟩
  rintro ⟨k, l, rfl⟩
  simp only [toInt_int]

/-- C88 fails for sizes that are not whole: the image announces two and a half pixels and has two. -/
theorem C88_size_violated : let w := resizeFloat (.leaf rgbLeaf) (5 / 2, 3) .default
    w.dsize = (5 / 2, 3) ∧ ∃ i, w.fin shapeEnv = .ok i ∧ (i.w, i.h) = (2, 3) := by
  obtain ⟨i, hi, e⟩ := holds_ok (x := (resizeFloat (.leaf rgbLeaf) (5 / 2, 3) .default).fin shapeEnv)
    (f := fun i => decide ((i.w, i.h) = (2, 3))) (by decide +kernel)
  exact ⟨rfl, i, hi, of_decide_eq_true e⟩

example : Built (.leaf rgbLeaf) ∧ Each shapeEnv.Matches (.leaf rgbLeaf) ∧ Smooth (.leaf rgbLeaf) :=
  ⟨.leaf _ ⟨by intro l e; cases e; rfl, by intro e; cases e⟩ ⟨by decide, by decide⟩, fun _ => ⟨rfl, rfl, rfl⟩, trivial⟩

/-- C88, `resize`: the corner of the image goes to the announced corner, and what is cut off there is less than a pixel
wide. -/
theorem C88_resize (n : Node) (d : ℚ × ℚ) (h0 : 0 ≤ d.1 ∧ 0 ≤ d.2) (a : Algo) (hw : n.dsize.1 ≠ 0) (hh : n.dsize.2 ≠ 0) :
    let r := resizeFloat n d a
    r.tf.app (0, 0) = (0, 0) ∧ r.tf.app (n.dsize.1, n.dsize.2) = r.dsize ∧
    ∀ p : ℚ × ℚ, 0 < (r.tf.app p).1 → (r.tf.app p).1 + 1 ≤ r.dsize.1 → 0 < (r.tf.app p).2 →
      (r.tf.app p).2 + 1 ≤ r.dsize.2 → In (validDsize r.dsize) (r.tf.app p) := by
  have hw' : (n.dsize.1 : ℚ) ≠ 0 := by exact_mod_cast hw
  have hh' : (n.dsize.2 : ℚ) ≠ 0 := by exact_mod_cast hh
  refine ⟨by simp [resizeFloat, Affine.app], by simp [resizeFloat, Affine.app, hw', hh'], ?_⟩
  intro p a1 a2 a3 a4
  generalize (resizeFloat n d a).tf.app p = q at *
  obtain ⟨_, _, x2⟩ := toInt_nonneg h0.1
  obtain ⟨_, _, y2⟩ := toInt_nonneg h0.2
  simp only [resizeFloat] at a2 a4
  refine ⟨a1, ?_, a3, ?_⟩
  · simp only [resizeFloat, validDsize]; linarith
  · simp only [resizeFloat, validDsize]; linarith

/-- C88, `_coordinate_crop` of a box with a whole corner, anywhere: the array has as many whole pixels as fit into the box,
and shows the pixels of the image counted from the corner, and border where there are none. -/
theorem C88_coordinate_crop {E : Env V} (hE : Env.Moves E) {n : Node} {i : Img V} (hi : fin E n = .ok i) (x y : Int)
    {w h : ℚ} (hw : 0 ≤ w) (hh : 0 ≤ h) :
    ∃ j, (coordinateCrop n x y w h).fin E = .ok j ∧ (j.w : ℚ) ≤ w ∧ w < j.w + 1 ∧ (j.h : ℚ) ≤ h ∧ h < j.h + 1 ∧ j.n = i.n ∧
      ∀ r c k, r < j.h → c < j.w → k < j.n → j.px r c k = paddedPixel i (E.border .default) y x r c k := by
  obtain ⟨x0, x1, x2⟩ := toInt_nonneg hw
  obtain ⟨y0, y1, y2⟩ := toInt_nonneg hh
  have hm := hE (-x) (-y) (validDsize (w, h)) .default i (by decide)
  have w1 : (((toInt w).toNat : Nat) : ℚ) = toInt w := by exact_mod_cast congrArg (Int.cast : Int → ℚ) (Int.toNat_of_nonneg x0)
  have w2 : (((toInt h).toNat : Nat) : ℚ) = toInt h := by exact_mod_cast congrArg (Int.cast : Int → ℚ) (Int.toNat_of_nonneg y0)
  refine ⟨E.warp (.trans (-x) (-y)) (validDsize (w, h)) .default i, ?_, ?_⟩
  · have : (coordinateCrop n x y w h).algo.interp ≠ .nearest :=
      fun e => by cases e
    rw [FloatWarp.fin, show (coordinateCrop n x y w h).sub = n from rfl, hi]
    simp only [finWarp, if_neg this]
    simp only [coordinateCrop, Int.cast_neg]
  simp only [Int.cast_neg] at hm
  rw [hm.h, hm.w, hm.n]
  simp only [Img.shift, validDsize, w1, w2]
  refine ⟨x1, x2, y1, y2, trivial, ?_⟩
  intro r c k hr hc hk
  have := hm.px r c k (by rw [hm.h]; exact hr) (by rw [hm.w]; exact hc) (by rw [hm.n]; exact hk)
  simp only [validDsize] at this
  rw [this]
  simp only [Img.shift, paddedPixel, sub_neg_eq_add, Int.add_comm]

/-- C88: for a box of whole numbers within the image it is the crop. -/
theorem C88_coordinate_crop_inside {E : Env V} (hE : Env.Moves E) {n : Node} {i : Img V} (hi : fin E n = .ok i)
    (ha : Announced n i) (x y w h : Int) (hx : 0 ≤ x ∧ x + w ≤ n.dsize.1) (hy : 0 ≤ y ∧ y + h ≤ n.dsize.2) (hw : 0 ≤ w)
    (hh : 0 ≤ h) : ∃ j t c, (coordinateCrop n x y w h).fin E = .ok j ∧
      Tree.crop n (some ((some y, some (y + h)), (some x, some (x + w)))) none true true (.int 0) false = .ok t ∧
      fin E t = .ok c ∧ j.Same c ∧ ((t.dsize.1 : ℚ), (t.dsize.2 : ℚ)) = (coordinateCrop n x y w h).dsize := by
  obtain ⟨j, hj, w1, w2, h1, h2, n1, px⟩ := C88_coordinate_crop hE hi x y (w := w) (h := h) (by exact_mod_cast hw)
    (by exact_mod_cast hh)
  have ejw : (j.w : Int) = w := by
    have a1 : (j.w : Int) ≤ w := by exact_mod_cast w1
    have a2 : w < (j.w : Int) + 1 := by exact_mod_cast w2
    omega
  have ejh : (j.h : Int) = h := by
    have a1 : (j.h : Int) ≤ h := by exact_mod_cast h1
    have a2 : h < (j.h : Int) + 1 := by exact_mod_cast h2
    omega
  have ag := C24_crop_is_numpy_slice E n i hi ha ((some y, some (y + h)), (some x, some (x + w))) none
  have ry := npSlice_range i.h y (y + h) hy.1 (by omega) (by rw [ha.h]; exact hy.2)
  have rx := npSlice_range i.w x (x + w) hx.1 (by omega) (by rw [ha.w]; exact hx.2)
  cases ht : Tree.crop n (some ((some y, some (y + h)), (some x, some (x + w)))) none true true (.int 0) false with
  | error e => rw [ht] at ag; exact ag.elim
  | ok t =>
    rw [ht] at ag
    simp only [pixels, Img.select] at ag
    cases hc : fin E t with
    | error e => rw [hc] at ag; exact ag.elim
    | ok c =>
      rw [hc] at ag
      have an := C24_crop_announces n t ⟨by rw [← ha.w]; omega, by rw [← ha.h]; omega⟩ _ none ht
      refine ⟨j, t, c, hj, rfl, hc, ⟨?_, ?_, ?_, ?_⟩, ?_⟩
      · rw [ag.h]; simp only [Img.slice, ry, List.length_map, List.length_range]; omega
      · rw [ag.w]; simp only [Img.slice, rx, List.length_map, List.length_range]; omega
      · rw [ag.n, n1]; rfl
      · intro r q k hr hq hk
        rw [px r q k hr hq hk, ag.px r q k ?_ ?_ ?_]
        · simp only [Img.slice, ry, rx, paddedPixel]
          have := ha.h
          have := ha.w
          rw [if_pos (by omega), getD_shifted _ _ _ (by omega), getD_shifted _ _ _ (by omega)]
          congr 1 <;> omega
        · rw [ag.h]; simp only [Img.slice, ry, List.length_map, List.length_range]; omega
        · rw [ag.w]; simp only [Img.slice, rx, List.length_map, List.length_range]; omega
        · rw [ag.n]; simp only [Img.slice]; omega
      · rw [an.1, ← ha.w, ← ha.h]
        simp only [Int.toNat_natCast, rx, ry, List.length_map, List.length_range, coordinateCrop, Prod.mk.injEq,
          add_sub_cancel_left]
        constructor
        · exact_mod_cast congrArg (Int.cast : Int → ℚ) (Int.toNat_of_nonneg hw)
        · exact_mod_cast congrArg (Int.cast : Int → ℚ) (Int.toNat_of_nonneg hh)

/-- A box that begins to the left of the image and is not whole: two columns of border, then the image. -/
example : ∃ j, (coordinateCrop (.leaf rgbLeaf) (-2) 1 (9 / 2) (7 / 3)).fin gridEnv = .ok j ∧ (j.h, j.w) = (2, 4) ∧
    j.px 0 1 2 = (9, 9, 9) ∧ j.px 0 2 2 = (1, 0, 2) ∧ j.px 1 3 0 = (2, 1, 0) := by
  obtain ⟨i, hi, e⟩ := holds_ok (x := (coordinateCrop (.leaf rgbLeaf) (-2) 1 (9 / 2) (7 / 3)).fin gridEnv)
    (f := fun j => decide ((j.h, j.w) = (2, 4) ∧ j.px 0 1 2 = (9, 9, 9) ∧ j.px 0 2 2 = (1, 0, 2) ∧ j.px 1 3 0 = (2, 1, 0)))
    (by decide +kernel)
  exact ⟨i, hi, of_decide_eq_true e⟩

end Verif.Props
