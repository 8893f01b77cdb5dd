/-
C74: pixels outside of the source show the border value.
-/
import Verif.Border
import Verif.Props.Crop
import Verif.Props.Opt

namespace Verif.Props
open Verif Verif.Tree Verif.Helpers

/-- What channel `k` should show outside of the source. -/
inductive Wanted (t : Dtype) : BorderArg → Nat → Num → Prop
  | autoFloat (h : t.float = true) (k : Nat) : Wanted t (.text (p! "auto")) k none
  | autoInt (h : t.float = false) (hm : t.fill = none) (k : Nat) : Wanted t (.text (p! "auto")) k (some 0)
  | autoMasked (h : t.float = false) (f : Int) (hm : t.fill = some f) (k : Nat) :
      Wanted t (.text (p! "auto")) k (some f)
  | number (v : Num) (k : Nat) : Wanted t (.number v) k v
  | tuple (l : List Num) (k : Nat) (v : Num) (h : l[k]? = some v) : Wanted t (.tuple l) k v

/-- The type of the array can hold the value. -/
def Holds (t : Dtype) (v : Num) : Prop := t.float = true ∨ ∃ z : Int, v = some (z : ℚ)

theorem castFill_holds {t : Dtype} {v : Num} (h : Holds t v) : castFill t v = .ok v := by
  rcases h with h | ⟨z, rfl⟩
  · simp [castFill, h]
  · unfold castFill
    split
    · rfl
    · simp

/-- The entries of the resolved border are the wanted ones, for the first four channels. -/
theorem resolve_wanted {t : Dtype} {arg : BorderArg} {n k : Nat} {v : Num} (hk : k < n) (h4 : k < 4)
    (hw : Wanted t arg k v) (hl : ∀ l, arg = .tuple l → l.length ≤ 4) :
    ∃ l, resolveBorder t n arg = .ok (.values l) ∧ l[k]? = some v := by
  have hm : k < min 4 n := by omega
  cases hw with
  | autoFloat h =>
    exact ⟨_, by rw [resolveBorder, if_pos rfl], by simp [List.getElem?_replicate, hm, autoBorder, h]⟩
  | autoInt h hn =>
    exact ⟨_, by rw [resolveBorder, if_pos rfl], by simp [List.getElem?_replicate, hm, autoBorder, h, hn]⟩
  | autoMasked h f hn =>
    exact ⟨_, by rw [resolveBorder, if_pos rfl], by simp [List.getElem?_replicate, hm, autoBorder, h, hn]⟩
  | number => exact ⟨_, rfl, by simp [List.getElem?_replicate, hm]⟩
  | tuple l _ _ h => exact ⟨l, by rw [resolveBorder, if_neg (by have := hl l rfl; omega)], h⟩

/-- C74: when all channels want the same colour, the warp is the one of `Raster.lean` with this border colour: all
that is proved there about warps holds.  At most four colours are handed to the resampling, all equal to the wanted
one; a single NaN is handed over only for floats and `nearest`. -/
theorem C74_one_colour (K : Kw) (t : Dtype) (arg : BorderArg) (i : Img Num) (tf : Affine) (d : Int × Int) (a : Algo)
    (v : Num) (hi : 0 < i.n) (hw : ∀ k, k < i.n → Wanted t arg k v) (hl : ∀ l, arg = .tuple l → l.length ≤ 4)
    (hc : a.interp = .nearest → Holds t v) :
    ∃ b : Border, borderWarp K t arg tf d a i = finWarp (K.env b v) tf d a i ∧
      (b = .nan ∧ v = none ∧ t.float = true ∧ a.interp = .nearest ∨ ∃ l, b = .values l ∧ l.length ≤ 4 ∧ ∀ k, k < i.n → k < 4 → l[k]? = some v) := by
  obtain ⟨l, hr, h0⟩ := resolve_wanted (n := i.n) hi (by omega) (hw 0 hi) hl
  have hlen : l.length ≤ 4 := by
    cases arg with
    | text s =>
      rw [resolveBorder] at hr
      split at hr
      · simp only [Except.ok.injEq, Border.values.injEq] at hr
        rw [← hr]; simp
      · cases hr
    | number v =>
      simp only [resolveBorder, Except.ok.injEq, Border.values.injEq] at hr
      rw [← hr]; simp
    | tuple l' =>
      have := hl l' rfl
      rw [resolveBorder, if_neg (by omega)] at hr
      simp only [Except.ok.injEq, Border.values.injEq] at hr
      rw [← hr]; exact this
  have hall : ∀ k, k < i.n → k < 4 → l[k]? = some v := by
    intro k hk h4
    obtain ⟨l', hr', hk'⟩ := resolve_wanted (n := i.n) hk h4 (hw k hk) hl
    rw [hr] at hr'
    simp only [Except.ok.injEq, Border.values.injEq] at hr'
    rw [hr', hk']
  obtain ⟨l', rfl⟩ : ∃ l', l = v :: l' := by
    cases l with
    | nil => simp at h0
    | cons w l' =>
      simp only [List.getElem?_cons_zero, Option.some.injEq] at h0
      exact ⟨l', by rw [h0]⟩
  refine ⟨warpBorder t a (.values (v :: l')), ?_, ?_⟩
  · unfold borderWarp finWarp
    rw [hr]
    by_cases hn : a.interp = .nearest
    · simp only [hn, if_true]
      by_cases h1 : axisAligned tf = true
      · simp only [h1, if_true]
        by_cases h2 : hasOffset tf = true
        · simp only [h2, if_true, castFill_holds (hc hn)]
          rfl
        · simp only [h2]
          rfl
      · simp only [h1]
        rfl
    · simp only [hn, if_false, warpBorder, false_and]
      rfl
  · unfold warpBorder
    split
    · next h =>
      left
      refine ⟨rfl, ?_⟩
      have := h.2.2
      simp only [Border.values.injEq, List.cons.injEq] at this
      exact ⟨this.1, h.2.1, h.1⟩
    · exact .inr ⟨_, rfl, hlen, hall⟩

/-- C74: a nearest neighbour warp by a positive scale and a translation that does not raise shows the source, and
outside of it the wanted colour, for any number of channels.  Missing from the full statement: all channels want the
same colour, see `C74_tuple_violated`. -/
theorem C74_nearest_partial (K : Kw) (t : Dtype) (arg : BorderArg) (i j : Img Num) (sx sy tx ty : ℚ)
    (hsx : 0 < sx) (hsy : 0 < sy) (ht : tx ≠ 0 ∨ ty ≠ 0) (d : Int × Int) (a : Algo) (hn : a.interp = .nearest)
    (v : Num) (hi : 0 < i.n) (hw : ∀ k, k < i.n → Wanted t arg k v) (hl : ∀ l, arg = .tuple l → l.length ≤ 4)
    (hc : Holds t v) (h : borderWarp K t arg ⟨sx, 0, tx, 0, sy, ty⟩ d a i = .ok j) :
    (j.h : Int) = d.2 ∧ (j.w : Int) = d.1 ∧ j.n = i.n ∧ ∀ y x k, j.px y x k =
      paddedPixel i v (⌊((y : ℚ) - ty) / sy⌋ - y) (⌊((x : ℚ) - tx) / sx⌋ - x) y x k := by
  obtain ⟨b, hb, _⟩ := C74_one_colour K t arg i ⟨sx, 0, tx, 0, sy, ty⟩ d a v hi hw hl (fun _ => hc)
  rw [hb] at h
  exact C44_nearest_pixels_partial { K.env b v with img := fun _ => i } (.leaf ⟨0, (0, 0), 0, none, none, false⟩)
    i j rfl sx sy tx ty hsx hsy ht d a hn h

/-- `kwimage.warp_affine` fills the pixels of a region: with a scalar, with the entry of the channel, or, past the
fourth channel, with the first four entries over and over (this is what the comment in the code says about
OpenCV). -/
def Fills (K : Kw) (outside : Affine → Int × Int → Img Num → Nat → Nat → Prop) : Prop :=
  ∀ tf d a i y x k, outside tf d i y x →
    (K.warp tf d a .nan i).px y x k = none ∧
    ∀ l v, l[k % 4]? = some v → (K.warp tf d a (.values l) i).px y x k = v

/-- C74: with any other interpolation each channel of a pixel outside of the source has its wanted colour, if the
resampling fills such pixels with the colours it is given: numbers and `'auto'` for any number of channels, tuples for
at most four. -/
theorem C74_other_partial (K : Kw) (outside : Affine → Int × Int → Img Num → Nat → Nat → Prop) (hK : Fills K outside)
    (t : Dtype) (arg : BorderArg) (i : Img Num) (tf : Affine) (d : Int × Int) (a : Algo) (hn : a.interp ≠ .nearest)
    (hl : ∀ l, arg = .tuple l → l.length ≤ 4) (ha : ∀ s, arg = .text s → s = p! "auto") :
    ∃ j, borderWarp K t arg tf d a i = .ok j ∧
      ∀ y x k v, outside tf d i y x → k < i.n → Wanted t arg k v → j.px y x k = v := by
  have hr : ∃ l, resolveBorder t i.n arg = .ok (.values l) ∧
      ∀ k v, k < i.n → Wanted t arg k v → l[k % 4]? = some v := by
    have hmod : ∀ k, k < i.n → k % 4 < i.n := fun k hk => lt_of_le_of_lt (Nat.mod_le _ _) hk
    have h4 : ∀ k, k % 4 < 4 := fun k => Nat.mod_lt _ (by omega)
    cases arg with
    | text s =>
      obtain rfl := ha s rfl
      refine ⟨_, by rw [resolveBorder, if_pos rfl], fun k v hk hw => ?_⟩
      have hw' : Wanted t (.text (p! "auto")) (k % 4) v := by
        cases hw with
        | autoFloat h => exact .autoFloat h _
        | autoInt h h' => exact .autoInt h h' _
        | autoMasked h f h' => exact .autoMasked h f h' _
      obtain ⟨l, e1, e2⟩ := resolve_wanted (hmod k hk) (h4 k) hw' hl
      rw [resolveBorder, if_pos rfl] at e1
      simp only [Except.ok.injEq, Border.values.injEq] at e1
      rw [e1, e2]
    | number w =>
      refine ⟨_, rfl, fun k v hk hw => ?_⟩
      cases hw
      obtain ⟨l, e1, e2⟩ := resolve_wanted (hmod k hk) (h4 k) (.number (t := t) w _) hl
      simp only [resolveBorder, Except.ok.injEq, Border.values.injEq] at e1
      rw [e1, e2]
    | tuple l =>
      have hl' := hl l rfl
      refine ⟨l, by rw [resolveBorder, if_neg (by omega)], fun k v hk hw => ?_⟩
      cases hw with
      | tuple _ _ _ h =>
        have hk4 : k < l.length := by
          by_contra hc
          rw [List.getElem?_eq_none (by omega)] at h
          cases h
        rw [Nat.mod_eq_of_lt (by omega)]
        exact h
  obtain ⟨l, hr, hall⟩ := hr
  refine ⟨K.warp tf d a (.values l) i, by unfold borderWarp; rw [hr]; simp only [hn, if_false], ?_⟩
  intro y x k v ho hk hw
  exact ((hK tf d a i y x k ho).2 l v (hall k v hk hw))

/-- C74: more than four colours are refused, whatever the image and the interpolation. -/
theorem C74_too_many (K : Kw) (t : Dtype) (l : List Num) (hl : 4 < l.length) (tf : Affine) (d : Int × Int) (a : Algo)
    (i : Img Num) : borderWarp K t (.tuple l) tf d a i = .error .valueError := by
  simp [borderWarp, resolveBorder, hl]

/-- Resampling that reads the nearest pixel and fills the outside; a text repeats the pixels at the edge. -/
def exactKw : Kw where
  warp := fun tf d _ b i => ⟨d.2.toNat, d.1.toNat, i.n, fun y x k =>
    let p := tf.inv.app ((x : ℚ) + 1 / 2, (y : ℚ) + 1 / 2)
    if 0 ≤ ⌊p.2⌋ ∧ ⌊p.2⌋ < i.h ∧ 0 ≤ ⌊p.1⌋ ∧ ⌊p.1⌋ < i.w then i.px ⌊p.2⌋.toNat ⌊p.1⌋.toNat k
    else match b with
      | .nan => none
      | .values l => (l[k % 4]?).join
      | .text _ => i.px (min ⌊p.2⌋.toNat (i.h - 1)) (min ⌊p.1⌋.toNat (i.w - 1)) k⟩
  resize := fun d i => ⟨d.2.toNat, d.1.toNat, i.n, fun y x k => i.px (y * i.h / d.2.toNat) (x * i.w / d.1.toNat) k⟩

/-- The pixel has no source. -/
def noSource (tf : Affine) (_ : Int × Int) (i : Img Num) (y x : Nat) : Prop :=
  let p := tf.inv.app ((x : ℚ) + 1 / 2, (y : ℚ) + 1 / 2)
  ¬ (0 ≤ ⌊p.2⌋ ∧ ⌊p.2⌋ < i.h ∧ 0 ≤ ⌊p.1⌋ ∧ ⌊p.1⌋ < i.w)

example : Fills exactKw noSource := by
  intro tf d a i y x k ho
  simp only [noSource] at ho
  refine ⟨?_, fun l v hv => ?_⟩ <;> simp only [exactKw, if_neg ho]
  rw [hv]; rfl

/-- One row of three pixels in five channels. -/
def rowImg : Img Num := ⟨1, 3, 5, fun _ x k => some ((10 * k + x : Nat) : ℚ)⟩

example : ∃ j, borderWarp exactKw ⟨false, none⟩ (.number (some 7)) (.trans 1 0) (3, 1) nearest rowImg = .ok j ∧
    (∀ k, k < rowImg.n → Wanted ⟨false, none⟩ (.number (some 7)) k (some 7)) ∧ Holds ⟨false, none⟩ (some 7) ∧
    j.px 0 0 4 = some 7 ∧ j.px 0 1 4 = some 40 := by
  obtain ⟨j, hj, h⟩ := holds_ok (x := borderWarp exactKw ⟨false, none⟩ (.number (some 7)) (.trans 1 0) (3, 1) nearest
    rowImg) (f := fun j => decide (j.px 0 0 4 = some 7 ∧ j.px 0 1 4 = some 40)) (by decide +kernel)
  have h := of_decide_eq_true h
  exact ⟨j, hj, fun k _ => .number _ _, .inr ⟨7, rfl⟩, h⟩

/-- C74 fails for several colours with nearest neighbours: every channel gets the first one (with any other
interpolation each gets its own). -/
theorem C74_tuple_violated :
    ∃ j, borderWarp exactKw ⟨true, none⟩ (.tuple [some 1, some 2]) (.trans 1 0) (3, 1) nearest
        { rowImg with n := 2 } = .ok j ∧
      Wanted ⟨true, none⟩ (.tuple [some 1, some 2]) 1 (some 2) ∧ j.px 0 0 1 = some 1 := by
  obtain ⟨j, hj, h⟩ := holds_ok (x := borderWarp exactKw ⟨true, none⟩ (.tuple [some 1, some 2]) (.trans 1 0) (3, 1)
    nearest { rowImg with n := 2 }) (f := fun j => decide (j.px 0 0 1 = some 1)) (by decide +kernel)
  exact ⟨j, hj, .tuple _ _ _ rfl, of_decide_eq_true h⟩

/-- C74 fails for nearest neighbours if the border is described by a text: scaled by 2 and moved by 1, the first
pixel of the row should be seen, but the array is the one warped by the inverse transform, which has more different
values. -/
theorem C74_text_violated :
    ∃ j, borderWarp exactKw ⟨true, none⟩ (.text (p! "replicate")) ⟨2, 0, 1, 0, 1, 0⟩ (3, 1) nearest
        { rowImg with w := 5, n := 1 } = .ok j ∧
      (exactKw.warp ⟨2, 0, 1, 0, 1, 0⟩ (3, 1) nearest (.text (p! "replicate")) { rowImg with w := 5, n := 1 }).px 0 1 0 = some 0 ∧
      j.px 0 1 0 = some 4 := by
  obtain ⟨j, hj, h⟩ := holds_ok (x := borderWarp exactKw ⟨true, none⟩ (.text (p! "replicate")) ⟨2, 0, 1, 0, 1, 0⟩ (3, 1)
    nearest { rowImg with w := 5, n := 1 }) (f := fun j => decide (j.px 0 1 0 = some 4)) (by decide +kernel)
  exact ⟨j, hj, by decide +kernel, of_decide_eq_true h⟩

/-- C74 fails for a NaN border of integer images with nearest neighbours, and for images without channels: an
exception is raised. -/
theorem C74_raises_violated :
    borderWarp exactKw ⟨false, none⟩ (.number none) (.trans 1 0) (3, 1) nearest rowImg = .error .valueError ∧
    borderWarp exactKw ⟨false, none⟩ (.number (some 0)) (.trans 1 0) (3, 1) nearest { rowImg with n := 0 } =
      .error .indexError := by
  refine ⟨?_, ?_⟩
  · simp [borderWarp, resolveBorder, castFill, axisAligned, hasOffset, Affine.trans, nearest, rowImg, List.replicate]
  · simp [borderWarp, resolveBorder, axisAligned, hasOffset, Affine.trans, nearest]

/-- C74: images of integers cannot hold a border that is no integer; nearest neighbours fill with the next integer
towards zero. -/
theorem C74_fraction (K : Kw) (t : Dtype) (ht : t.float = false) (q : ℚ) (r : Int) (h1 : |(r : ℚ)| ≤ |q|)
    (h2 : |q| < |(r : ℚ)| + 1) (h3 : 0 ≤ (r : ℚ) * q) (tf : Affine) (h4 : axisAligned tf = true)
    (h5 : hasOffset tf = true) (d : Int × Int) (a : Algo) (hn : a.interp = .nearest) (i : Img Num) :
    borderWarp K t (.number (some q)) tf d a i = borderWarp K t (.number (some (r : ℚ))) tf d a i := by
  have key : castFill t (some q) = castFill t (some (r : ℚ)) := by
    have er : castFill t (some (r : ℚ)) = .ok (some (r : ℚ)) := by
      unfold castFill
      rw [ht]
      by_cases h : (0 : ℚ) ≤ (r : ℚ)
      · simp
      · simp
    rw [er]
    unfold castFill
    rw [ht]
    simp only [Bool.false_eq_true, if_false, Except.ok.injEq, Option.some.injEq, Int.cast_inj]
    by_cases h : 0 ≤ q
    · rw [if_pos h, Int.floor_eq_iff]
      have hr : (0 : ℚ) ≤ r := by
        by_contra hr
        push Not at hr
        have hq : q = 0 := by
          rcases h.lt_or_eq with hq | hq
          · nlinarith [mul_pos hq (neg_pos.2 hr)]
          · exact hq.symm
        rw [hq, abs_zero] at h1
        have := abs_pos.2 hr.ne
        linarith
      rw [abs_of_nonneg h, abs_of_nonneg hr] at h1 h2
      exact ⟨h1, h2⟩
    · rw [if_neg h, Int.ceil_eq_iff]
      push Not at h
      have hr : (r : ℚ) ≤ 0 := by
        by_contra hr
        push Not at hr
        nlinarith [mul_pos hr (neg_pos.2 h)]
      rw [abs_of_neg h, abs_of_nonpos hr] at h1 h2
      exact ⟨by linarith, by linarith⟩
  unfold borderWarp resolveBorder
  simp only [hn, h4, h5, if_true]
  cases hm : min 4 i.n with
  | zero => simp
  | succ m => simp only [List.replicate_succ, key]

/-- A border of -3/2 is stored as -1. -/
example : ∃ j, borderWarp exactKw ⟨false, none⟩ (.number (some (-3 / 2))) (.trans 1 0) (3, 1) nearest rowImg = .ok j ∧
    j.px 0 0 0 = some (-1) := by
  rw [C74_fraction exactKw ⟨false, none⟩ rfl (-3 / 2) (-1) (by norm_num [abs_of_neg]) (by norm_num [abs_of_neg])
    (by norm_num) (.trans 1 0) (by decide +kernel) (by decide +kernel) (3, 1) nearest rfl rowImg]
  obtain ⟨j, hj, h⟩ := holds_ok (x := borderWarp exactKw ⟨false, none⟩ (.number (some ((-1 : Int) : ℚ))) (.trans 1 0) (3, 1)
    nearest rowImg) (f := fun j => decide (j.px 0 0 0 = some (-1))) (by decide +kernel)
  exact ⟨j, hj, of_decide_eq_true h⟩

end Verif.Props
