/-
C78: the no-data value of a quantization marks exactly the pixels equal to it.
-/
import Verif.Nodata
import Mathlib.Data.EReal.Basic

namespace Verif.Props

open Helpers

/-- The extended real number a float stands for. -/
noncomputable def Flt.ereal : Flt → Option EReal
  | .fin q => some (((q : ℝ)) : EReal)
  | .inf true => some ⊥
  | .inf false => some ⊤
  | .nan => none

/-- The number a real pixel shows. -/
noncomputable def Pixel.shows : Pixel → Option EReal
  | .bool b => some (if b then 1 else 0)
  | .int n => some ((n : ℝ) : EReal)
  | .float x => Flt.ereal x
  | .complex .. => none

/-- The number a scalar of Python is. -/
noncomputable def Scalar.stands : Scalar → Option EReal
  | .bool b => some (if b then 1 else 0)
  | .int n => some ((n : ℝ) : EReal)
  | .float x => Flt.ereal x
  | .complex .. => none
  | .text _ => none

/-- The pixel is an element of an array of this type. -/
def Pixel.Of : Kind → Pixel → Prop
  | .bool, .bool _ => True
  | .int t, .int n => t.min ≤ n ∧ n ≤ t.max
  | .float _, .float .nan => True
  | .float _, .float (.inf _) => True
  | .float m, .float (.fin q) => |q| ≤ m
  | _, _ => False

/-- The floats of the array are not larger than those of Python. -/
def Kind.Small (C : Conv) : Kind → Prop
  | .float m => m ≤ C.max
  | _ => True

theorem flt_eq (a b : Flt) : a.eq b = true ↔ ∃ x, Flt.ereal a = some x ∧ Flt.ereal b = some x := by
  cases a with
  | nan => simp [Helpers.Flt.eq, Flt.ereal]
  | fin p =>
    cases b with
    | nan => simp [Helpers.Flt.eq, Flt.ereal]
    | fin q => simp [Helpers.Flt.eq, Flt.ereal, eq_comm]
    | inf neg => cases neg <;> simp [Helpers.Flt.eq, Flt.ereal]
  | inf neg =>
    cases b with
    | nan => cases neg <;> simp [Helpers.Flt.eq, Flt.ereal]
    | fin q => cases neg <;> simp [Helpers.Flt.eq, Flt.ereal]
    | inf neg' => cases neg <;> cases neg' <;> simp [Helpers.Flt.eq, Flt.ereal]

theorem shows_parts {p : Pixel} (h : ∀ re im, p ≠ .complex re im) :
    Pixel.shows p = Flt.ereal p.parts.1 ∧ p.parts.2 = .fin 0 := by
  cases p with
  | bool b => cases b <;> simp [Pixel.shows, Helpers.Pixel.parts, Flt.ereal]
  | int n => simp [Pixel.shows, Helpers.Pixel.parts, Flt.ereal]
  | float x => simp [Pixel.shows, Helpers.Pixel.parts]
  | complex re im => exact absurd rfl (h re im)

theorem stands_parts {v : Scalar} (h : ∀ re im, v ≠ .complex re im) :
    (v.parts = none ∧ Scalar.stands v = none) ∨ ∃ x, v.parts = some (x, .fin 0) ∧ Scalar.stands v = Flt.ereal x := by
  cases v with
  | bool b => cases b <;> simp [Scalar.stands, Helpers.Scalar.parts, Flt.ereal]
  | int n => simp [Scalar.stands, Helpers.Scalar.parts, Flt.ereal]
  | float x => simp [Scalar.stands, Helpers.Scalar.parts]
  | text s => simp [Scalar.stands, Helpers.Scalar.parts]
  | complex re im => exact absurd rfl (h re im)

theorem Pixel.Of.real {k : Kind} {p : Pixel} (h : Pixel.Of k p) : ∀ re im, p ≠ .complex re im := by
  rintro re im rfl
  cases k <;> exact h

theorem equals_iff {p : Pixel} {v : Scalar} (hp : ∀ re im, p ≠ .complex re im) (hv : ∀ re im, v ≠ .complex re im) :
    p.equals v = true ↔ ∃ x, Pixel.shows p = some x ∧ Scalar.stands v = some x := by
  obtain ⟨p1, p2⟩ := shows_parts hp
  rw [p1]
  rcases stands_parts hv with ⟨h1, h2⟩ | ⟨x, h1, h2⟩
  · simp [Helpers.Pixel.equals, h1, h2]
  · rw [h2, ← flt_eq]
    simp [Helpers.Pixel.equals, h1, p2, Helpers.Flt.eq]

theorem trunc_int (n : Int) : trunc (n : ℚ) = n := by
  unfold trunc
  split <;> simp

/-- A value that some pixel equals is representable. -/
theorem representable_of_equals {C : Conv} {k : Kind} (hk : Kind.Small C k) {p : Pixel} (hp : Pixel.Of k p) {v : Scalar}
    (hv : ∀ re im, v ≠ .complex re im) (h : p.equals v = true) : representableIn C v k = true := by
  have eqfin : ∀ {a : Flt} {q : ℚ}, a.eq (.fin q) = true → a = .fin q := by
    intro a q h
    cases a <;> simp [Helpers.Flt.eq] at h
    rw [h]
  have fineq : ∀ {a : Flt} {q : ℚ}, (Flt.fin q).eq a = true → a = .fin q := by
    intro a q h
    cases a <;> simp [Helpers.Flt.eq] at h
    rw [h]
  cases k with
  | other => rfl
  | complex m => cases p <;> exact hp.elim
  | bool =>
    cases p with
    | int n => exact hp.elim
    | float x => exact hp.elim
    | complex re im => exact hp.elim
    | bool b =>
      cases v with
      | complex re im => exact absurd rfl (hv re im)
      | text s => simp [Helpers.Pixel.equals, Helpers.Scalar.parts] at h
      | bool c => cases c <;> simp [representableIn, Helpers.Scalar.isInt, Helpers.Scalar.parts, Helpers.Flt.eq]
      | int n =>
        simp only [Helpers.Pixel.equals, Helpers.Scalar.parts, Helpers.Pixel.parts, Bool.and_eq_true] at h
        have := fineq h.1
        cases b <;> simp_all [representableIn, Helpers.Scalar.isInt, Helpers.Scalar.parts, Helpers.Flt.eq]
      | float x =>
        simp only [Helpers.Pixel.equals, Helpers.Scalar.parts, Helpers.Pixel.parts, Bool.and_eq_true] at h
        have := fineq h.1
        cases b <;> simp_all [representableIn, Helpers.Scalar.isInt, Helpers.Scalar.parts, Helpers.Flt.eq]
  | int t =>
    cases p with
    | bool n => exact hp.elim
    | float x => exact hp.elim
    | complex re im => exact hp.elim
    | int i =>
      have hp : t.min ≤ i ∧ i ≤ t.max := hp
      cases v with
      | complex re im => exact absurd rfl (hv re im)
      | text s => simp [Helpers.Pixel.equals, Helpers.Scalar.parts] at h
      | bool c =>
        simp only [Helpers.Pixel.equals, Helpers.Scalar.parts, Helpers.Pixel.parts, Bool.and_eq_true] at h
        have := fineq h.1
        simp only [Helpers.Flt.fin.injEq] at this
        have e : (if c = true then 1 else 0 : Int) = i := by
          cases c <;> simp at this ⊢ <;> exact_mod_cast this
        simp only [representableIn, Helpers.Conv.toInt, e, decide_eq_true_eq]
        exact hp
      | int n =>
        simp only [Helpers.Pixel.equals, Helpers.Scalar.parts, Helpers.Pixel.parts, Bool.and_eq_true] at h
        have := fineq h.1
        simp only [Helpers.Flt.fin.injEq, Int.cast_inj] at this
        simp only [representableIn, Helpers.Conv.toInt, this, decide_eq_true_eq]
        exact hp
      | float x =>
        simp only [Helpers.Pixel.equals, Helpers.Scalar.parts, Helpers.Pixel.parts, Bool.and_eq_true] at h
        have := fineq h.1
        subst this
        simp only [representableIn, Helpers.Conv.toInt, Helpers.Flt.isInteger, Rat.den_intCast, trunc_int,
          decide_true, Bool.not_true, decide_eq_true_eq]
        exact hp
  | float m =>
    cases p with
    | bool n => exact hp.elim
    | int n => exact hp.elim
    | complex re im => exact hp.elim
    | float y =>
      have hk : m ≤ C.max := hk
      cases v with
      | complex re im => exact absurd rfl (hv re im)
      | text s => simp [Helpers.Pixel.equals, Helpers.Scalar.parts] at h
      | bool c =>
        simp only [Helpers.Pixel.equals, Helpers.Scalar.parts, Helpers.Pixel.parts, Bool.and_eq_true] at h
        have := eqfin h.1
        subst this
        have hp := abs_le.1 (hp : |_| ≤ m)
        simp only [representableIn, Helpers.Conv.toFloat, Helpers.Flt.isFinite, Helpers.Flt.within, Bool.not_true,
          Bool.false_eq_true, if_false, decide_eq_true_eq]
        exact hp
      | int n =>
        simp only [Helpers.Pixel.equals, Helpers.Scalar.parts, Helpers.Pixel.parts, Bool.and_eq_true] at h
        have := eqfin h.1
        subst this
        have hp := abs_le.1 (hp : |_| ≤ m)
        simp only [representableIn, Helpers.Conv.toFloat, Helpers.Conv.ofInt]
        rw [if_pos ⟨by linarith, by linarith⟩]
        simp only [Helpers.Flt.isFinite, Helpers.Flt.within, Bool.not_true,
          Bool.false_eq_true, if_false, decide_eq_true_eq]
        exact hp
      | float x =>
        simp only [Helpers.Pixel.equals, Helpers.Scalar.parts, Helpers.Pixel.parts, Bool.and_eq_true] at h
        simp only [representableIn, Helpers.Conv.toFloat]
        cases x with
        | nan => rfl
        | inf neg => rfl
        | fin q =>
          have := eqfin h.1
          subst this
          have hp := abs_le.1 (hp : |_| ≤ m)
          simp only [Helpers.Flt.isFinite, Helpers.Flt.within, Bool.not_true,
            Bool.false_eq_true, if_false, decide_eq_true_eq]
          exact hp

/-- C78: in arrays of truth values, integers and floats the no-data value, of any Python type, masks exactly the pixels
that show the number it stands for; texts and NaN mask nothing.  Missing: complex no-data values. -/
theorem C78_mask_partial {C : Conv} {k : Kind} (hk : Kind.Small C k) {p : Pixel} (hp : Pixel.Of k p) {v : Scalar}
    (hv : ∀ re im, v ≠ .complex re im) :
    nodataMask C k (some v) p = true ↔ ∃ x, Pixel.shows p = some x ∧ Scalar.stands v = some x := by
  rw [← equals_iff hp.real hv]
  unfold nodataMask
  simp only
  constructor
  · intro h
    split at h
    · exact h
    · cases h
  · intro h
    rw [if_pos (representable_of_equals hk hp hv h), h]

/-- C78: a pixel with a finite value becomes NaN exactly if it shows the no-data value; the others are rescaled. -/
theorem C78_pixels_partial {C : Conv} {k : Kind} (hk : Kind.Small C k) {p : Pixel} (hp : Pixel.Of k p) {x : ℚ}
    (hx : Pixel.shows p = some ((x : ℝ) : EReal)) (q : Quantization) {v : Scalar} (hv : ∀ re im, v ≠ .complex re im) :
    dequantizeAny C k q (some v) p = .nan ∧ Scalar.stands v = some ((x : ℝ) : EReal) ∨
    Scalar.stands v ≠ some ((x : ℝ) : EReal) ∧ dequantizeAny C k q (some v) p =
      .fin ((x - q.quantMin) * dequantScale q + q.origMin) := by
  have hparts : p.parts.1 = .fin x := by
    have h := (shows_parts hp.real).1
    rw [hx] at h
    cases hy : p.parts.1 with
    | nan => rw [hy] at h; cases h
    | inf neg => rw [hy] at h; cases neg <;> simp [Flt.ereal] at h
    | fin y =>
      rw [hy] at h
      simp only [Flt.ereal, Option.some.injEq, EReal.coe_eq_coe_iff, Rat.cast_inj] at h
      rw [h]
  unfold dequantizeAny
  by_cases hs : Scalar.stands v = some ((x : ℝ) : EReal)
  · left
    rw [if_pos ((C78_mask_partial hk hp hv).2 ⟨_, hx, hs⟩)]
    exact ⟨rfl, hs⟩
  · right
    refine ⟨hs, ?_⟩
    rw [if_neg fun h => ?_, hparts]
    · rfl
    · obtain ⟨y, h1, h2⟩ := (C78_mask_partial hk hp hv).1 h
      rw [hx] at h1
      cases h1
      exact hs h2

/-- C78: without a no-data value nothing is masked. -/
theorem C78_none (C : Conv) (k : Kind) (q : Quantization) {p : Pixel} {x : ℚ} (hp : p.parts.1 = .fin x) :
    dequantizeAny C k q none p = .fin ((x - q.quantMin) * dequantScale q + q.origMin) := by
  simp [dequantizeAny, nodataMask, hp, Helpers.Flt.rescale]

/-- C78: dequantizing keeps the order of all pixels that show a number, the infinities included, or reverses it if
the scale is negative. -/
theorem C78_order (C : Conv) (k : Kind) (q : Quantization) {a b : Flt} {x y : EReal}
    (ha : Flt.ereal a = some x) (hb : Flt.ereal b = some y) (h : x ≤ y) :
    (0 < dequantScale q → ∃ x' y', Flt.ereal (dequantizeAny C k q none (.float a)) = some x' ∧
      Flt.ereal (dequantizeAny C k q none (.float b)) = some y' ∧ x' ≤ y') ∧
    (dequantScale q < 0 → ∃ x' y', Flt.ereal (dequantizeAny C k q none (.float a)) = some x' ∧
      Flt.ereal (dequantizeAny C k q none (.float b)) = some y' ∧ y' ≤ x') := by
  have e : ∀ c : Flt, dequantizeAny C k q none (.float c) = c.rescale q := fun c => by
    simp [dequantizeAny, nodataMask, Helpers.Pixel.parts]
  simp only [e]
  have key : ∀ u v : ℚ, ((u : ℝ) : EReal) ≤ ((v : ℝ) : EReal) ↔ u ≤ v := by
    intro u v; rw [EReal.coe_le_coe_iff]; exact_mod_cast Iff.rfl
  refine ⟨fun hs => ?_, fun hs => ?_⟩
  · have hs0 : ¬ dequantScale q = 0 := by linarith
    have hs1 : ¬ dequantScale q < 0 := by linarith
    rcases a with u | na | _ <;> rcases b with v | nb | _ <;>
      simp only [Flt.ereal, Option.some.injEq, reduceCtorEq] at ha hb <;>
      simp only [Helpers.Flt.rescale, hs0, hs1, if_false, Flt.ereal]
    · subst ha hb
      rw [key] at h
      refine ⟨_, _, rfl, rfl, ?_⟩
      rw [key]
      nlinarith
    · cases nb
      · exact ⟨_, _, rfl, rfl, le_top⟩
      · cases hb; subst ha; simp at h
    · cases na
      · cases ha; subst hb; simp at h
      · exact ⟨_, _, rfl, rfl, bot_le⟩
    · cases na <;> cases nb <;> cases ha <;> cases hb
      · exact ⟨_, _, rfl, rfl, le_rfl⟩
      · simp at h
      · exact ⟨_, _, rfl, rfl, bot_le⟩
      · exact ⟨_, _, rfl, rfl, le_rfl⟩
  · have hs0 : ¬ dequantScale q = 0 := by linarith
    rcases a with u | na | _ <;> rcases b with v | nb | _ <;>
      simp only [Flt.ereal, Option.some.injEq, reduceCtorEq] at ha hb <;>
      simp only [Helpers.Flt.rescale, hs0, hs, if_true, if_false, Flt.ereal]
    · subst ha hb
      rw [key] at h
      refine ⟨_, _, rfl, rfl, ?_⟩
      rw [key]
      nlinarith
    · cases nb
      · exact ⟨_, _, rfl, rfl, bot_le⟩
      · cases hb; subst ha; simp at h
    · cases na
      · cases ha; subst hb; simp at h
      · exact ⟨_, _, rfl, rfl, le_top⟩
    · cases na <;> cases nb <;> cases ha <;> cases hb
      · exact ⟨_, _, rfl, rfl, le_rfl⟩
      · simp at h
      · exact ⟨_, _, rfl, rfl, bot_le⟩
      · exact ⟨_, _, rfl, rfl, le_rfl⟩

/-- Quantized downwards: a larger number stands for a smaller one. -/
example : dequantScale ⟨10, 0, 0, 5, none⟩ < 0 := by norm_num [dequantScale]

/-- C78: for integers this is the dequantization of C19. -/
theorem C78_integers (C : Conv) (t : IInfo) (q : Quantization) (n : Int) :
    dequantizeAny C (.int t) q (q.nodata.map .int) (.int n) =
      match dequantizePx q t n with | none => .nan | some x => .fin x := by
  unfold dequantizeAny dequantizePx
  cases q.nodata with
  | none => rfl
  | some m =>
    simp only [Option.map_some, nodataMask, representableIn, Helpers.Conv.toInt, representable,
      Helpers.Pixel.equals, Helpers.Scalar.parts, Helpers.Pixel.parts, Helpers.Flt.eq, decide_true, Bool.and_true,
      Helpers.Flt.rescale]
    by_cases h1 : t.min ≤ m ∧ m ≤ t.max <;> by_cases h2 : n = m <;> simp [h1, h2]

/-- The conversions of Python, for texts that are not numbers. -/
def noNumbers : Conv := ⟨fun _ => none, fun _ => none, fun _ => none, 10 ^ 308⟩

/-- Bytes with no-data 0, 0.0, False, NaN, 0.5, 256 and 'auto'; half precision with no-data minus infinity. -/
example : (∀ v ∈ [Scalar.int 0, .float (.fin 0), .bool false], nodataMask noNumbers (.int (.unsigned 8)) (some v) (.int 0)) ∧
    (∀ v ∈ [Scalar.float .nan, .float (.fin (1 / 2)), .int 256, .text (p! "auto")], ∀ n, 0 ≤ n → n ≤ 255 →
      nodataMask noNumbers (.int (.unsigned 8)) (some v) (.int n) = false) ∧
    nodataMask noNumbers (.float 65504) (some (.float (.inf true))) (.float (.inf true)) = true := by
  refine ⟨by decide +kernel, ?_, by decide +kernel⟩
  intro v hv n h0 h1
  rw [← Bool.not_eq_true, C78_mask_partial (C := noNumbers) (k := .int (.unsigned 8)) trivial (p := .int n)
    ⟨h0, by simpa [IInfo.unsigned] using h1⟩]
  · rintro ⟨x, hx, hs⟩
    simp only [List.mem_cons, List.not_mem_nil, or_false] at hv
    rcases hv with rfl | rfl | rfl | rfl
    · cases hs
    · simp only [Pixel.shows, Scalar.stands, Flt.ereal, Option.some.injEq] at hx hs
      rw [← hs] at hx
      simp only [EReal.coe_eq_coe_iff] at hx
      have : (2 * n : ℝ) = 1 := by rw [hx]; norm_num
      have : (2 * n : Int) = 1 := by exact_mod_cast this
      omega
    · simp only [Pixel.shows, Scalar.stands, Option.some.injEq] at hx hs
      rw [← hs] at hx
      simp only [EReal.coe_eq_coe_iff] at hx
      have : n = 256 := by exact_mod_cast hx
      omega
    · cases hs
  · rintro re im rfl
    simp at hv

/-- Real and imaginary part of the number a scalar of Python is. -/
noncomputable def Scalar.number : Scalar → Option (EReal × EReal)
  | .bool b => some (if b then 1 else 0, 0)
  | .int n => some (((n : ℝ) : EReal), 0)
  | .float x => (Flt.ereal x).map (·, 0)
  | .complex re im => (Flt.ereal re).bind fun a => (Flt.ereal im).map (a, ·)
  | .text _ => none

/-- The part of a complex number fits the type with this largest value. -/
def Flt.Fits (m : ℚ) (x : Flt) : Prop := ∀ q, x = .fin q → |q| ≤ m

theorem number_parts (v : Scalar) : Scalar.number v =
    v.parts.bind fun x => (Flt.ereal x.1).bind fun a => (Flt.ereal x.2).map (a, ·) := by
  cases v with
  | bool b => cases b <;> simp [Scalar.number, Helpers.Scalar.parts, Flt.ereal]
  | int n => simp [Scalar.number, Helpers.Scalar.parts, Flt.ereal]
  | float x => rcases x with q | neg | _ <;> (try cases neg) <;> simp [Scalar.number, Helpers.Scalar.parts, Flt.ereal]
  | complex re im => simp [Scalar.number, Helpers.Scalar.parts]
  | text s => simp [Scalar.number, Helpers.Scalar.parts]

theorem eq_comm_fin {a b : Flt} (h : a.eq b = true) : a = b := by
  cases a <;> cases b <;> simp_all [Helpers.Flt.eq]

/-- C78: in arrays of complex numbers every no-data value, real or complex, masks exactly the pixels whose real and
imaginary part are those of the value. -/
theorem C78_complex {C : Conv} {m : ℚ} (hm : m ≤ C.max) {re im : Flt} (hre : Flt.Fits m re) (him : Flt.Fits m im)
    (v : Scalar) :
    nodataMask C (.complex m) (some v) (.complex re im) = true ↔
      ∃ a b, Flt.ereal re = some a ∧ Flt.ereal im = some b ∧ Scalar.number v = some (a, b) := by
  have key : (Helpers.Pixel.complex re im).equals v = true ↔
      ∃ a b, Flt.ereal re = some a ∧ Flt.ereal im = some b ∧ Scalar.number v = some (a, b) := by
    rw [number_parts]
    cases hv : v.parts with
    | none => simp [Helpers.Pixel.equals, hv]
    | some xy =>
      obtain ⟨x, y⟩ := xy
      simp only [Helpers.Pixel.equals, hv, Helpers.Pixel.parts, Bool.and_eq_true, flt_eq, Option.bind_some]
      constructor
      · rintro ⟨⟨a, h1, h2⟩, b, h3, h4⟩
        exact ⟨a, b, h1, h3, by rw [h2, h4]; rfl⟩
      · rintro ⟨a, b, h1, h3, h5⟩
        cases hx : Flt.ereal x with
        | none => rw [hx] at h5; cases h5
        | some a' =>
          cases hy : Flt.ereal y with
          | none => rw [hx, hy] at h5; cases h5
          | some b' =>
            rw [hx, hy] at h5
            simp only [Option.bind_some, Option.map_some, Option.some.injEq, Prod.mk.injEq] at h5
            exact ⟨⟨a, h1, by rw [h5.1]⟩, b, h3, by rw [h5.2]⟩
  rw [← key]
  unfold nodataMask
  simp only
  constructor
  · intro h
    split at h
    · exact h
    · cases h
  · intro h
    have hr : representableIn C v (.complex m) = true := by
      have part : ∀ {x : Flt}, Flt.Fits m x → x.isFinite = true → x.within m = true := by
        intro x hx hf
        cases x with
        | fin q => simp only [Helpers.Flt.within, decide_eq_true_eq]; exact abs_le.1 (hx q rfl)
        | inf neg => cases hf
        | nan => cases hf
      have both : C.toComplex v = some (re, im) → representableIn C v (.complex m) = true := by
        intro e
        simp only [representableIn, e]
        split
        · rfl
        · rename_i h'
          simp only [Bool.or_eq_true, Bool.not_eq_true', not_or, Bool.not_eq_false] at h'
          rw [part hre h'.1, part him h'.2]; rfl
      apply both
      cases v with
      | text s => simp [Helpers.Pixel.equals, Helpers.Scalar.parts] at h
      | bool c =>
        simp only [Helpers.Pixel.equals, Helpers.Scalar.parts, Helpers.Pixel.parts, Bool.and_eq_true] at h
        rw [eq_comm_fin h.1, eq_comm_fin h.2]; rfl
      | int n =>
        simp only [Helpers.Pixel.equals, Helpers.Scalar.parts, Helpers.Pixel.parts, Bool.and_eq_true] at h
        have e1 := eq_comm_fin h.1
        have hq := abs_le.1 (hre n e1)
        rw [e1, eq_comm_fin h.2]
        simp only [Helpers.Conv.toComplex, Helpers.Conv.ofInt]
        rw [if_pos ⟨by linarith, by linarith⟩]; rfl
      | float x =>
        simp only [Helpers.Pixel.equals, Helpers.Scalar.parts, Helpers.Pixel.parts, Bool.and_eq_true] at h
        rw [eq_comm_fin h.1, eq_comm_fin h.2]; rfl
      | complex a b =>
        simp only [Helpers.Pixel.equals, Helpers.Scalar.parts, Helpers.Pixel.parts, Bool.and_eq_true] at h
        rw [eq_comm_fin h.1, eq_comm_fin h.2]; rfl
    rw [if_pos hr, h]

/-- A no-data value `1 - 2j`, the truth value `False`, and infinity in single precision. -/
example : nodataMask noNumbers (.complex 1000) (some (.complex (.fin 1) (.fin (-2)))) (.complex (.fin 1) (.fin (-2))) = true ∧
    nodataMask noNumbers (.complex 1000) (some (.complex (.fin 1) (.fin (-2)))) (.complex (.fin 1) (.fin 2)) = false ∧
    nodataMask noNumbers (.complex 1000) (some (.bool false)) (.complex (.fin 0) (.fin 0)) = true ∧
    nodataMask noNumbers (.complex 1000) (some (.float (.inf false))) (.complex (.inf false) (.fin 0)) = true ∧
    Flt.Fits 1000 (.fin (-2)) := by
  refine ⟨by decide +kernel, by decide +kernel, by decide +kernel, by decide +kernel, ?_⟩
  intro q h
  cases h
  norm_num

/-- C78 fails for complex no-data values in arrays of integers: the pixel equals the value, but it is not masked, as
`int` of a complex number raises. -/
theorem C78_complex_violated (C : Conv) (t : IInfo) (q : Quantization) (n : Int) :
    (Helpers.Pixel.int n).equals (.complex (.fin n) (.fin 0)) = true ∧
    dequantizeAny C (.int t) q (some (.complex (.fin n) (.fin 0))) (.int n) =
      .fin ((n - q.quantMin) * dequantScale q + q.origMin) := by
  constructor
  · simp [Helpers.Pixel.equals, Helpers.Scalar.parts, Helpers.Pixel.parts, Helpers.Flt.eq]
  · rfl

end Verif.Props
