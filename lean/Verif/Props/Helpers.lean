/-
C19 (quantization), C20 (automatic output size), C21 (largest shape).
-/
import Verif.Helpers
import Mathlib.Tactic.Linarith
import Mathlib.Tactic.Ring
import Mathlib.Tactic.FieldSimp
import Mathlib.Tactic.Positivity
import Mathlib.Tactic.NormNum
import Mathlib.Data.List.Forall2

namespace Verif.Props

open Verif.Helpers

/-! ### C19 -/

/-- An integer dtype: unsigned or signed with `8 + k` bits. -/
inductive IntType where
  | u (k : Nat)
  | i (k : Nat)

/-- Smallest and largest value of the dtype. -/
def IntType.lo : IntType → Int
  | .u _ => 0
  | .i k => -2 ^ (7 + k)

def IntType.hi : IntType → Int
  | .u k => 2 ^ (8 + k) - 1
  | .i k => 2 ^ (7 + k) - 1

/-- The information numpy gives for it. -/
def IntType.info : IntType → IInfo
  | .u k => .unsigned (8 + k)
  | .i k => .signedT (7 + k)

/-- Number of quantization steps: one unsigned code is reserved for nodata, and signed types use the
codes from zero. -/
def IntType.steps : IntType → Int
  | .u k => 2 ^ (8 + k) - 2
  | .i k => 2 ^ (7 + k) - 1

/-- What the round trip must satisfy, per pixel (`none` is NaN): NaN stays NaN; a finite value comes
back finite, not above the clipped value and less than one step below it. -/
def RoundTrips (lo hi step : ℚ) : Option ℚ → Option ℚ → Prop
  | none, none => True
  | some x, some y =>
    (lo ≤ x → x ≤ hi → y ≤ x ∧ x - y < step) ∧ (x < lo → y = lo) ∧ (hi < x → y = hi)
  | _, _ => False

theorem IntType.steps_pos (t : IntType) : 0 < t.steps := by
  cases t with
  | u k =>
    have : (2 : Int) ^ 8 ≤ 2 ^ (8 + k) := pow_le_pow_right₀ (by norm_num) (by omega)
    simp only [IntType.steps]; linarith [show (2 : Int) ^ 8 = 256 by norm_num]
  | i k =>
    have : (2 : Int) ^ 7 ≤ 2 ^ (7 + k) := pow_le_pow_right₀ (by norm_num) (by omega)
    simp only [IntType.steps]; linarith [show (2 : Int) ^ 7 = 128 by norm_num]

theorem quantInfo_facts (t : IntType) (lo hi : ℚ) :
    let q := quantInfo lo hi t.info
    q.origMin = lo ∧ q.origMax = hi ∧ q.quantMax - q.quantMin = t.steps ∧ q.quantMax = t.hi ∧
      0 ≤ q.quantMin ∧ t.lo ≤ q.quantMin ∧
      ∃ n, q.nodata = some n ∧ n < q.quantMin ∧ t.lo ≤ n ∧ n ≤ t.hi ∧ representable n t.info = true := by
  have hp := t.steps_pos
  cases t with
  | u k =>
    simp only [IntType.steps] at hp
    simp [quantInfo, IntType.info, IInfo.unsigned, IntType.steps, IntType.hi, IntType.lo, representable]
    omega
  | i k =>
    have h7 : (2 : Int) ^ 7 ≤ 2 ^ (7 + k) := pow_le_pow_right₀ (by norm_num) (by omega)
    have : (2 : Int) ^ 7 = 128 := by norm_num
    simp [quantInfo, IntType.info, IInfo.signedT, IntType.steps, IntType.hi, IntType.lo, representable]
    omega

/-- The code of a finite pixel. -/
theorem quantizePx_some (t : IntType) (lo hi : ℚ) (h : lo < hi) (x : ℚ) :
    quantizePx (quantInfo lo hi t.info) (some x) =
      ⌊(clip lo hi x - lo) * (t.steps / (hi - lo))⌋ + (quantInfo lo hi t.info).quantMin ∧
    0 ≤ (clip lo hi x - lo) * (t.steps / (hi - lo)) ∧
    (clip lo hi x - lo) * (t.steps / (hi - lo)) ≤ t.steps := by
  obtain ⟨h1, h2, h3, h4, h5, h5', -⟩ := quantInfo_facts t lo hi
  have hp := t.steps_pos
  have hq : (0 : ℚ) < t.steps := by exact_mod_cast hp
  have hd : 0 < hi - lo := by linarith
  have hc1 : 0 ≤ clip lo hi x - lo := by
    have : lo ≤ clip lo hi x := le_min (le_max_right _ _) h.le
    linarith
  have hc2 : clip lo hi x - lo ≤ hi - lo := by
    have : clip lo hi x ≤ hi := min_le_right _ _
    linarith
  have hz : 0 ≤ (clip lo hi x - lo) * (t.steps / (hi - lo)) := by positivity
  refine ⟨?_, hz, ?_⟩
  · have hm : (0 : ℚ) ≤ (quantInfo lo hi t.info).quantMin := by exact_mod_cast h5
    simp only [quantizePx, h1, h2, h3, trunc]
    rw [if_pos (by linarith), Int.floor_add_intCast]
  · calc (clip lo hi x - lo) * (t.steps / (hi - lo)) ≤ (hi - lo) * (t.steps / (hi - lo)) :=
          mul_le_mul_of_nonneg_right hc2 (by positivity)
      _ = t.steps := by field_simp

/-- Reading a code that is not the nodata value. -/
theorem dequantizePx_code (t : IntType) (lo hi : ℚ) (z : Int) (hz : 0 ≤ z) :
    dequantizePx (quantInfo lo hi t.info) t.info (z + (quantInfo lo hi t.info).quantMin) =
      some (z * ((hi - lo) / t.steps) + lo) := by
  obtain ⟨h1, h2, h3, h4, h5, h5', n, hn, hn1, hn2, hn3, hn4⟩ := quantInfo_facts t lo hi
  have hp := t.steps_pos
  simp only [dequantizePx, hn, dequantScale, h1, h2, h3]
  rw [if_neg (by omega), if_neg (by omega)]
  push_cast; simp

/-- C19, full round trip on images of any size. -/
theorem C19_roundtrip (t : IntType) (lo hi : ℚ) (h : lo < hi) (img : List (Option ℚ)) :
    ∃ codes q, quantizeFloat01 img lo hi t.info = .ok (codes, q) ∧
      List.Forall₂ (RoundTrips lo hi ((hi - lo) / t.steps)) img (dequantize codes q t.info) := by
  have hd : 0 < hi - lo := by linarith
  refine ⟨_, _, by rw [quantizeFloat01, if_neg hd.ne'], ?_⟩
  rw [dequantize, List.map_map, List.forall₂_map_right_iff, List.forall₂_same]
  intro x _
  obtain ⟨h1, h2, h3, h4, h5, h5', n, hn, hn1, hn2, hn3, hn4⟩ := quantInfo_facts t lo hi
  have hp := t.steps_pos
  have hq : (0 : ℚ) < t.steps := by exact_mod_cast hp
  cases x with
  | none =>
    simp [RoundTrips, quantizePx, dequantizePx, hn, hn4]
  | some x =>
    obtain ⟨e, hz0, hz1⟩ := quantizePx_some t lo hi h x
    simp only [Function.comp, e]
    rw [dequantizePx_code t lo hi _ (Int.floor_nonneg.2 hz0)]
    refine ⟨fun hx1 hx2 => ?_, fun hx => ?_, fun hx => ?_⟩
    · have hc : clip lo hi x = x := by simp [clip, hx1, hx2]
      rw [hc] at *
      have hfl := Int.floor_le ((x - lo) * (t.steps / (hi - lo)))
      have hfu := Int.lt_floor_add_one ((x - lo) * (t.steps / (hi - lo)))
      have hs : 0 < (hi - lo) / t.steps := by positivity
      have hx : (x - lo) * (t.steps / (hi - lo)) * ((hi - lo) / t.steps) = x - lo := by field_simp
      constructor
      · have := mul_le_mul_of_nonneg_right hfl hs.le
        linarith
      · have := mul_lt_mul_of_pos_right hfu hs
        linarith
    · have hc : clip lo hi x = lo := by
        simp [clip, max_eq_right hx.le, min_eq_left h.le]
      simp [hc]
    · have hc : clip lo hi x = hi := by
        simp [clip, max_eq_left (h.le.trans hx.le), min_eq_right hx.le]
      have : (hi - lo) * (t.steps / (hi - lo)) = ((t.steps : Int) : ℚ) := by field_simp
      rw [hc, this, Int.floor_intCast]
      field_simp
      ring

example : quantizeFloat01 [some (1/3), none, some 7, some (-2)] 0 1 (IntType.u 0).info
      = .ok ([85, 0, 255, 1], ⟨0, 1, 1, 255, some 0⟩) ∧
    dequantize [85, 0, 255, 1] ⟨0, 1, 1, 255, some 0⟩ (IntType.u 0).info =
      [some (84/254), none, some 1, some 0] := by
  constructor <;> decide +kernel

/-- C19: every code fits the dtype, so the cast never wraps, and NaN is the only pixel that gets the
nodata code. -/
theorem C19_codes_in_range (t : IntType) (lo hi : ℚ) (h : lo < hi) (img : List (Option ℚ)) :
    ∃ codes q n, quantizeFloat01 img lo hi t.info = .ok (codes, q) ∧ q.nodata = some n ∧
      List.Forall₂ (fun x c => t.lo ≤ c ∧ c ≤ t.hi ∧ (c = n ↔ x = none)) img codes := by
  have hd : 0 < hi - lo := by linarith
  obtain ⟨h1, h2, h3, h4, h5, h5', n, hn, hn1, hn2, hn3, hn4⟩ := quantInfo_facts t lo hi
  refine ⟨_, _, n, by rw [quantizeFloat01, if_neg hd.ne'], hn, ?_⟩
  rw [List.forall₂_map_right_iff, List.forall₂_same]
  intro x _
  cases x with
  | none => simp [quantizePx, hn, hn2, hn3]
  | some x =>
    obtain ⟨e, hz0, hz1⟩ := quantizePx_some t lo hi h x
    have a := Int.floor_nonneg.2 hz0
    have b : ⌊(clip lo hi x - lo) * (t.steps / (hi - lo))⌋ ≤ t.steps := by
      have := Int.floor_mono hz1
      rwa [Int.floor_intCast] at this
    simp only [e]
    refine ⟨by omega, by omega, by simp; omega⟩

/-- C19: a second round trip changes nothing; every code is recovered exactly. -/
theorem C19_requantize (t : IntType) (lo hi : ℚ) (h : lo < hi) (img : List (Option ℚ)) :
    ∀ codes q, quantizeFloat01 img lo hi t.info = .ok (codes, q) →
      quantizeFloat01 (dequantize codes q t.info) lo hi t.info = .ok (codes, q) := by
  intro codes q hq
  have hd : 0 < hi - lo := by linarith
  rw [quantizeFloat01, if_neg hd.ne'] at hq
  cases hq
  rw [quantizeFloat01, if_neg hd.ne', dequantize, List.map_map, List.map_map]
  congr 2
  apply List.map_congr_left
  intro x _
  obtain ⟨h1, h2, h3, h4, h5, h5', n, hn, hn1, hn2, hn3, hn4⟩ := quantInfo_facts t lo hi
  have hp := t.steps_pos
  have hp' : (0 : ℚ) < t.steps := by exact_mod_cast hp
  cases x with
  | none => simp [quantizePx, dequantizePx, hn, hn4]
  | some x =>
    obtain ⟨e, hz0, hz1⟩ := quantizePx_some t lo hi h x
    simp only [Function.comp, e]
    generalize hz : ⌊(clip lo hi x - lo) * (t.steps / (hi - lo))⌋ = z
    have a : 0 ≤ z := hz ▸ Int.floor_nonneg.2 hz0
    have b : z ≤ t.steps := by
      have := Int.floor_mono hz1
      rw [Int.floor_intCast] at this
      omega
    rw [dequantizePx_code t lo hi z a, (quantizePx_some t lo hi h _).1]
    have a' : (0 : ℚ) ≤ z := by exact_mod_cast a
    have b' : (z : ℚ) ≤ t.steps := by exact_mod_cast b
    have c1 : 0 ≤ (z : ℚ) * ((hi - lo) / t.steps) := by positivity
    have c2 : (z : ℚ) * ((hi - lo) / t.steps) ≤ hi - lo := by
      rw [mul_div_assoc', div_le_iff₀ hp', mul_comm]
      exact mul_le_mul_of_nonneg_left b' hd.le
    have hc : clip lo hi (z * ((hi - lo) / t.steps) + lo) = z * ((hi - lo) / t.steps) + lo := by
      rw [clip, max_eq_left (by linarith), min_eq_left (by linarith)]
    rw [hc]
    have : ((z : ℚ) * ((hi - lo) / t.steps) + lo - lo) * (t.steps / (hi - lo)) = z := by
      field_simp
      ring
    rw [this, Int.floor_intCast]

/-- C19: quantization preserves order. -/
theorem C19_monotone (t : IntType) (lo hi : ℚ) (h : lo < hi) (x y : ℚ) (hxy : x ≤ y) :
    ∃ a b q, quantizeFloat01 [some x, some y] lo hi t.info = .ok ([a, b], q) ∧ a ≤ b := by
  have hd : 0 < hi - lo := by linarith
  have hp' : (0 : ℚ) < t.steps := by exact_mod_cast t.steps_pos
  refine ⟨_, _, _, by rw [quantizeFloat01, if_neg hd.ne']; rfl, ?_⟩
  rw [(quantizePx_some t lo hi h x).1, (quantizePx_some t lo hi h y).1]
  have hc : clip lo hi x ≤ clip lo hi y := min_le_min (max_le_max hxy le_rfl) le_rfl
  have : (clip lo hi x - lo) * (t.steps / (hi - lo)) ≤ (clip lo hi y - lo) * (t.steps / (hi - lo)) :=
    mul_le_mul_of_nonneg_right (by linarith) (by positivity)
  have := Int.floor_mono this
  omega

/-- C19, reading with arbitrary metadata: the pixels that become NaN are those with the no-data value, if the type of
the array has it; all others go through the line from (quant_min, orig_min) to (quant_max, orig_max), which is flat
if quant_min = quant_max. -/
theorem C19_dequantize (q : Quantization) (t : IInfo) (img : List Int) :
    (dequantize img q t).length = img.length ∧
    ∀ (k : Nat) (v : Int), img[k]? = some v → ∃ r, (dequantize img q t)[k]? = some r ∧
      (r = none ↔ q.nodata = some v ∧ t.min ≤ v ∧ v ≤ t.max) ∧
      ∀ x, r = some x →
        (q.quantMin ≠ q.quantMax →
          (x - q.origMin) * ((q.quantMax : ℚ) - q.quantMin) = ((v : ℚ) - q.quantMin) * (q.origMax - q.origMin)) ∧
        (q.quantMin = q.quantMax → x = q.origMin) := by
  refine ⟨by simp [dequantize], fun k v hv => ⟨dequantizePx q t v, by simp [dequantize, hv], ?_, ?_⟩⟩
  · unfold dequantizePx
    cases hn : q.nodata with
    | none => simp
    | some n =>
      simp only [representable, decide_eq_true_eq, Option.some.injEq]
      by_cases h : (t.min ≤ n ∧ n ≤ t.max) ∧ v = n
      · rw [if_pos h]
        obtain ⟨h1, rfl⟩ := h
        simp [h1.1, h1.2]
      · rw [if_neg h]
        constructor
        · intro h'; cases h'
        · rintro ⟨rfl, h1⟩; exact (h ⟨h1, rfl⟩).elim
  · intro x hx
    have hx' : x = ((v : ℚ) - q.quantMin) * dequantScale q + q.origMin := by
      unfold dequantizePx at hx
      cases hn : q.nodata with
      | none => rw [hn] at hx; exact (Option.some.inj hx).symm
      | some n =>
        rw [hn] at hx
        simp only at hx
        split at hx
        · cases hx
        · exact (Option.some.inj hx).symm
    subst hx'
    constructor
    · intro hne
      have h0 : ((q.quantMax : ℚ) - q.quantMin) ≠ 0 := by
        intro h
        exact hne (by exact_mod_cast (sub_eq_zero.1 h).symm)
      unfold dequantScale
      rw [if_neg (by omega)]
      push_cast
      field_simp
      ring
    · intro he
      unfold dequantScale
      rw [if_pos (by omega)]
      ring

/-- 255 is no data; 300 is not a byte and masks nothing. -/
example : dequantize [255, 10, 44] ⟨0, 1, 0, 100, some 255⟩ ⟨false, 0, 255⟩ = [none, some (1 / 10), some (11 / 25)] ∧
    dequantize [300] ⟨0, 1, 0, 100, some 300⟩ ⟨false, 0, 255⟩ = [some 3] := by
  constructor <;> norm_num [dequantize, dequantizePx, dequantScale, representable]

/-! ### C20 -/

/-- A point of the source image (continuous coordinates). -/
def InImage (w h : Int) (p : ℚ × ℚ) : Prop := 0 ≤ p.1 ∧ p.1 ≤ w ∧ 0 ≤ p.2 ∧ p.2 ≤ h

/-- An affine function on an interval is bounded by its values at the ends. -/
theorem affine_le_max (a k w x : ℚ) (h0 : 0 ≤ x) (h1 : x ≤ w) :
    a * x + k ≤ max (a * 0 + k) (a * w + k) := by
  by_cases ha : 0 ≤ a
  · exact le_max_of_le_right (by nlinarith [mul_le_mul_of_nonneg_left h1 ha])
  · exact le_max_of_le_left (by nlinarith [mul_nonneg (neg_nonneg.2 (not_le.1 ha).le) h0])

theorem affine2_le_max4 (a b k w h x y : ℚ) (hx0 : 0 ≤ x) (hx1 : x ≤ w) (hy0 : 0 ≤ y) (hy1 : y ≤ h) :
    a * x + b * y + k ≤
      max4 (a * 0 + b * 0 + k) (a * w + b * 0 + k) (a * 0 + b * h + k) (a * w + b * h + k) := by
  have e1 := affine_le_max a (b * y + k) w x hx0 hx1
  have e2 := affine_le_max b (a * 0 + k) h y hy0 hy1
  have e3 := affine_le_max b (a * w + k) h y hy0 hy1
  simp only [max4]
  rcases le_max_iff.1 e1 with e | e
  · rcases le_max_iff.1 e2 with e' | e'
    · exact le_max_of_le_left (le_max_of_le_left (by linarith))
    · exact le_max_of_le_right (le_max_of_le_left (by linarith))
  · rcases le_max_iff.1 e3 with e' | e'
    · exact le_max_of_le_left (le_max_of_le_right (by linarith))
    · exact le_max_of_le_right (le_max_of_le_right (by linarith))

/-- C20: an integer canvas reaches past every warped point of the source exactly if it is at least
as large as the automatic size.  So the automatic size contains all warped points (take the canvas to
be the automatic size) and is the smallest integer size that does. -/
theorem C20_covers_and_least (m : Affine) (w h : Int) (hw : 0 ≤ w) (hh : 0 ≤ h) (cw ch : Int) :
    (∀ p, InImage w h p → (m.app p).1 ≤ cw ∧ (m.app p).2 ≤ ch) ↔
      (autoDsize (some m) (w, h)).1 ≤ cw ∧ (autoDsize (some m) (w, h)).2 ≤ ch := by
  have hw' : (0 : ℚ) ≤ w := by exact_mod_cast hw
  have hh' : (0 : ℚ) ≤ h := by exact_mod_cast hh
  constructor
  · intro H
    have p1 := H (0, 0) ⟨le_rfl, hw', le_rfl, hh'⟩
    have p2 := H (w, 0) ⟨hw', le_rfl, le_rfl, hh'⟩
    have p3 := H (0, h) ⟨le_rfl, hw', hh', le_rfl⟩
    have p4 := H (w, h) ⟨hw', le_rfl, hh', le_rfl⟩
    simp only [autoDsize, Int.ceil_le, max4]
    exact ⟨max_le (max_le p1.1 p2.1) (max_le p3.1 p4.1), max_le (max_le p1.2 p2.2) (max_le p3.2 p4.2)⟩
  · rintro ⟨H1, H2⟩ ⟨x, y⟩ ⟨hx0, hx1, hy0, hy1⟩
    simp only [autoDsize, Int.ceil_le] at H1 H2
    exact ⟨(affine2_le_max4 m.a m.b m.tx w h x y hx0 hx1 hy0 hy1).trans H1,
      (affine2_le_max4 m.c m.d m.ty w h x y hx0 hx1 hy0 hy1).trans H2⟩

example : autoDsize (some ⟨0, -1, 5, 3/2, 0, 0⟩) (3, 4) = (5, 5) := by decide +kernel

/-- C20: no transform, or the identity, keeps the size. -/
theorem C20_identity (w h : Int) (hw : 0 ≤ w) (hh : 0 ≤ h) :
    autoDsize none (w, h) = (w, h) ∧ autoDsize (some ⟨1, 0, 0, 0, 1, 0⟩) (w, h) = (w, h) := by
  have hw' : (0 : ℚ) ≤ w := by exact_mod_cast hw
  have hh' : (0 : ℚ) ≤ h := by exact_mod_cast hh
  simp [autoDsize, Affine.app, max4, hw', hh']

/-- C20, what fails: when a warp moves the image out of the positive quadrant the automatic size is
not a size at all.  A 5 by 5 image moved 10 pixels to the left gets width -5. -/
theorem C20_negative_size_violated :
    ¬ ∀ (m : Affine) (w h : Int), 0 ≤ w → 0 ≤ h →
      0 ≤ (autoDsize (some m) (w, h)).1 ∧ 0 ≤ (autoDsize (some m) (w, h)).2 := by
  intro H
  exact absurd (H ⟨1, 0, -10, 0, 1, 0⟩ 5 5 (by decide) (by decide)).1 (by decide +kernel)

/-- C20: the size is a size (non-negative) as soon as some source point lands at non-negative
coordinates. -/
theorem C20_nonneg (m : Affine) (w h : Int) (hw : 0 ≤ w) (hh : 0 ≤ h) (p q : ℚ × ℚ)
    (hp : InImage w h p) (hp' : 0 ≤ (m.app p).1) (hq : InImage w h q) (hq' : 0 ≤ (m.app q).2) :
    0 ≤ (autoDsize (some m) (w, h)).1 ∧ 0 ≤ (autoDsize (some m) (w, h)).2 := by
  have H := (C20_covers_and_least m w h hw hh _ _).2 ⟨le_rfl, le_rfl⟩
  have h1 := hp'.trans (H p hp).1
  have h2 := hq'.trans (H q hq).2
  exact ⟨by exact_mod_cast h1, by exact_mod_cast h2⟩

/-! ### C21 -/

/-- A shape of the list knows the size of dimension `i`. -/
def Knows (shapes : List (Option (List (Option Nat)))) (i n : Nat) : Prop :=
  ∃ s, some s ∈ shapes ∧ s[i]? = some (some n)

/-- The size at dimension `i` of a result, if known. -/
def sizeAt (s : List (Option Nat)) (i : Nat) : Option Nat := (s[i]?).join

theorem sizeAt_eq_some (s : List (Option Nat)) (i n : Nat) :
    sizeAt s i = some n ↔ s[i]? = some (some n) := by
  rw [sizeAt, Option.join_eq_some_iff]

theorem sizeAt_zipMax : ∀ (a b : List (Option Nat)) (i : Nat),
    sizeAt (zipMax a b) i = nonemax (sizeAt a i) (sizeAt b i)
  | [], ys, i => by
    simp only [zipMax, sizeAt, List.getElem?_map, List.getElem?_nil, Option.join_none, nonemax]
    cases ys[i]? <;> rfl
  | x :: xs, [], 0 => by simp [zipMax, sizeAt]
  | x :: xs, [], i + 1 => by
    have := sizeAt_zipMax xs [] i
    simpa [zipMax, sizeAt] using this
  | x :: xs, y :: ys, 0 => by simp [zipMax, sizeAt]
  | x :: xs, y :: ys, i + 1 => by
    have := sizeAt_zipMax xs ys i
    simpa [zipMax, sizeAt] using this

theorem length_zipMax : ∀ (a b : List (Option Nat)), (zipMax a b).length = max a.length b.length
  | [], ys => by simp [zipMax]
  | x :: xs, [] => by simp [zipMax, length_zipMax xs []]
  | x :: xs, y :: ys => by simp [zipMax, length_zipMax xs ys]

/-- The positive part of the sizes is what the loop preserves. -/
theorem sizeAt_pos_iff (acc : List (Option Nat)) (shapes : List (Option (List (Option Nat)))) (i n : Nat) :
    (∃ m, sizeAt (shapes.foldl shapeStep acc) i
        = some m ∧ n < m) ↔
      (∃ m, sizeAt acc i = some m ∧ n < m) ∨ ∃ m, Knows shapes i m ∧ n < m := by
  induction shapes generalizing acc with
  | nil => simp [Knows]
  | cons s rest ih =>
    rw [List.foldl_cons, ih]
    cases s with
    | none => simp [Knows, shapeStep]
    | some s =>
      have key : (∃ m, sizeAt (zipMax acc s) i = some m ∧ n < m) ↔
          (∃ m, sizeAt acc i = some m ∧ n < m) ∨ (∃ m, sizeAt s i = some m ∧ n < m) := by
        rw [sizeAt_zipMax]
        cases sizeAt acc i <;> cases sizeAt s i <;> simp [nonemax]
        intro h; omega
      have hs : ∀ m, sizeAt s i = some m ↔ s[i]? = some (some m) := sizeAt_eq_some s i
      simp only [shapeStep, key, hs, Knows, List.mem_cons, Option.some.injEq]
      constructor
      · rintro ((h | ⟨m, h, hm⟩) | ⟨m, ⟨s', h, h'⟩, hm⟩)
        · exact .inl h
        · exact .inr ⟨m, ⟨s, .inl rfl, h⟩, hm⟩
        · exact .inr ⟨m, ⟨s', .inr h, h'⟩, hm⟩
      · rintro (h | ⟨m, ⟨s', rfl | h, h'⟩, hm⟩)
        · exact .inl (.inl h)
        · exact .inl (.inr ⟨m, h', hm⟩)
        · exact .inr ⟨m, ⟨s', h, h'⟩, hm⟩

/-- A known size at the end was known by some shape. -/
theorem sizeAt_known (acc : List (Option Nat)) (shapes : List (Option (List (Option Nat)))) (i n : Nat)
    (h : sizeAt (shapes.foldl shapeStep acc) i
        = some n) : sizeAt acc i = some n ∨ Knows shapes i n := by
  induction shapes generalizing acc with
  | nil => exact .inl h
  | cons s rest ih =>
    rw [List.foldl_cons] at h
    rcases ih _ h with h | ⟨s', h, h'⟩
    · cases s with
      | none => exact .inl h
      | some s =>
        simp only [shapeStep, sizeAt_zipMax] at h
        have hs : sizeAt s i = some n → Knows (some s :: rest) i n := fun h =>
          ⟨s, by simp, (sizeAt_eq_some s i n).1 h⟩
        cases ha : sizeAt acc i with
        | none => rw [ha] at h; exact .inr (hs (by simpa [nonemax] using h))
        | some a =>
          cases hb : sizeAt s i with
          | none =>
            rw [ha, hb] at h
            simp only [nonemax] at h
            split at h
            · cases h
            · exact .inl h
          | some b =>
            rw [ha, hb] at h
            simp only [nonemax, Option.some.injEq] at h
            rcases Nat.le_total a b with hab | hab
            · rw [Nat.max_eq_right hab] at h
              exact .inr (hs (by rw [hb, h]))
            · rw [Nat.max_eq_left hab] at h
              exact .inl (by rw [h])
    · exact .inr ⟨s', List.mem_cons_of_mem _ h, h'⟩

/-- C21, positive part: where some known size is positive, the result is the maximum of the known
sizes; where no size is known the result is `None`.  The number of dimensions is the largest rank.
Missing from the full statement: dimensions whose known sizes are all zero. -/
theorem C21_pointwise_max_partial (shapes : List (Option (List (Option Nat)))) (i : Nat) :
    (∀ n, 0 < n → (sizeAt (largestShape shapes) i = some n ↔
      Knows shapes i n ∧ ∀ m, Knows shapes i m → m ≤ n)) ∧
    ((∀ n, ¬ Knows shapes i n) → sizeAt (largestShape shapes) i = none) ∧
    (∀ n, sizeAt (largestShape shapes) i = some n → Knows shapes i n) ∧
    (i < (largestShape shapes).length ↔ ∃ s, some s ∈ shapes ∧ i < s.length) := by
  have hk := sizeAt_known [] shapes i
  have hp := sizeAt_pos_iff [] shapes i
  have hnil : sizeAt [] i = none := by simp [sizeAt]
  simp only [hnil, reduceCtorEq, false_and, exists_false, false_or] at hk hp
  refine ⟨?_, ?_, fun n h => hk n h, ?_⟩
  · intro n hn
    constructor
    · intro h
      refine ⟨hk n h, fun m hm => ?_⟩
      by_contra hlt
      obtain ⟨m', h1, h2⟩ := (hp n).2 ⟨m, hm, by omega⟩
      rw [largestShape] at h
      rw [h] at h1
      cases h1
      omega
    · rintro ⟨h1, h2⟩
      obtain ⟨m', h3, h4⟩ := (hp (n - 1)).2 ⟨n, h1, by omega⟩
      have := h2 m' (hk m' h3)
      have : m' = n := by omega
      rw [largestShape, h3, this]
  · intro h
    cases hs : sizeAt (largestShape shapes) i with
    | none => rfl
    | some n => exact absurd (hk n hs) (h n)
  · suffices ∀ acc : List (Option Nat),
        i < (shapes.foldl shapeStep acc).length ↔
          i < acc.length ∨ ∃ s, some s ∈ shapes ∧ i < s.length by
      simpa [largestShape] using this []
    clear hk hp
    induction shapes with
    | nil => simp
    | cons s rest ih =>
      intro acc
      rw [List.foldl_cons, ih]
      cases s with
      | none => simp [shapeStep]
      | some s =>
        simp only [shapeStep, length_zipMax, lt_max_iff, List.mem_cons, Option.some.injEq]
        constructor
        · rintro ((h | h) | ⟨s', h, h'⟩)
          · exact .inl h
          · exact .inr ⟨s, .inl rfl, h⟩
          · exact .inr ⟨s', .inr h, h'⟩
        · rintro (h | ⟨s', rfl | h, h'⟩)
          · exact .inl (.inl h)
          · exact .inl (.inr h')
          · exact .inr ⟨s', h, h'⟩

example : largestShape [some [some 3, none], none, some [some 2, some 5, none]] =
    [some 3, some 5, none] := by decide

/-- C21: without zero sizes the result does not depend on the order of the shapes. -/
theorem C21_order_partial (shapes shapes' : List (Option (List (Option Nat))))
    (hmem : ∀ s, s ∈ shapes ↔ s ∈ shapes') (h0 : ∀ i, ¬ Knows shapes i 0) :
    largestShape shapes = largestShape shapes' := by
  have hk : ∀ i n, Knows shapes i n ↔ Knows shapes' i n := by
    intro i n; simp only [Knows, hmem]
  have hsize : ∀ i, sizeAt (largestShape shapes) i = sizeAt (largestShape shapes') i := by
    intro i
    obtain ⟨a1, -, a3, -⟩ := C21_pointwise_max_partial shapes i
    obtain ⟨b1, -, b3, -⟩ := C21_pointwise_max_partial shapes' i
    ext n
    rcases Nat.eq_zero_or_pos n with rfl | hn
    · constructor
      · intro h; exact absurd (a3 0 h) (h0 i)
      · intro h; exact absurd ((hk i 0).2 (b3 0 h)) (h0 i)
    · rw [a1 n hn, b1 n hn]
      simp only [hk]
  have hlen : (largestShape shapes).length = (largestShape shapes').length := by
    have : ∀ i, i < (largestShape shapes).length ↔ i < (largestShape shapes').length := by
      intro i
      rw [(C21_pointwise_max_partial shapes i).2.2.2, (C21_pointwise_max_partial shapes' i).2.2.2]
      simp only [hmem]
    have h1 := this (largestShape shapes).length
    have h2 := this (largestShape shapes').length
    omega
  apply List.ext_getElem hlen
  intro i h1 h2
  have := hsize i
  simpa [sizeAt, List.getElem?_eq_getElem h1, List.getElem?_eq_getElem h2] using this

/-- C21, what fails: a known size of zero is forgotten when a later shape does not know the dimension,
and the outcome depends on the order. -/
theorem C21_zero_size_violated :
    Knows [some [some 0], some [none]] 0 0 ∧ largestShape [some [some 0], some [none]] = [none] ∧
    largestShape [some [none], some [some 0]] = [some 0] :=
  ⟨⟨[some 0], by simp, rfl⟩, by decide, by decide⟩

end Verif.Props
