/-
C32-C35: the rules of the optimizer that exchange crops, overviews, warps and dequantizations.
-/
import Verif.KeepRules
import Verif.Built
import Verif.Props.Helpers
import Mathlib.Tactic.LinearCombination

namespace Verif
namespace Props

open Tree Tree.Node Helpers

/-! ### C32: moving a crop under a warp -/

/-- Pixel `(i, j)` (column, row) takes part in linear interpolation at the point `q`: its centre is less
than one pixel away on each axis.  This includes the pixel that contains `q`. -/
def Needs (q : ℚ × ℚ) (i j : Int) : Prop :=
  |(i : ℚ) + 1 / 2 - q.1| < 1 ∧ |(j : ℚ) + 1 / 2 - q.2| < 1

/-- The pixel that contains a point is one of those. -/
theorem needs_nearest (q : ℚ × ℚ) : Needs q ⌊q.1⌋ ⌊q.2⌋ := by
  have key : ∀ x : ℚ, |(⌊x⌋ : ℚ) + 1 / 2 - x| < 1 := by
    intro x
    have h1 := Int.floor_le x
    have h2 := Int.lt_floor_add_one x
    rw [abs_lt]; constructor <;> linarith
  exact ⟨key _, key _⟩

theorem norm_keep {D lo hi i : Int} (h0 : 0 ≤ lo) (h1 : lo ≤ i) (h2 : i < hi) (hi' : i < D) :
    normBound D lo = lo ∧ i < max (normBound D lo) (normBound D hi) := by
  unfold normBound
  constructor
  · split <;> omega
  · split <;> split <;> omega

theorem fast_axis_covers (src : Int) (s t : ℚ) (hs : 0 < s) (r0 r1 : Int) (P : ℚ) (hP0 : (r0 : ℚ) < P)
    (hP1 : P < r1) (i : Int) (hi0 : 0 ≤ i) (hi1 : i < src) (hn : |(i : ℚ) + 1 / 2 - (P - t) / s| < 1) :
    (axisFast src s t r0 r1).1 ≤ i ∧ i < (axisFast src s t r0 r1).2.1 := by
  have hr : r0 < r1 := by exact_mod_cast hP0.trans hP1
  rw [abs_lt] at hn
  have f0 : (r0 - t) / s < (P - t) / s := by
    rw [div_lt_div_iff_of_pos_right hs]; linarith
  have f1 : (P - t) / s < (r1 - t) / s := by
    rw [div_lt_div_iff_of_pos_right hs]; linarith
  simp only [axisFast]
  have hroot : max (r1 - r0) 0 = r1 - r0 := by omega
  rw [hroot, if_neg (by omega)]
  have hpad : 1 ≤ ⌈max (((r1 : ℚ) - t) / s - ((r0 : ℚ) - t) / s) 0 / ((r1 - r0 : Int) : ℚ)⌉ := by
    apply Int.one_le_ceil_iff.2
    apply div_pos
    · exact lt_max_of_lt_left (by linarith)
    · exact_mod_cast (by omega : 0 < r1 - r0)
  generalize ⌈max (((r1 : ℚ) - t) / s - ((r0 : ℚ) - t) / s) 0 / ((r1 - r0 : Int) : ℚ)⌉ = pad at *
  have g0 := Int.floor_le (((r0 : ℚ) - t) / s)
  have g1 := Int.le_ceil (((r1 : ℚ) - t) / s)
  generalize ⌊((r0 : ℚ) - t) / s⌋ = F0 at *
  generalize ⌈((r1 : ℚ) - t) / s⌉ = F1 at *
  have a1 : F0 - 2 < i := by
    have : ((F0 - 2 : Int) : ℚ) < i := by push_cast; linarith
    exact_mod_cast this
  have a2 : i < F1 + 1 := by
    have : (i : ℚ) < ((F1 + 1 : Int) : ℚ) := by push_cast; linarith
    exact_mod_cast this
  constructor
  · omega
  · omega

theorem swap_axis_covers (m M : ℚ) (root : Int) (hroot : 0 < root) (q : ℚ) (h0 : 0 < q) (h1 : m < q)
    (h2 : q < M) (i : Int) (hi : 0 ≤ i) (hn : |(i : ℚ) + 1 / 2 - q| < 1) :
    max 0 ⌊m⌋ - min (max 0 ⌊m⌋) 1 ≤ i ∧
    i < max 0 ⌈M⌉ + (if root = 0 then 0 else ⌈((max 0 ⌈M⌉ - max 0 ⌊m⌋ : Int) : ℚ) / (root : ℚ)⌉) := by
  rw [abs_lt] at hn
  have g1 : (⌊m⌋ : ℚ) < q := lt_of_le_of_lt (Int.floor_le _) h1
  have g2 : q < ⌈M⌉ := lt_of_lt_of_le h2 (Int.le_ceil _)
  generalize ⌊m⌋ = F at *
  generalize ⌈M⌉ = C at *
  have hFC : F < C := by exact_mod_cast g1.trans g2
  have hC : 0 < C := by exact_mod_cast h0.trans g2
  rw [if_neg (by omega)]
  have hpad : 1 ≤ ⌈((max 0 C - max 0 F : Int) : ℚ) / (root : ℚ)⌉ := by
    apply Int.one_le_ceil_iff.2
    apply div_pos
    · exact_mod_cast (by omega : 0 < max 0 C - max 0 F)
    · exact_mod_cast hroot
  generalize ⌈((max 0 C - max 0 F : Int) : ℚ) / (root : ℚ)⌉ = pad at *
  have a1 : F - 2 < i := by
    have : ((F - 2 : Int) : ℚ) < i := by push_cast; linarith
    exact_mod_cast this
  have a2 : i < C + 1 := by
    have : (i : ℚ) < ((C + 1 : Int) : ℚ) := by push_cast; linarith
    exact_mod_cast this
  omega

/-- Centre of the output pixel `(X, Y)` of a crop that starts at `(x0, y0)`, in the coordinates of the
image that is cropped. -/
def centre (x0 y0 X Y : Int) : ℚ × ℚ := (x0 + X + 1 / 2, y0 + Y + 1 / 2)

/-- A scaling and translation without reflection. -/
def Upright (tf : Affine) : Prop := tf.b = 0 ∧ tf.c = 0 ∧ 0 < tf.a ∧ 0 < tf.d

/-- The rewritten crop has the same size, its transform from the source is unchanged, and the inner crop
contains every source pixel that is needed to interpolate any output pixel (for transforms with rotation,
shear or reflection: any output pixel whose centre is not left of or above the source image). -/
theorem C32_geometry_and_coverage_partial {s inner : Node} {tf tf' : Affine} (htf : tf.det ≠ 0)
    {y0 y1 x0 x1 : Int} {c : Option (List Nat)}
    (h : warpAfterCrop s tf y0 y1 x0 x1 c = .ok (some (inner, tf'))) :
    ∃ iy0 iy1 ix0 ix1, inner = .crop s iy0 iy1 ix0 ix1 c ∧
      ∀ X Y i j : Int, 0 ≤ X → X < x1 - x0 → 0 ≤ Y → Y < y1 - y0 → 0 ≤ i → i < s.dsize.1 → 0 ≤ j →
        j < s.dsize.2 → Needs (tf.inv.app (centre x0 y0 X Y)) i j →
        (Upright tf ∨ (0 < (tf.inv.app (centre x0 y0 X Y)).1 ∧ 0 < (tf.inv.app (centre x0 y0 X Y)).2)) →
        (ix0 ≤ i ∧ i < ix1 ∧ iy0 ≤ j ∧ j < iy1) ∧
        tf' * Affine.trans (-ix0) (-iy0) = Affine.trans (-x0) (-y0) * tf := by
  simp only [warpAfterCrop] at h
  split at h
  · cases h
  rename_i hne
  split at h
  · cases h
  rename_i inner' hm
  simp only [Except.ok.injEq, Option.some.injEq, Prod.mk.injEq] at h
  obtain ⟨rfl, rfl⟩ := h
  obtain ⟨_, g2, g3, g4, _⟩ := innerSlice_good s.dsize tf htf y0 y1 x0 x1
  refine ⟨_, _, _, _, mkCrop_ints hm, ?_⟩
  intro X Y i j hX0 hX1 hY0 hY1 hi0 hi1 hj0 hj1 hn hu
  have o1 : (x0 : ℚ) < (centre x0 y0 X Y).1 := by
    have : (0 : ℚ) ≤ X := by exact_mod_cast hX0
    simp only [centre]; linarith
  have o2 : (centre x0 y0 X Y).1 < x1 := by
    have : (X : ℚ) + 1 ≤ x1 - x0 := by exact_mod_cast hX1
    simp only [centre]; linarith
  have o3 : (y0 : ℚ) < (centre x0 y0 X Y).2 := by
    have : (0 : ℚ) ≤ Y := by exact_mod_cast hY0
    simp only [centre]; linarith
  have o4 : (centre x0 y0 X Y).2 < y1 := by
    have : (Y : ℚ) + 1 ≤ y1 - y0 := by exact_mod_cast hY1
    simp only [centre]; linarith
  generalize centre x0 y0 X Y = P at *
  have cover : (innerSlice s.dsize tf y0 y1 x0 x1).1.2.2.1 ≤ i ∧
      i < (innerSlice s.dsize tf y0 y1 x0 x1).1.2.2.2 ∧
      (innerSlice s.dsize tf y0 y1 x0 x1).1.1 ≤ j ∧ j < (innerSlice s.dsize tf y0 y1 x0 x1).1.2.1 := by
    by_cases hup : tf.b = 0 ∧ tf.c = 0 ∧ 0 < tf.a ∧ 0 < tf.d
    · rw [innerSlice, if_pos hup]
      obtain ⟨hb, hc, ha, hd⟩ := hup
      have e1 : (tf.inv.app P).1 = (P.1 - tf.tx) / tf.a := by
        simp only [Affine.app, Affine.inv, Affine.det, hb, hc]
        have := ha.ne'; have := hd.ne'
        field_simp; ring
      have e2 : (tf.inv.app P).2 = (P.2 - tf.ty) / tf.d := by
        simp only [Affine.app, Affine.inv, Affine.det, hb, hc]
        have := ha.ne'; have := hd.ne'
        field_simp; ring
      have hn1 := hn.1
      have hn2 := hn.2
      rw [e1] at hn1
      rw [e2] at hn2
      have hx := fast_axis_covers s.dsize.1 tf.a tf.tx ha x0 x1 P.1 o1 o2 i hi0 hi1 hn1
      have hy := fast_axis_covers s.dsize.2 tf.d tf.ty hd y0 y1 P.2 o3 o4 j hj0 hj1 hn2
      exact ⟨hx.1, hx.2, hy.1, hy.2⟩
    · rw [innerSlice, if_neg hup]
      obtain ⟨q1, q2⟩ := hu.resolve_left hup
      have hi := Affine.det_inv tf htf
      have a1 := lt_max4 tf.inv.a tf.inv.b tf.inv.tx x0 x1 y0 y1 _ _ (det_row1 _ hi) o1 o2 o3 o4
      have a2 := min4_lt tf.inv.a tf.inv.b tf.inv.tx x0 x1 y0 y1 _ _ (det_row1 _ hi) o1 o2 o3 o4
      have b1 := lt_max4 tf.inv.c tf.inv.d tf.inv.ty x0 x1 y0 y1 _ _ (det_row2 _ hi) o1 o2 o3 o4
      have b2 := min4_lt tf.inv.c tf.inv.d tf.inv.ty x0 x1 y0 y1 _ _ (det_row2 _ hi) o1 o2 o3 o4
      have hx := swap_axis_covers _ _ (x1 - x0) (by omega) _ q1 a2 a1 i hi0 hn.1
      have hy := swap_axis_covers _ _ (y1 - y0) (by omega) _ q2 b2 b1 j hj0 hn.2
      exact ⟨hx.1, hx.2, hy.1, hy.2⟩
  generalize innerSlice s.dsize tf y0 y1 x0 x1 = r at *
  obtain ⟨⟨ly, hy', lx, hx'⟩, tf'⟩ := r
  obtain ⟨c1, c2, c3, c4⟩ := cover
  obtain ⟨n1, n2⟩ := norm_keep g3 c1 c2 hi1
  obtain ⟨n3, n4⟩ := norm_keep g2 c3 c4 hj1
  simp only at g4 c1 c3 n1 n2 n3 n4 ⊢
  rw [n1] at n2 ⊢
  rw [n3] at n4 ⊢
  exact ⟨⟨c1, n2, c3, n4⟩, g4⟩

/-- A 10 by 10 image scaled by three halves and moved, cropped to 4:8, 2:6: the inner crop keeps rows 0:5
and columns 0:6, and the pixel `(2, 2)` is needed. -/
example : ∃ r : Node × Affine, warpAfterCrop (.leaf ⟨1, (10, 10), 1, none, none, false⟩) ⟨3 / 2, 0, 1 / 3, 0, 3 / 2, 2⟩
      4 8 2 6 none = .ok (some r) ∧ Upright ⟨3 / 2, 0, 1 / 3, 0, 3 / 2, 2⟩ ∧
    Needs ((⟨3 / 2, 0, 1 / 3, 0, 3 / 2, 2⟩ : Affine).inv.app (centre 2 4 1 1)) 2 2 := by
  refine ⟨_, rfl, ?_, ?_⟩
  · simp [Upright]
  · norm_num [Needs, Affine.inv, Affine.det, Affine.app, centre, abs_lt]

/-- What fails: for a rotation, a pixel of the source that contributes to an output pixel whose centre is
just outside the source can be missing from the inner crop.  Here the crop shows the points up to 0.05
above the first row of a 10 by 10 image turned by a quarter; linear interpolation at the centre, 0.3 above
the first row, needs row 0, but the inner crop has no rows. -/
theorem C32_border_blend_violated :
    ∃ (inner : Node) (tf' : Affine), warpAfterCrop (.leaf ⟨1, (10, 10), 1, none, none, false⟩) ⟨0, -2, 9 / 10, 2, 0, 0⟩
        3 4 1 2 none = .ok (some (inner, tf')) ∧ inner.dsize.2 = 0 ∧
      Needs ((⟨0, -2, 9 / 10, 2, 0, 0⟩ : Affine).inv.app (centre 1 3 0 0)) 1 0 := by
  refine ⟨_, _, rfl, ?_, ?_⟩
  · decide +kernel
  · norm_num [Needs, Affine.inv, Affine.det, Affine.app, centre, abs_lt]

/-! ### C33: moving a crop after an overview -/

theorem closeOff_code {k : Int} (hk : k ≤ 26) (x0 : Int) (hx : 0 ≤ x0)
    (h : isclose (1 / 100000) (1 / 100000000) 0 ((max 0 ⌊((2 : ℚ) ^ k)⁻¹ * x0⌋ : Int) - ((2 : ℚ) ^ k)⁻¹ * x0) = true) :
    ((max 0 ⌊((2 : ℚ) ^ k)⁻¹ * x0⌋ : Int) : ℚ) - ((2 : ℚ) ^ k)⁻¹ * x0 = 0 := by
  generalize max 0 ⌊((2 : ℚ) ^ k)⁻¹ * x0⌋ = lx at *
  have hp := two_pow_pos k
  -- a multiple of 2 ^ -26
  obtain ⟨z, hz⟩ : ∃ z : Int, (lx : ℚ) - ((2 : ℚ) ^ k)⁻¹ * x0 = z / 2 ^ 26 := by
    obtain ⟨j, hj⟩ : ∃ j : Nat, (26 - k) = j := Int.eq_ofNat_of_zero_le (by omega)
    refine ⟨lx * 2 ^ 26 - x0 * 2 ^ j, ?_⟩
    have e : ((2 : ℚ) ^ k)⁻¹ = 2 ^ j / 2 ^ 26 := by
      rw [← zpow_neg, show -k = (j : Int) - 26 from by omega, zpow_sub₀ (by norm_num)]
      norm_cast
    rw [e]
    push_cast
    field_simp
    norm_num
  rw [hz] at h ⊢
  simp only [isclose, decide_eq_true_eq, zero_sub, abs_neg] at h
  have hz0 : z = 0 := by
    by_contra hne
    have h1 : (1 : ℚ) ≤ |(z : ℚ)| := by exact_mod_cast Int.one_le_abs hne
    rw [abs_div, abs_of_pos (by positivity : (0 : ℚ) < 2 ^ 26)] at h
    have h2 : (1 : ℚ) / 2 ^ 26 ≤ |(z : ℚ)| / 2 ^ 26 := by gcongr
    have h3 : (1 : ℚ) - 1 / 100000 > 0 := by norm_num
    have h4 : |(z : ℚ)| / 2 ^ 26 * (1 - 1 / 100000) ≤ 1 / 100000000 := by linarith
    have h5 : (1 : ℚ) / 2 ^ 26 * (1 - 1 / 100000) ≤ |(z : ℚ)| / 2 ^ 26 * (1 - 1 / 100000) := by gcongr
    norm_num at h4 h5
    linarith
  rw [hz0]
  simp

/-- The transform from the source, the channels and all that is shown stay the same, with the comparisons of the code
for overviews up to level 26. -/
theorem C33_geometry (H : Heur) {k : Int} (hH : H.Exact ∨ H = Heur.code ∧ k ≤ 26) {s r : Node} (hs : Built s) (sl : Option Space)
    (c : Option (List Nat)) (hc : IdxOk s.nchan c) {y0 y1 x0 x1 : Int}
    (hcrop : mkCrop s sl c = .ok (.crop s y0 y1 x0 x1 c))
    (h : cropAfterOverview H s y0 y1 x0 x1 c k = .ok r) :
    r.channels = (mkOverview (.crop s y0 y1 x0 x1 c) k).channels ∧
    List.Forall₂ Chan.Le (den (mkOverview (.crop s y0 y1 x0 x1 c) k)) (den r) := by
  obtain ⟨hw, hf⟩ := (Built.crop s _ sl c hs hc hcrop).ok
  have hoff : let ox : ℚ := (max 0 ⌊((2 : ℚ) ^ k)⁻¹ * x0⌋ : Int) - ((2 : ℚ) ^ k)⁻¹ * x0
      let oy : ℚ := (max 0 ⌊((2 : ℚ) ^ k)⁻¹ * y0⌋ : Int) - ((2 : ℚ) ^ k)⁻¹ * y0
      H.closeOff ox oy = true → ox = 0 ∧ oy = 0 := by
    intro ox oy ho
    rcases hH with hH | ⟨rfl, hk⟩
    · exact hH.closeOff _ _ ho
    · simp only [Heur.code, Bool.and_eq_true] at ho
      exact ⟨closeOff_code hk x0 hw.2.2.1 ho.1, closeOff_code hk y0 hw.2.1 ho.2⟩
  obtain ⟨h1, h2⟩ := sim_cropAfterOverview H hw.1 hw.2.1 hw.2.2.1 hc k hoff _ h
  exact ⟨h1.channels, h1.den⟩

/-- For crops that start at multiples of `2 ** k` (and end anywhere) the size stays the same. -/
theorem C33_size_partial (H : Heur) {s r : Node} (k : Nat)
    {a b y1 x1 : Int} (ha : 0 ≤ a) (hb : 0 ≤ b) (hy : 2 ^ k * a ≤ y1) (hx : 2 ^ k * b ≤ x1)
    (hy1 : y1 ≤ s.dsize.2) (hx1 : x1 ≤ s.dsize.1) (c : Option (List Nat))
    (h : cropAfterOverview H s (2 ^ k * a) y1 (2 ^ k * b) x1 c k = .ok r) :
    r.dsize = (mkOverview (.crop s (2 ^ k * a) y1 (2 ^ k * b) x1 c) k).dsize := by
  have h2 : (0 : ℚ) < 2 ^ k := by positivity
  have lo : ∀ z : Int, 0 ≤ z → max 0 ⌊((2 : ℚ) ^ (k : Int))⁻¹ * ((2 ^ k * z : Int) : ℚ)⌋ = z := by
    intro z hz
    have : ((2 : ℚ) ^ (k : Int))⁻¹ * ((2 ^ k * z : Int) : ℚ) = z := by
      push_cast; rw [zpow_natCast]; field_simp
    rw [this, Int.floor_intCast]; omega
  have off : ∀ z : Int, (z : ℚ) - ((2 : ℚ) ^ (k : Int))⁻¹ * ((2 ^ k * z : Int) : ℚ) = 0 := by
    intro z
    push_cast; rw [zpow_natCast]; field_simp; ring
  have axis : ∀ (D z u : Int), 0 ≤ z → 2 ^ k * z ≤ u → u ≤ D →
      max (normBound (ovSize k D) z) (normBound (ovSize k D) (max 0 ⌈((2 : ℚ) ^ (k : Int))⁻¹ * u⌉)) -
        normBound (ovSize k D) z = ovSize k (u - 2 ^ k * z) := by
    intro D z u hz hu hD
    have hpos : (0 : ℚ) < ((2 : ℚ) ^ (k : Int))⁻¹ := two_pow_pos k
    have e1 : ovSize k (u - 2 ^ k * z) = ovSize k u - z := by
      unfold ovSize
      rw [← Int.ceil_sub_intCast]
      congr 1
      push_cast; rw [zpow_natCast]; field_simp
    have e2 : ovSize k u = ⌈((2 : ℚ) ^ (k : Int))⁻¹ * u⌉ := rfl
    rw [e1, ← e2]
    have hle : ovSize k u ≤ ovSize k D := by
      unfold ovSize
      apply Int.ceil_le_ceil
      apply mul_le_mul_of_nonneg_left _ hpos.le
      exact_mod_cast hD
    have hge : z ≤ ovSize k u := by
      have := ovSize_nonneg k (u - 2 ^ k * z) (by omega)
      omega
    unfold normBound
    split <;> split <;> omega
  simp only [cropAfterOverview] at h
  split at h
  · cases h
  rename_i cr hm
  have hcr := mkCrop_ints hm
  rw [lo a ha, lo b hb] at hcr
  have hsize : cr.dsize = (mkOverview (.crop s (2 ^ k * a) y1 (2 ^ k * b) x1 c) k).dsize := by
    rw [hcr]
    show (_, _) = (ovSize k (x1 - 2 ^ k * b), ovSize k (y1 - 2 ^ k * a))
    rw [show (mkOverview s k).dsize = (ovSize k s.dsize.1, ovSize k s.dsize.2) from rfl]
    rw [axis s.dsize.1 b x1 hb hx hx1, axis s.dsize.2 a y1 ha hy hy1]
  split at h
  · cases h; exact hsize
  · cases h
    rw [lo a ha, lo b hb, off, off]
    have : ∀ n : Node, 0 ≤ n.dsize.1 → 0 ≤ n.dsize.2 →
        (mkWarp n (Affine.trans 0 0) none .default).dsize = n.dsize := by
      intro n h1 h2
      have := C20_identity n.dsize.1 n.dsize.2 h1 h2
      exact this.2
    rw [this cr ?_ ?_]
    · exact hsize
    · rw [hsize]; exact ovSize_nonneg _ _ (by simp only [Node.dsize]; omega)
    · rw [hsize]; exact ovSize_nonneg _ _ (by simp only [Node.dsize]; omega)

/-- Overview 1 of the crop 2:7 of a 10 by 10 image has size 3, before and after. -/
example : ∃ r : Node, cropAfterOverview Heur.exact (.leaf ⟨1, (10, 10), 1, none, none, false⟩) 2 7 2 7 none 1 =
    .ok r ∧ r.dsize = (3, 3) := by
  have h : (match (cropAfterOverview Heur.exact (.leaf ⟨1, (10, 10), 1, none, none, false⟩) 2 7 2 7 none 1 : Py Node) with
    | .ok m => some m.dsize | .error _ => none) = some (3, 3) := by decide +kernel
  split at h
  · rename_i m e; exact ⟨m, e, by simpa using h⟩
  · cases h

/-- What fails: overview 1 of the two pixels 1:3 has size 1, the rewritten tree has size 2. -/
theorem C33_size_violated :
    (mkOverview (.crop (.leaf ⟨1, (10, 10), 1, none, some 1, false⟩) 1 3 1 3 none) 1 : Node).dsize = (1, 1) ∧
    ∃ r : Node, opt Heur.code 20 (mkOverview (.crop (.leaf ⟨1, (10, 10), 1, none, some 1, false⟩) 1 3 1 3 none) 1) =
      .ok r ∧ r.dsize = (2, 2) := by
  refine ⟨by decide +kernel, ?_⟩
  have h : (match (opt Heur.code 20
      (mkOverview (.crop (.leaf ⟨1, (10, 10), 1, none, some 1, false⟩) 1 3 1 3 none) 1) : Py Node) with
    | .ok m => some m.dsize | .error _ => none) = some (2, 2) := by decide +kernel
  split at h
  · rename_i m e; exact ⟨m, e, by simpa using h⟩
  · cases h

/-! ### C34: splitting a warp into an overview and the rest, absorbing an overview -/

/-- When a warp is split, at most as many overviews are used as exist, and the result is one of: a warp of
an overview by the rest of the transform, with the same size and interpolation parameters; the overview
itself, if it has the requested size and nothing is left of the transform; the overview cropped or padded to
the requested size (optimized), if nothing is left of the transform. -/
theorem C34_split (H : Heur) (hH : H.Exact) (rec : Node → Py Node) (s : Node) (tf : Affine) (d : Int × Int)
    (a : Algo) (new : Node) (h : split H rec s tf d a = .ok (some new)) :
    ∃ n k : Int, s.numOverviews = .ok (some n) ∧ k ≤ n ∧ k ≠ 0 ∧
      ((∃ b res, new = .warp (mkOverview s k) res d b ∧ res * (mkOverview s k).tfSub = tf ∧
          b.interp = a.interp ∧ b.antialias = a.antialias ∧ b.border = a.border) ∨
       (new = mkOverview s k ∧ (mkOverview s k).tfSub = tf ∧ (mkOverview s k).dsize = d) ∨
       (∃ c, paddedCrop (mkOverview s k) 0 d.2 0 d.1 ((0, 0), (0, 0)) = .ok c ∧ rec c = .ok new ∧
          (mkOverview s k).tfSub = tf)) := by
  unfold split at h
  split at h
  · cases h
  · cases h
  rename_i num hnum
  split at h
  · cases h
  split at h
  · cases h
  simp only at h
  split at h
  · cases h
  rename_i hk0
  have htf : ∀ k : Int, (mkOverview s k).tfSub = ovScale k := fun k => rfl
  have hmul : ∀ k : Int, tf * (ovScale k).inv * ovScale k = tf := fun k => by
    rw [Affine.mul_assoc', Affine.inv_mul _ (det_ovScale k), Affine.mul_id]
  refine ⟨num, min num (H.downs tf), hnum, min_le_left _ _, hk0, ?_⟩
  generalize min num (H.downs tf) = k at *
  split at h
  · rename_i hid
    have e : ovScale k = tf := by
      have := hmul k
      rw [hH.closeId _ hid, Affine.id_mul] at this
      exact this
    split at h
    · split at h
      · cases h
      · rename_i c hc
        split at h
        · cases h
        · rename_i r hr
          cases h
          exact .inr (.inr ⟨c, hc, hr, by rw [htf, e]⟩)
    · rename_i hd
      cases h
      exact .inr (.inl ⟨rfl, by rw [htf, e], by simpa using hd⟩)
  · cases h
    exact .inl ⟨_, _, rfl, by rw [htf]; exact hmul k, rfl, rfl, rfl⟩

/-- C34 with the comparisons of the code: where a warp is split, either nothing of the transform is lost, or the
overview takes the place of the warp and the pixels move by at most a hundred-thousandth of their position in the
result; in results with at most 10000 pixels along each side by less than an eighth of a pixel. -/
theorem C34_tolerance (rec : Node → Py Node) (s : Node) (tf : Affine) (d : Int × Int)
    (a : Algo) (new : Node) (h : split Heur.code rec s tf d a = .ok (some new)) :
    ∃ n k : Int, s.numOverviews = .ok (some n) ∧ k ≤ n ∧ k ≠ 0 ∧
      ((∃ b res, new = .warp (mkOverview s k) res d b ∧ res * (mkOverview s k).tfSub = tf) ∨
       ((new = mkOverview s k ∧ (mkOverview s k).dsize = d ∨
         ∃ c, paddedCrop (mkOverview s k) 0 d.2 0 d.1 ((0, 0), (0, 0)) = .ok c ∧ rec c = .ok new) ∧
        ∀ p : ℚ × ℚ, let q := (mkOverview s k).tfSub.app p
          |(tf.app p).1 - q.1| ≤ 1001 / 100000000 * |q.1| + (|q.2| + 1) / 100000000 ∧
          |(tf.app p).2 - q.2| ≤ 1001 / 100000000 * |q.2| + (|q.1| + 1) / 100000000 ∧
          (|q.1| ≤ 10000 → |q.2| ≤ 10000 → |(tf.app p).1 - q.1| < 1 / 8 ∧ |(tf.app p).2 - q.2| < 1 / 8))) := by
  unfold split at h
  split at h
  · cases h
  · cases h
  rename_i num hnum
  split at h
  · cases h
  split at h
  · cases h
  simp only at h
  split at h
  · cases h
  rename_i hk0
  have htf : ∀ k : Int, (mkOverview s k).tfSub = ovScale k := fun k => rfl
  have hmul : ∀ k : Int, tf * (ovScale k).inv * ovScale k = tf := fun k => by
    rw [Affine.mul_assoc', Affine.inv_mul _ (det_ovScale k), Affine.mul_id]
  refine ⟨num, min num (Heur.code.downs tf), hnum, min_le_left _ _, hk0, ?_⟩
  generalize min num (Heur.code.downs tf) = k at *
  split at h
  · rename_i hid
    refine .inr ⟨?_, fun p => ?_⟩
    · split at h
      · split at h
        · cases h
        · rename_i c hc
          split at h
          · cases h
          · rename_i r hr
            cases h
            exact .inr ⟨c, hc, hr⟩
      · rename_i hd
        cases h
        exact .inl ⟨rfl, not_not.1 hd⟩
    · intro q
      have e : tf.app p = (tf * (ovScale k).inv).app q := by
        show _ = (tf * (ovScale k).inv).app ((ovScale k).app p)
        rw [← Affine.app_mul, hmul]
      rw [e]
      generalize tf * (ovScale k).inv = r at hid
      clear_value q
      obtain ⟨x, y⟩ := q
      simp only [Heur.code, iscloseIdentity, isclose, Bool.and_eq_true, decide_eq_true_eq, sub_zero, abs_zero, abs_one,
        mul_zero, add_zero, mul_one] at hid
      obtain ⟨⟨⟨⟨⟨h1, h2⟩, h3⟩, h4⟩, h5⟩, h6⟩ := hid
      have ax : ∀ u v t z w : ℚ, |u - 1| ≤ 1 / 100000000 + 1 / 100000 → |v| ≤ 1 / 100000000 → |t| ≤ 1 / 100000000 →
          |u * z + v * w + t - z| ≤ 1001 / 100000000 * |z| + (|w| + 1) / 100000000 := by
        intro u v t z w a1 a2 a3
        have b1 : |(u - 1) * z| ≤ (1 / 100000000 + 1 / 100000) * |z| := by
          rw [abs_mul]; exact mul_le_mul_of_nonneg_right a1 (abs_nonneg _)
        have b2 : |v * w| ≤ 1 / 100000000 * |w| := by
          rw [abs_mul]; exact mul_le_mul_of_nonneg_right a2 (abs_nonneg _)
        have b3 : u * z + v * w + t - z = (u - 1) * z + v * w + t := by ring
        rw [b3]
        have b4 := abs_add_le ((u - 1) * z + v * w) t
        have b5 := abs_add_le ((u - 1) * z) (v * w)
        linarith
      have k1 : |(r.app (x, y)).1 - x| ≤ 1001 / 100000000 * |x| + (|y| + 1) / 100000000 := by
        simpa [Affine.app] using ax r.a r.b r.tx x y h1 h2 h3
      have k2 : |(r.app (x, y)).2 - y| ≤ 1001 / 100000000 * |y| + (|x| + 1) / 100000000 := by
        have := ax r.d r.c r.ty y x h5 h4 h6
        rw [show r.d * y + r.c * x + r.ty = (r.app (x, y)).2 by simp [Affine.app]; ring] at this
        exact this
      exact ⟨k1, k2, fun l1 l2 => ⟨by simp only at l1 l2; linarith, by simp only at l1 l2; linarith⟩⟩
  · cases h
    exact .inl ⟨_, _, rfl, hmul k⟩

/-- The lossy case happens: a scale of 0.4999999. -/
example : ∃ new : Node Unit, split Heur.code (opt Heur.code 9) (.leaf ⟨1, (100, 100), 1, none, some 3, false⟩)
    (.scale (4999999 / 10000000)) (50, 50) .default = .ok (some new) ∧ new.dsize = (50, 50) ∧
    new.tfSub ≠ .scale (4999999 / 10000000) := by
  have h : (match split (Q := Unit) Heur.code (opt Heur.code 9) (.leaf ⟨1, (100, 100), 1, none, some 3, false⟩)
      (.scale (4999999 / 10000000)) (50, 50) .default with
    | .ok (some m) => some (m.dsize, m.tfSub) | _ => none) = some ((50, 50), .scale (1 / 2)) := by decide +kernel
  split at h
  · rename_i m e
    simp only [Option.some.injEq, Prod.mk.injEq] at h
    refine ⟨m, e, h.1, ?_⟩
    rw [h.2]
    decide +kernel
  · cases h

/-- The size of the third kind of result before it is optimized. -/
theorem C34_split_padded (s : Node) (hs : WF s) (hf : Fit s) (k : Int) (d : Int × Int) (c : Node)
    (h : paddedCrop (mkOverview s k) 0 d.2 0 d.1 ((0, 0), (0, 0)) = .ok c) : c.dsize = d ∧
    (∀ f ∈ den c, ∃ g ∈ den (mkOverview s k), f.tf = g.tf ∧ f.id = g.id ∧ f.ch = g.ch ∧ f.qs = g.qs) := by
  have hw : WF (mkOverview s k) := hs
  have hfit : Fit (mkOverview s k) := ⟨hf, rfl⟩
  have hn := hfit.nonneg hw
  generalize mkOverview s k = o at *
  unfold paddedCrop at h
  split at h
  · cases h
  rename_i ysl yex hy
  split at h
  · cases h
  rename_i xsl xex hx
  split at h
  · cases h
  rename_i new hnew
  have by' := embedSlice_bounds hn.2 ⟨le_refl _, le_refl _⟩ hy
  have bx' := embedSlice_bounds hn.1 ⟨le_refl _, le_refl _⟩ hx
  have y0 : ysl.1 = 0 ∧ yex.1 = 0 := by
    unfold embedSlice at hy
    split at hy
    · cases hy
    · simp only [Except.ok.injEq, Prod.mk.injEq] at hy
      obtain ⟨rfl, rfl⟩ := hy
      have := hn.2
      simp only
      omega
  have x0 : xsl.1 = 0 ∧ xex.1 = 0 := by
    unfold embedSlice at hx
    split at hx
    · cases hx
    · simp only [Except.ok.injEq, Prod.mk.injEq] at hx
      obtain ⟨rfl, rfl⟩ := hx
      have := hn.1
      simp only
      omega
  simp only at by' bx'
  have e := mkCrop_fit (s := o) (y0 := ysl.1) (y1 := ysl.2) (x0 := xsl.1) (x1 := xsl.2) hnew (by omega)
    (by omega) (by omega) (by omega) (by omega) (by omega)
  have eT : Affine.trans (-((0 : Int) : ℚ)) (-((0 : Int) : ℚ)) = .id := by
    ext <;> simp [Affine.trans, Affine.id]
  have eT' : Affine.trans ((0 : Int) : ℚ) ((0 : Int) : ℚ) = .id := by
    ext <;> simp [Affine.trans, Affine.id]
  have dn : ∀ f ∈ den new, ∃ g ∈ den o, f.tf = g.tf ∧ f.id = g.id ∧ f.ch = g.ch ∧ f.qs = g.qs := by
    intro f hfm
    rw [e, den_crop, List.mem_map] at hfm
    obtain ⟨g, hg, rfl⟩ := hfm
    refine ⟨g, hg, ?_, rfl, rfl, rfl⟩
    simp only [Chan.map, x0.1, y0.1]
    rw [eT, Affine.id_mul]
  simp only at h
  split at h
  · cases h
    refine ⟨?_, ?_⟩
    · simp only [mkWarp, Node.dsize]
      ext
      · simp only; omega
      · simp only; omega
    · intro f hfm
      rw [mkWarp, den_warp, List.mem_map] at hfm
      obtain ⟨g, hg, rfl⟩ := hfm
      obtain ⟨g', h1, h2, h3, h4, h5⟩ := dn g hg
      refine ⟨g', h1, ?_, h3, h4, h5⟩
      simp only [Chan.map, x0.2, y0.2]
      rw [eT', Affine.id_mul, h2]
  · rename_i hex
    cases h
    refine ⟨?_, dn⟩
    rw [e]
    simp only [Node.dsize]
    ext
    · simp only; omega
    · simp only; omega

/-- When overviews are absorbed into a warp that scales up, the size and the interpolation parameters stay
the same, and everything that is shown is shown through the same total transform. -/
theorem C34_absorb (H : Heur) (s : Node) (hs : Built s) (tf : Affine) (htf : tf.det ≠ 0) (d : Int × Int)
    (a : Algo) (r : Node) (h : absorb H s tf d a = .ok r) :
    r.dsize = d ∧ (∃ s' tf' b, r = .warp s' tf' d b ∧ b.interp = a.interp ∧ b.antialias = a.antialias ∧
      b.border = a.border) ∧
    List.Forall₂ Chan.Le (den (.warp s tf d a)) (den r) := by
  have hform : ∃ s' tf' b, r = .warp s' tf' d b ∧ b.interp = a.interp ∧ b.antialias = a.antialias ∧
      b.border = a.border := by
    unfold absorb at h
    split at h
    · cases h; exact ⟨_, _, _, rfl, rfl, rfl, rfl⟩
    split at h
    · cases h; exact ⟨_, _, _, rfl, rfl, rfl, rfl⟩
    split at h
    · cases h; exact ⟨_, _, _, rfl, rfl, rfl, rfl⟩
    split at h
    · split at h
      · cases h
      · cases h
      · split at h
        · cases h
        · cases h; exact ⟨_, _, _, rfl, rfl, rfl, rfl⟩
    · split at h
      · cases h
      · cases h; exact ⟨_, _, _, rfl, rfl, rfl, rfl⟩
  refine ⟨?_, hform, (sim_absorb ⟨hs.ok.1, htf⟩ h).1.den⟩
  obtain ⟨s', tf', b, rfl, _⟩ := hform
  rfl

/-- Scaling a 100 by 100 image with three overviews by 1/10: overview 3 and a warp by 8/10. -/
def pyramidLeaf : Node := .leaf ⟨1, (100, 100), 1, none, some 3, false⟩

theorem built_pyramidLeaf : Built pyramidLeaf :=
  .leaf _ ⟨by simp, by simp⟩ ⟨by norm_num, by norm_num⟩

example : ∃ new, split Heur.exact (opt Heur.exact 9) pyramidLeaf (.scale (1 / 10)) (10, 10) .default =
    .ok (some new) ∧ new.dsize = (10, 10) := by
  have h : (match split Heur.exact (opt Heur.exact 9) pyramidLeaf (.scale (1 / 10)) (10, 10) .default with
    | .ok (some m) => some m.dsize | _ => none) = some (10, 10) := by decide +kernel
  split at h
  · rename_i m e; exact ⟨m, e, by simpa using h⟩
  · cases h

/-- Scaling overview 1 up by four: the overview is dropped and the image is scaled by two. -/
example : absorb Heur.exact (mkOverview pyramidLeaf 1) (.scale 4) (200, 200) .default =
    .ok (.warp pyramidLeaf (.scale 4 * ovScale 1) (200, 200) .default) := by
  have h : Heur.exact.big (.scale 4) = true := by decide +kernel
  simp only [absorb, h, mkOverview, look]
  rfl

/-! ### C35: dequantization and geometric operations -/

/-- Every value of an array replaced. -/
def mapPx {V : Type} (f : V → V) (i : Img V) : Img V := ⟨i.h, i.w, i.n, fun y x k => f (i.px y x k)⟩

/-- Dequantizing below a crop gives the same array as cropping the dequantized image (or raises the same
error), for every tree, crop, channel selection and environment. -/
theorem C35_crop {V : Type} (E : Env V) (s : Node) (q : Quantization) (d d' : Int × Int)
    (y0 y1 x0 x1 : Int) (c : Option (List Nat)) :
    fin E (.crop (.dequant s q d) y0 y1 x0 x1 c) = fin E (.dequant (.crop s y0 y1 x0 x1 c) q d') := by
  simp only [fin]
  cases fin E s with
  | error e => rfl
  | ok i =>
    cases c with
    | none => rfl
    | some c =>
      have e : ∀ j : Img V, j.select (some c) = if (c.all fun i => decide (i < j.n)) = true then
          .ok ⟨j.h, j.w, c.length, fun y x k => j.px y x (c.getD k 0)⟩ else .error .indexError :=
        fun _ => rfl
      show Img.select _ (some c) = (match Img.select _ (some c) with
        | .error e => .error e
        | .ok i => .ok { i with px := fun y x k => E.deq q (i.px y x k) } : Py (Img V))
      rw [e, e]
      have hn : ∀ j : Img V, (j.slice (some y0, some y1) (some x0, some x1)).n = j.n := fun _ => rfl
      by_cases h : (c.all fun x => decide (x < i.n)) = true
      · rw [if_pos (by rw [hn]; exact h), if_pos (by rw [hn]; exact h)]; rfl
      · rw [if_neg (by rw [hn]; exact h), if_neg (by rw [hn]; exact h)]

/-- A resampling that picks pixels: the value of an output pixel is the value of one source pixel, or a
fixed fill value. -/
def picks {V : Type} (h w : Nat) (g : Nat → Nat → Option (Nat × Nat)) (fill : V) (i : Img V) : Img V :=
  ⟨h, w, i.n, fun y x k => match g y x with | none => fill | some p => i.px p.1 p.2 k⟩

/-- Overviews read or simulated by picking pixels commute with dequantization. -/
theorem C35_overview {V : Type} (E : Env V) (s : Node) (q : Quantization) (d d' : Int × Int) (k : Int)
    (g : Nat → Nat → Nat × Nat) (h w : Nat) (fill : V) (i : Img V) (hi : fin E s = .ok i)
    (h1 : E.overview s k i = picks h w (fun y x => some (g y x)) fill i)
    (h2 : E.overview (.dequant s q d) k (mapPx (E.deq q) i) =
      picks h w (fun y x => some (g y x)) fill (mapPx (E.deq q) i)) :
    fin E (.overview (.dequant s q d) k d') = fin E (.dequant (.overview s k d') q d') := by
  simp only [fin, hi, h1]
  have := h2
  simp only [mapPx] at this
  rw [this]
  rfl

/-- A warp that picks pixels (interpolation by whole pixels, nearest neighbours) commutes with
dequantization at every pixel that comes from the image, and everywhere if the fill value is dequantized to
the fill value used for dequantized images. -/
theorem C35_warp_partial {V : Type} (E : Env V) (s : Node) (q : Quantization) (d : Int × Int) (tf : Affine)
    (a : Algo) (hint : a.interp ≠ .nearest) (g : Nat → Nat → Option (Nat × Nat)) (h w : Nat)
    (fill fill' : V) (i : Img V) (hi : fin E s = .ok i) (h1 : E.warp tf d a i = picks h w g fill i)
    (h2 : E.warp tf d a (mapPx (E.deq q) i) = picks h w g fill' (mapPx (E.deq q) i)) :
    ∃ r r', fin E (.dequant (.warp s tf d a) q d) = .ok r ∧ fin E (.warp (mkDequant s q) tf d a) = .ok r' ∧
      r.h = r'.h ∧ r.w = r'.w ∧ r.n = r'.n ∧
      (∀ y x k, (g y x).isSome → r.px y x k = r'.px y x k) ∧
      (E.deq q fill = fill' → r = r') := by
  have e1 : fin E (.dequant (.warp s tf d a) q d) = .ok (mapPx (E.deq q) (picks h w g fill i)) := by
    simp only [fin, hi, finWarp, hint, if_false, h1]
    rfl
  have e2 : fin E (.warp (mkDequant s q) tf d a) = .ok (picks h w g fill' (mapPx (E.deq q) i)) := by
    simp only [mkDequant, fin, hi, finWarp, hint, if_false]
    rw [← h2]
    rfl
  refine ⟨_, _, e1, e2, rfl, rfl, rfl, ?_, ?_⟩
  · intro y x k hg
    simp only [mapPx, picks]
    obtain ⟨p, hp⟩ := Option.isSome_iff_exists.1 hg
    rw [hp]
  · intro hfill
    simp only [mapPx, picks]
    congr 1
    funext y x k
    cases g y x with
    | none => exact hfill
    | some p => rfl

/-- A pixel of an integer or a floating point array (`none` is NaN). -/
inductive Px where
  | int (v : Int)
  | flt (v : Option ℚ)
deriving DecidableEq

def Px.isInt : Px → Bool
  | .int _ => true
  | .flt _ => false

/-- Mean of two pixels; integer arrays stay integer arrays. -/
def Px.mean : Px → Px → Px
  | .int a, .int b => .int ⌊((a + b : Int) : ℚ) / 2⌋
  | .flt (some a), .flt (some b) => .flt (some ((a + b) / 2))
  | _, _ => .flt none

def byteInfo : IInfo := ⟨false, 0, 255⟩

/-- An environment like the real one: dequantization makes floating point pixels, a warp by `(-1, 0)`
moves the image by a pixel and a warp by `(-1/2, 0)` takes the means of neighbours; outside of the image
integer arrays are filled with 0 and floating point arrays with NaN. -/
def pxEnv (img : Img Px) : Env Px where
  img _ := img
  deq q
    | .int v => .flt (dequantizePx q byteInfo v)
    | .flt _ => .flt none
  nan := .flt none
  border _ := .flt none
  warp tf d _ i :=
    let fill : Px := if (i.px 0 0 0).isInt then .int 0 else .flt none
    let at' := fun y x k => if x < i.w then i.px y x k else fill
    ⟨d.2.toNat, d.1.toNat, i.n, fun y x k =>
      if tf.tx = -1 then at' y (x + 1) k else (at' y x k).mean (at' y (x + 1) k)⟩
  resize _ i := i
  finite _ := true
  unique _ := 0
  overview _ _ i := i

/-- Three pixels in a row. -/
def rowOf (a b c : Int) : Img Px := ⟨1, 3, 1, fun _ x _ => .int ([a, b, c].getD x 0)⟩

/-- The pixels of the first row. -/
def firstRow (r : Py (Img Px)) : Option (List Px) :=
  match r with
  | .ok i => some ((List.range i.w).map fun x => i.px 0 x 0)
  | .error _ => none

def threeLeaf : Node := .leaf ⟨1, (3, 1), 1, none, none, false⟩

/-- Bytes 1..255 stand for 10 to 264; byte 0 for missing data. -/
def byteQ (nodata : Option Int) : Quantization := ⟨10, 264, 1, 255, nodata⟩

/-- What fails for warps of integer images: the optimizer dequantizes first, which changes (1) pixels
outside of the image, from the value that 0 stands for to NaN; (2) interpolated pixels, because integer
results are rounded before they are dequantized. -/
theorem C35_warp_violated :
    -- (1) moving the image to the left by one pixel
    (firstRow (fin (pxEnv (rowOf 1 2 3)) (.dequant (.warp threeLeaf (.trans (-1) 0) (3, 1) .default) (byteQ none) (3, 1)))
      = some [.flt (some 11), .flt (some 12), .flt (some 9)] ∧
     firstRow (finalize Heur.code (pxEnv (rowOf 1 2 3)) 9
        (.dequant (.warp threeLeaf (.trans (-1) 0) (3, 1) .default) (byteQ none) (3, 1)))
      = some [.flt (some 11), .flt (some 12), .flt none]) ∧
    -- (2) moving the image to the left by half a pixel
    (firstRow (fin (pxEnv (rowOf 1 2 4)) (.dequant (.warp threeLeaf (.trans (-1 / 2) 0) (2, 1) .default) (byteQ none) (2, 1)))
      = some [.flt (some 10), .flt (some 12)] ∧
     firstRow (finalize Heur.code (pxEnv (rowOf 1 2 4)) 9
        (.dequant (.warp threeLeaf (.trans (-1 / 2) 0) (2, 1) .default) (byteQ none) (2, 1)))
      = some [.flt (some (21 / 2)), .flt (some 12)]) := by
  decide +kernel

/-- The hypotheses of the partial theorem hold for the move by a whole pixel. -/
example : (pxEnv (rowOf 1 2 3)).warp (.trans (-1) 0) (3, 1) .default (rowOf 1 2 3) =
    picks 1 3 (fun y x => if x + 1 < 3 then some (y, x + 1) else none) (.int 0) (rowOf 1 2 3) := by
  simp only [pxEnv, picks, rowOf, Affine.trans]
  congr 1
  funext y x k
  by_cases h : x + 1 < 3 <;> simp [h, Px.isInt]

end Props
end Verif
