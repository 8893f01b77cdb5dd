/-
Arrays with overviews: if the pixels of overviews are computed from blocks of pixels, and overviews of overviews are
overviews, then `optimize` changes no pixel of images without warps whose crops start and end on pixels of the
overviews taken after them (C36, C83).
-/
import Verif.Props.EarlyPaced

namespace Verif
namespace Props

open Tree Tree.Node Helpers

variable {V : Type} {E : Env V} {ov : Nat → Img V → Img V}

/-- Overviews of which each pixel is computed from the block of `2 ** k` by `2 ** k` pixels it covers, in the same way
wherever the block is, and channel by channel; overviews of overviews are overviews, and dequantizing can be done before
or after.  The choice of one pixel of each block is of this kind, see `cornerEnv`. -/
structure Env.Blocks (E : Env V) (ov : Nat → Img V → Img V) : Prop where
  is : ∀ s (k : Nat) i, E.overview s k i = ov k i
  h : ∀ k i, ((ov k i).h : Int) = ovSize k i.h
  w : ∀ k i, ((ov k i).w : Int) = ovSize k i.w
  n : ∀ k i, (ov k i).n = i.n
  block : ∀ k (i j : Img V) (a b y x c d : Nat), y < (ov k i).h → x < (ov k i).w → c < i.n → d < j.n →
    (∀ y' x', y' / 2 ^ k = y → x' / 2 ^ k = x →
      (y' < i.h ↔ y' + 2 ^ k * a < j.h) ∧ (x' < i.w ↔ x' + 2 ^ k * b < j.w) ∧
      (y' < i.h → x' < i.w → i.px y' x' c = j.px (y' + 2 ^ k * a) (x' + 2 ^ k * b) d)) →
    (ov k i).px y x c = (ov k j).px (y + a) (x + b) d
  zero : ∀ i, (ov 0 i).Same i
  add : ∀ k l i, (ov k (ov l i)).Same (ov (l + k) i)
  deq : ∀ k q (i : Img V) y x c, y < (ov k i).h → x < (ov k i).w → c < i.n →
    (ov k { i with px := fun y x c => E.deq q (i.px y x c) }).px y x c = E.deq q ((ov k i).px y x c)
  nan : ∀ k (i : Img V) c, (∀ y x, y < i.h → x < i.w → i.px y x c = E.nan) → c < i.n →
    ∀ y x, y < (ov k i).h → x < (ov k i).w → (ov k i).px y x c = E.nan
  void : ∀ q, E.deq q E.nan = E.nan

/-- The dequantizations of a channel. -/
def through (E : Env V) (qs : List Quantization) (v : V) : V := qs.foldl (fun v q => E.deq q v) v

/-! ### Along one axis -/

/-- `h` pixels from `o` on, of `H` pixels: the first one is on an overview pixel and so is the end, or it is the end of
everything. -/
structure Stretch1 (L o h H : Nat) : Prop where
  dvd : 2 ^ L ∣ o
  le : o + h ≤ H
  fin : 2 ^ L ∣ o + h ∨ o + h = H

theorem ovSize_bounds (k : Nat) (h : Int) : h ≤ 2 ^ k * ovSize k h ∧ 2 ^ k * ovSize k h < h + 2 ^ k := by
  have hp : (0 : ℚ) < (2 : ℚ) ^ k := by positivity
  have h1 : ((2 : ℚ) ^ (k : Int))⁻¹ * h ≤ ovSize k h := Int.le_ceil _
  have h2 : (ovSize k h : ℚ) < ((2 : ℚ) ^ (k : Int))⁻¹ * h + 1 := Int.ceil_lt_add_one _
  rw [zpow_natCast] at h1 h2
  constructor
  · have : (h : ℚ) ≤ 2 ^ k * ovSize k h := by
      have := mul_le_mul_of_nonneg_left h1 hp.le
      rwa [← mul_assoc, mul_inv_cancel₀ hp.ne', one_mul] at this
    exact_mod_cast this
  · have : (2 : ℚ) ^ k * ovSize k h < h + 2 ^ k := by
      have := mul_lt_mul_of_pos_left h2 hp
      rwa [mul_add, ← mul_assoc, mul_inv_cancel₀ hp.ne', one_mul, mul_one] at this
    exact_mod_cast this

theorem Stretch1.whole (L h : Nat) : Stretch1 L 0 h h := ⟨dvd_zero _, by omega, .inr (by omega)⟩

theorem Stretch1.crop {L o h H : Nat} (hs : Stretch1 L o h H) {a b : Nat} (ha : 2 ^ L ∣ a) (hab : a ≤ b) (hb : b ≤ h)
    (he : 2 ^ L ∣ b ∨ b = h) : Stretch1 L (o + a) (b - a) H := by
  refine ⟨hs.dvd.add ha, by have := hs.le; omega, ?_⟩
  have e : o + a + (b - a) = o + b := by omega
  rw [e]
  rcases he with he | rfl
  · exact .inl (hs.dvd.add he)
  · exact hs.fin

theorem Stretch1.mono {L K o h H : Nat} (hKL : K ≤ L) (hs : Stretch1 L o h H) : Stretch1 K o h H :=
  ⟨(pow_dvd_pow 2 hKL).trans hs.dvd, hs.le, hs.fin.imp_left (pow_dvd_pow 2 hKL).trans⟩

theorem Stretch1.coarser {L k a h H z Z : Nat} (hs : Stretch1 (L + k) (2 ^ k * a) h H) (hz : (z : Int) = ovSize k h)
    (hZ : (Z : Int) = ovSize k H) : Stretch1 L a z Z ∧
      ∀ y y', y < z → y' / 2 ^ k = y → (y' < h ↔ y' + 2 ^ k * a < H) := by
  obtain ⟨z1, z2⟩ := ovSize_bounds k h
  obtain ⟨Z1, Z2⟩ := ovSize_bounds k H
  rw [← hz] at z1 z2
  rw [← hZ] at Z1 Z2
  have z1 : h ≤ 2 ^ k * z := by exact_mod_cast z1
  have z2 : 2 ^ k * z < h + 2 ^ k := by exact_mod_cast z2
  have Z1 : H ≤ 2 ^ k * Z := by exact_mod_cast Z1
  have Z2 : 2 ^ k * Z < H + 2 ^ k := by exact_mod_cast Z2
  have h2 := hs.le
  have hd := hs.dvd
  have he := hs.fin
  rw [pow_add, mul_comm (2 ^ L)] at hd he
  have hN : 0 < 2 ^ k := by positivity
  generalize 2 ^ k = N at *
  have hd' : 2 ^ L ∣ a := Nat.dvd_of_mul_dvd_mul_left hN hd
  have part : N * 2 ^ L ∣ N * a + h → h = N * z ∧ 2 ^ L ∣ a + z := by
    rintro ⟨t, ht⟩
    have hh : N ∣ h := (Nat.dvd_add_right (dvd_mul_right N a)).1 ⟨2 ^ L * t, by rw [ht]; ring⟩
    obtain ⟨c, rfl⟩ := hh
    have hcz : c = z := by
      have h3 : c ≤ z := Nat.le_of_mul_le_mul_left z1 hN
      have h4 : N * z < N * (c + 1) := by rw [mul_add, mul_one]; exact z2
      have h5 := Nat.lt_of_mul_lt_mul_left h4
      omega
    subst hcz
    refine ⟨rfl, t, ?_⟩
    apply Nat.eq_of_mul_eq_mul_left hN
    rw [mul_add, ht]; ring
  refine ⟨⟨hd', ?_, ?_⟩, ?_⟩
  · have : N * (a + z) < N * (Z + 1) := by rw [mul_add, mul_add, mul_one]; omega
    have := Nat.lt_of_mul_lt_mul_left this
    omega
  · rcases he with he | he
    · exact .inl (part he).2
    · right
      have h3 : N * (a + z) < N * (Z + 1) := by rw [mul_add, mul_add, mul_one]; omega
      have h4 : N * Z < N * (a + z + 1) := by rw [mul_add, mul_add, mul_one]; omega
      have h3 := Nat.lt_of_mul_lt_mul_left h3
      have h4 := Nat.lt_of_mul_lt_mul_left h4
      omega
  · intro y y' hy hyy
    rcases he with he | he
    · obtain ⟨e, _⟩ := part he
      have h3 : y' < N * (y + 1) := by rw [← hyy]; exact Nat.lt_mul_div_succ y' hN
      have h4 : N * (y + 1) ≤ N * z := Nat.mul_le_mul_left _ hy
      constructor <;> intro _ <;> omega
    · constructor <;> intro _ <;> omega

/-! ### One channel -/

/-- The pixels `f` of a channel are NaN if it shows nothing; otherwise they are those of an overview of its file, from
`oy` and `ox` on. -/
def Traced (E : Env V) (ov : Nat → Img V → Img V) (L h w : Nat) (c : Chan) (f : Nat → Nat → V) : Prop :=
  ((∀ p, ¬ c.dom p) ∧ ∀ y x, y < h → x < w → f y x = E.nan) ∨
  ∃ K oy ox : Nat, c.tf = .trans (-(ox : ℚ)) (-(oy : ℚ)) * ovScale K ∧
    Stretch1 L oy h (ov K (E.img c.id)).h ∧ Stretch1 L ox w (ov K (E.img c.id)).w ∧ c.ch < (E.img c.id).n ∧
    ∀ y x, y < h → x < w → f y x = through E c.qs ((ov K (E.img c.id)).px (y + oy) (x + ox) c.ch) ∧
      ∀ δ : ℚ, 0 < δ → δ ≤ ((2 : ℚ) ^ K)⁻¹ / 2 → c.dom (x + δ, y + δ)

/-- All channels of an image. -/
structure TracedImg (E : Env V) (ov : Nat → Img V → Img V) (L : Nat) (t : Node) (i : Img V) : Prop where
  h : (i.h : Int) = t.dsize.2
  w : (i.w : Int) = t.dsize.1
  n : i.n = t.nchan
  px : ∀ k, k < i.n → Traced E ov L i.h i.w ((den t).getD k Chan.none) (fun y x => i.px y x k)

theorem pow_inv_half (K : Nat) : 0 < ((2 : ℚ) ^ K)⁻¹ / 2 ∧ ((2 : ℚ) ^ K)⁻¹ / 2 < 1 := by
  have h1 : (1 : ℚ) ≤ 2 ^ K := one_le_pow₀ (by norm_num)
  have h2 : ((2 : ℚ) ^ K)⁻¹ ≤ 1 := inv_le_one_of_one_le₀ h1
  exact ⟨by positivity, by linarith⟩

theorem in_near {d : Int × Int} {x y : Nat} {δ : ℚ} (h0 : 0 < δ) (h1 : δ < 1) (hx : (x : Int) < d.1) (hy : (y : Int) < d.2) :
    In d ((x : ℚ) + δ, (y : ℚ) + δ) := by
  have e1 : ((x : ℚ)) + 1 ≤ d.1 := by exact_mod_cast hx
  have e2 : ((y : ℚ)) + 1 ≤ d.2 := by exact_mod_cast hy
  have e3 : (0 : ℚ) ≤ x := by positivity
  have e4 : (0 : ℚ) ≤ y := by positivity
  refine ⟨?_, ?_, ?_, ?_⟩ <;> simp only <;> linarith

theorem through_append (qs : List Quantization) (q : Quantization) (v : V) :
    through E (qs ++ [q]) v = E.deq q (through E qs v) := by simp [through]

theorem ov_through (hE : Env.Blocks E ov) (k : Nat) : ∀ (qs : List Quantization) (i : Img V) (y x c : Nat), y < (ov k i).h →
    x < (ov k i).w → c < i.n →
    (ov k { i with px := fun y x c => through E qs (i.px y x c) }).px y x c = through E qs ((ov k i).px y x c) := by
  intro qs
  induction qs using List.reverseRecOn with
  | nil => intro i y x c _ _ _; rfl
  | append_singleton qs q ih =>
    intro i y x c hy hx hc
    have e : ({ i with px := fun y x c => through E (qs ++ [q]) (i.px y x c) } : Img V) =
        { ({ i with px := fun y x c => through E qs (i.px y x c) } : Img V) with
          px := fun y x c => E.deq q (through E qs (i.px y x c)) } := by
      simp only [through_append]
    have hh : (ov k { i with px := fun y x c => through E qs (i.px y x c) }).h = (ov k i).h := by
      have h1 := hE.h k i; have h2 := hE.h k { i with px := fun y x c => through E qs (i.px y x c) }
      simp only at h2; omega
    have hw : (ov k { i with px := fun y x c => through E qs (i.px y x c) }).w = (ov k i).w := by
      have h1 := hE.w k i; have h2 := hE.w k { i with px := fun y x c => through E qs (i.px y x c) }
      simp only at h2; omega
    rw [e, through_append, hE.deq k q { i with px := fun y x c => through E qs (i.px y x c) } y x c (by rw [hh]; exact hy)
      (by rw [hw]; exact hx) hc, ih i y x c hy hx hc]

theorem traced_congr {L h w : Nat} {c : Chan} {f g : Nat → Nat → V} (ht : Traced E ov L h w c f)
    (hfg : ∀ y x, y < h → x < w → g y x = f y x) : Traced E ov L h w c g := by
  rcases ht with ⟨h1, h2⟩ | ⟨K, oy, ox, h1, h2, h3, h4, h5⟩
  · exact .inl ⟨h1, fun y x hy hx => (hfg y x hy hx).trans (h2 y x hy hx)⟩
  · exact .inr ⟨K, oy, ox, h1, h2, h3, h4, fun y x hy hx => ⟨(hfg y x hy hx).trans (h5 y x hy hx).1, (h5 y x hy hx).2⟩⟩

theorem traced_deq (hE : Env.Blocks E ov) {L h w : Nat} {c : Chan} {f : Nat → Nat → V} (ht : Traced E ov L h w c f)
    (q : Quantization) {d : Int × Int} (hh : (h : Int) = d.2) (hw : (w : Int) = d.1) :
    Traced E ov L h w ((c.map .id d).deq q) (fun y x => E.deq q (f y x)) := by
  rcases ht with ⟨h1, h2⟩ | ⟨K, oy, ox, h1, h2, h3, h4, h5⟩
  · refine .inl ⟨fun p hp => h1 _ hp.2, fun y x hy hx => ?_⟩
    simp only [h2 y x hy hx, hE.void]
  · refine .inr ⟨K, oy, ox, ?_, h2, h3, h4, fun y x hy hx => ⟨?_, fun δ hδ hδ' => ?_⟩⟩
    · simp only [Chan.deq, Chan.map, Affine.id_mul, h1]
    · simp only [Chan.deq, Chan.map, through_append, (h5 y x hy hx).1]
    · refine ⟨in_near hδ (lt_of_le_of_lt hδ' (pow_inv_half K).2) (by omega) (by omega), ?_⟩
      rw [Affine.inv_id, Affine.app_id]
      exact (h5 y x hy hx).2 δ hδ hδ'

theorem traced_crop {L h w : Nat} {c : Chan} {f : Nat → Nat → V} (ht : Traced E ov L h w c f) {a b a' b' : Nat}
    (ha : 2 ^ L ∣ a) (hab : a ≤ b) (hb : b ≤ h) (he : 2 ^ L ∣ b ∨ b = h)
    (ha' : 2 ^ L ∣ a') (hab' : a' ≤ b') (hb' : b' ≤ w) (he' : 2 ^ L ∣ b' ∨ b' = w) :
    Traced E ov L (b - a) (b' - a') (c.map (.trans (-(a' : ℚ)) (-(a : ℚ))) ((b' : Int) - a', (b : Int) - a))
      (fun y x => f (a + y) (a' + x)) := by
  rcases ht with ⟨h1, h2⟩ | ⟨K, oy, ox, h1, h2, h3, h4, h5⟩
  · exact .inl ⟨fun p hp => h1 _ hp.2, fun y x hy hx => h2 _ _ (by omega) (by omega)⟩
  · refine .inr ⟨K, oy + a, ox + a', ?_, h2.crop ha hab hb he, h3.crop ha' hab' hb' he', h4, fun y x hy hx => ⟨?_, fun δ hδ hδ' => ?_⟩⟩
    · simp only [Chan.map, h1]
      ext <;> simp [Affine.mul_def, Affine.mul, Affine.trans] <;> ring
    · simp only [(h5 (a + y) (a' + x) (by omega) (by omega)).1, Chan.map]
      congr 2 <;> omega
    · refine ⟨in_near hδ (lt_of_le_of_lt hδ' (pow_inv_half K).2) (by simp only; omega) (by simp only; omega), ?_⟩
      have := (h5 (a + y) (a' + x) (by omega) (by omega)).2 δ hδ hδ'
      rw [Affine.inv_trans]
      convert this using 1
      simp only [Affine.app_trans, neg_neg, Prod.mk.injEq]
      constructor <;> push_cast <;> ring

theorem traced_ov (hE : Env.Blocks E ov) {L k : Nat} {i : Img V} {c : Chan} {ch : Nat} (hch : ch < i.n)
    (ht : Traced E ov (L + k) i.h i.w c (fun y x => i.px y x ch)) {d : Int × Int} (hh : ((ov k i).h : Int) = d.2)
    (hw : ((ov k i).w : Int) = d.1) :
    Traced E ov L (ov k i).h (ov k i).w (c.map (ovScale k) d) (fun y x => (ov k i).px y x ch) := by
  rcases ht with ⟨h1, h2⟩ | ⟨K, oy, ox, h1, h2, h3, h4, h5⟩
  · exact .inl ⟨fun p hp => h1 _ hp.2, fun y x hy hx => hE.nan k i ch h2 hch y x hy hx⟩
  · obtain ⟨a, rfl⟩ : 2 ^ k ∣ oy := (pow_dvd_pow 2 (Nat.le_add_left k L)).trans h2.dvd
    obtain ⟨b, rfl⟩ : 2 ^ k ∣ ox := (pow_dvd_pow 2 (Nat.le_add_left k L)).trans h3.dvd
    have hadd := hE.add k K (E.img c.id)
    obtain ⟨s1, s2⟩ := h2.coarser (hE.h k i) (hE.h k (ov K (E.img c.id)))
    obtain ⟨t1, t2⟩ := h3.coarser (hE.w k i) (hE.w k (ov K (E.img c.id)))
    refine .inr ⟨K + k, a, b, ?_, by show Stretch1 L a _ (ov (K + k) (E.img c.id)).h; rw [← hadd.h]; exact s1,
      by show Stretch1 L b _ (ov (K + k) (E.img c.id)).w; rw [← hadd.w]; exact t1, h4,
      fun y x hy hx => ⟨?_, fun δ hδ hδ' => ?_⟩⟩
    · simp only [Chan.map, h1]
      have hp : (2 : ℚ) ^ k ≠ 0 := by positivity
      rw [Nat.cast_add, ← ovScale_add]
      ext <;> simp [Affine.mul_def, Affine.mul, Affine.trans, ovScale, Affine.scale] <;> field_simp
    · have hy' : y + a < (ov k (ov K (E.img c.id))).h := by have := s1.le; omega
      have hx' : x + b < (ov k (ov K (E.img c.id))).w := by have := t1.le; omega
      have hn : c.ch < (ov K (E.img c.id)).n := by rw [hE.n]; exact h4
      have e := hE.block k i { ov K (E.img c.id) with px := fun y x j => through E c.qs ((ov K (E.img c.id)).px y x j) }
        a b y x ch c.ch hy hx hch hn fun y' x' hyy hxx => ⟨s2 y y' hy hyy, t2 x x' hx hxx, fun p1 p2 =>
          (h5 y' x' p1 p2).1⟩
      simp only [Chan.map]
      rw [e, ov_through hE k _ _ _ _ _ hy' hx' hn, hadd.px _ _ _ hy' hx' (by rw [hE.n]; exact hn)]
    · have hp : (0 : ℚ) < (2 : ℚ) ^ k := by positivity
      have hp' : (0 : ℚ) < (2 : ℚ) ^ K := by positivity
      refine ⟨in_near hδ (lt_of_le_of_lt hδ' (pow_inv_half _).2) (by omega) (by omega), ?_⟩
      obtain ⟨z1, z2⟩ := ovSize_bounds k i.h
      obtain ⟨w1, w2⟩ := ovSize_bounds k i.w
      rw [← hE.h] at z1 z2
      rw [← hE.w] at w1 w2
      have z2 : 2 ^ k * (ov k i).h < i.h + 2 ^ k := by exact_mod_cast z2
      have w2 : 2 ^ k * (ov k i).w < i.w + 2 ^ k := by exact_mod_cast w2
      have y1 : 2 ^ k * (y + 1) ≤ 2 ^ k * (ov k i).h := Nat.mul_le_mul_left _ hy
      have x1 : 2 ^ k * (x + 1) ≤ 2 ^ k * (ov k i).w := Nat.mul_le_mul_left _ hx
      rw [mul_add, mul_one] at y1 x1
      have := (h5 (2 ^ k * y) (2 ^ k * x) (by omega) (by omega)).2 (2 ^ k * δ) (by positivity) (by
        have := mul_le_mul_of_nonneg_left hδ' hp.le
        calc 2 ^ k * δ ≤ 2 ^ k * (((2 : ℚ) ^ (K + k))⁻¹ / 2) := this
          _ = ((2 : ℚ) ^ K)⁻¹ / 2 := by rw [pow_add]; field_simp)
      convert this using 1
      have e : (ovScale k).inv = .scale ((2 : ℚ) ^ k) := by
        ext <;> simp [ovScale, Affine.inv, Affine.scale, Affine.det] <;> field_simp
      rw [e]
      simp only [Affine.app, Affine.scale, Prod.mk.injEq]
      constructor <;> push_cast <;> ring

/-! ### All channels -/

theorem traced_slice {L : Nat} {s : Node} {i : Img V} (hi : TracedImg E ov L s i) {y0 y1 x0 x1 : Int}
    (hy0 : 0 ≤ y0) (hy : y0 ≤ y1) (hy1 : y1 ≤ s.dsize.2) (hx0 : 0 ≤ x0) (hx : x0 ≤ x1) (hx1 : x1 ≤ s.dsize.1)
    (dy : 2 ^ L ∣ y0) (dx : 2 ^ L ∣ x0) (ey1 : 2 ^ L ∣ y1 ∨ y1 = s.dsize.2) (ex1 : 2 ^ L ∣ x1 ∨ x1 = s.dsize.1) :
    TracedImg E ov L (.crop s y0 y1 x0 x1 none) (i.slice (some y0, some y1) (some x0, some x1)) := by
  have ey := npSlice_range i.h y0 y1 hy0 hy (by rw [hi.h]; exact hy1)
  have ex := npSlice_range i.w x0 x1 hx0 hx (by rw [hi.w]; exact hx1)
  have hih := hi.h
  have hiw := hi.w
  obtain ⟨a, rfl⟩ := Int.eq_ofNat_of_zero_le hy0
  obtain ⟨b, rfl⟩ := Int.eq_ofNat_of_zero_le (hy0.trans hy)
  obtain ⟨a', rfl⟩ := Int.eq_ofNat_of_zero_le hx0
  obtain ⟨b', rfl⟩ := Int.eq_ofNat_of_zero_le (hx0.trans hx)
  have eh : ((b : Int) - a).toNat = b - a := by omega
  have ew : ((b' : Int) - a').toNat = b' - a' := by omega
  refine ⟨?_, ?_, hi.n, ?_⟩
  · simp only [Img.slice, ey, dsize, List.length_map, List.length_range]; omega
  · simp only [Img.slice, ex, dsize, List.length_map, List.length_range]; omega
  intro k hk
  have hk' : k < s.nchan := by rw [← hi.n]; exact hk
  have key := traced_crop (hi.px k hk) (a := a) (b := b) (a' := a') (b' := b') (by exact_mod_cast dy) (by omega) (by omega)
    (by rcases ey1 with h | h
        · exact .inl (by exact_mod_cast h)
        · exact .inr (by omega)) (by exact_mod_cast dx) (by omega) (by omega)
    (by rcases ex1 with h | h
        · exact .inl (by exact_mod_cast h)
        · exact .inr (by omega))
  rw [den_crop]
  simp only [selDen]
  rw [getD_map_chan (by rw [den_length]; exact hk')]
  simp only [Img.slice, ey, ex, List.length_map, List.length_range, eh, ew, Int.ofNat_eq_natCast, Int.cast_natCast,
    Int.toNat_natCast] at key ⊢
  refine traced_congr key fun y x hyy hxx => ?_
  rw [List.getD_eq_getElem _ _ (by simpa using hyy), List.getD_eq_getElem _ _ (by simpa using hxx)]
  simp only [List.getElem_map, List.getElem_range]

theorem traced_select {L : Nat} {s : Node} {i : Img V} {y0 y1 x0 x1 : Int} {c : Option (List Nat)}
    (hc : IdxOk s.nchan c) (hi : TracedImg E ov L (.crop s y0 y1 x0 x1 none) i) :
    ∃ j, i.select c = .ok j ∧ TracedImg E ov L (.crop s y0 y1 x0 x1 c) j := by
  cases c with
  | none => exact ⟨i, rfl, hi⟩
  | some c =>
    have hn : i.n = s.nchan := by have := hi.n; simpa [nchan] using this
    have hall : c.all (fun k => decide (k < i.n)) = true := by
      rw [List.all_eq_true]
      intro k hk
      rw [decide_eq_true_eq, hn]
      exact hc k hk
    refine ⟨⟨i.h, i.w, c.length, fun y x k => i.px y x (c.getD k 0)⟩,
      by simp only [Img.select, hall, if_true], ⟨hi.h, hi.w, rfl, ?_⟩⟩
    intro k hk
    simp only at hk ⊢
    have hck : c.getD k 0 < s.nchan := by
      rw [List.getD_eq_getElem _ _ hk]; exact hc _ (List.getElem_mem hk)
    have key := hi.px (c.getD k 0) (by rw [hn]; exact hck)
    rw [den_crop] at key ⊢
    simp only [selDen] at key ⊢
    rw [getD_map_chan (l := den s) (by rw [den_length]; exact hck)] at key
    rw [getD_map_chan (l := pick Chan.none (den s) c) (by simpa [pick] using hk)]
    have e : (pick Chan.none (den s) c).getD k Chan.none = (den s).getD (c.getD k 0) Chan.none := by
      simp only [pick]
      rw [List.getD_eq_getElem (c.map fun i => (den s).getD i Chan.none) _ (by simpa using hk),
        List.getElem_map, List.getD_eq_getElem c _ hk]
    rw [e]
    exact key

theorem traced_cat {L : Nat} {d : Int × Int} {ps : List Node} {a b : Img V} {p : Node}
    (ha : TracedImg E ov L p a) (hp : p.dsize = d) (hb : TracedImg E ov L (.concat ps d) b) :
    a.h = b.h ∧ a.w = b.w ∧ TracedImg E ov L (.concat (p :: ps) d) (a.cat b) := by
  have h1 := ha.h
  have h2 := ha.w
  have h3 := hb.h
  have h4 := hb.w
  rw [hp] at h1 h2
  have e3 : (Node.concat ps d).dsize = d := rfl
  rw [e3] at h3 h4
  have eh : a.h = b.h := by omega
  have ew : a.w = b.w := by omega
  refine ⟨eh, ew, h1, h2, ?_, ?_⟩
  · have := hb.n
    simp only [nchan] at this
    simp only [Img.cat, nchan, nchans, ha.n, this]
  · intro k hk
    simp only [Img.cat] at hk ⊢
    simp only [den, denL]
    by_cases hka : k < a.n
    · simp only [if_pos hka]
      rw [List.getD_append _ _ _ _ (by rw [den_length, ← ha.n]; exact hka)]
      exact ha.px k hka
    · simp only [if_neg hka]
      have key := hb.px (k - a.n) (by omega)
      rw [List.getD_append_right _ _ _ _ (by rw [den_length, ← ha.n]; omega), den_length, ← ha.n, eh, ew]
      exact key

mutual
/-- `_finalize` shows pixels of overviews of the files. -/
theorem fin_traced (hE : Env.Blocks E ov) : ∀ (n : Node) (L : Nat), WF n → Fit n → Paced L n → Snug L n →
    Each E.Matches n → ∃ i, fin E n = .ok i ∧ TracedImg E ov L n i
  | .leaf l, L, hw, hf, _, _, hm => by
    unfold fin
    by_cases hn : l.nan = true
    · have h1 := hf.1
      have h2 := hf.2
      rw [if_pos hn, if_neg (by omega)]
      refine ⟨_, rfl, ⟨by simp only [dsize]; omega, by simp only [dsize]; omega, rfl, ?_⟩⟩
      intro k hk
      refine .inl ⟨fun p hp => ?_, fun _ _ _ _ => rfl⟩
      rw [List.getD_eq_getElem _ _ (by rw [den_length]; exact hk)] at hp
      simp only [den, List.getElem_map, Chan.leaf, hn] at hp
      exact absurd hp.1 (by simp)
    · have hn' : l.nan = false := by simpa using hn
      rw [if_neg hn]
      obtain ⟨m1, m2, m3⟩ := hm hn'
      refine ⟨_, rfl, ⟨m1, m2, m3, ?_⟩⟩
      intro k hk
      rw [List.getD_eq_getElem _ _ (by rw [den_length, show (Node.leaf l).nchan = l.nchan from rfl]; omega)]
      simp only [den, List.getElem_map, List.getElem_range]
      have hz := hE.zero (E.img l.id)
      refine .inr ⟨0, 0, 0, ?_, ?_, ?_, hk, fun y x hy hx => ⟨?_, fun δ h0 h1 => ?_⟩⟩
      · simp only [Chan.leaf, Nat.cast_zero, neg_zero, ovScale_zero]
        ext <;> simp [Affine.mul_def, Affine.mul, Affine.trans, Affine.id]
      · simp only [Chan.leaf]; rw [hz.h]; exact .whole _ _
      · simp only [Chan.leaf]; rw [hz.w]; exact .whole _ _
      · simp only [Chan.leaf, through, List.foldl_nil, Nat.add_zero]
        exact (hz.px y x k (by rw [hz.h]; exact hy) (by rw [hz.w]; exact hx) (by rw [hz.n]; exact hk)).symm
      · exact ⟨hn', in_near h0 (lt_of_le_of_lt h1 (pow_inv_half 0).2) (by omega) (by omega)⟩
  | .concat ps d, L, hw, hf, hp, hs, hm => by
    rw [Paced] at hp
    rw [Snug] at hs
    obtain ⟨as, e, h⟩ := finL_traced hE ps d L hw.2 hf.2 hp hs hm
    obtain ⟨i, hi, hs⟩ := h hw.1
    exact ⟨i, by simp only [fin, e, hi], hs⟩
  | .warp s tf d a, L, hw, hf, hp, hs, hm => hp.elim
  | .crop s y0 y1 x0 x1 c, L, hw, hf, hp, hs, hm => by
    obtain ⟨f0, f1, f2, f3, f4⟩ := hf
    rw [Paced] at hp
    rw [Snug] at hs
    obtain ⟨i, e, hi⟩ := fin_traced hE s L hw.1 f0 hp.2 hs.2 hm
    obtain ⟨j, ej, hj⟩ := traced_select hw.2.2.2 (traced_slice hi hw.2.1 f1 f2 hw.2.2.1 f3 f4 hp.1.1 hp.1.2 hs.1.1 hs.1.2)
    exact ⟨j, by simp only [fin, e, ej], hj⟩
  | .overview s k d, L, hw, hf, hp, hs, hm => by
    rw [Paced] at hp
    rw [Snug] at hs
    obtain ⟨hk, hp⟩ := hp
    obtain ⟨k, rfl⟩ := Int.eq_ofNat_of_zero_le hk
    simp only [Int.ofNat_eq_natCast, Int.toNat_natCast] at hp hs
    obtain ⟨i, e, hi⟩ := fin_traced hE s (L + k) hw hf.1 hp hs hm
    have hd : d = (ovSize k s.dsize.1, ovSize k s.dsize.2) := hf.2
    have h1 : ((ov k i).h : Int) = d.2 := by rw [hE.h, hi.h, hd]
    have h2 : ((ov k i).w : Int) = d.1 := by rw [hE.w, hi.w, hd]
    refine ⟨ov k i, by simp only [fin, e]; exact congrArg _ (hE.is s k i), h1, h2, by rw [hE.n, hi.n]; simp only [nchan], ?_⟩
    intro j hj
    rw [hE.n] at hj
    have hj' : j < s.nchan := by rw [← hi.n]; exact hj
    rw [den_overview, getD_map_chan (by rw [den_length]; exact hj')]
    exact traced_ov hE hj (hi.px j hj) h1 h2
  | .dequant s q d, L, hw, hf, hp, hs, hm => by
    rw [Paced] at hp
    rw [Snug] at hs
    obtain ⟨i, e, hi⟩ := fin_traced hE s L hw hf.1 hp hs hm
    have hd : d = s.dsize := hf.2
    refine ⟨_, by simp only [fin, e]; rfl, ⟨?_, ?_, by simpa [nchan] using hi.n, ?_⟩⟩
    · simp only [dsize, hd]; exact hi.h
    · simp only [dsize, hd]; exact hi.w
    intro k hk
    simp only at hk ⊢
    have hk' : k < s.nchan := by rw [← hi.n]; exact hk
    rw [den_dequant, getD_map_chan (by rw [den_length]; exact hk')]
    exact traced_deq hE (hi.px k hk) q (by rw [hd]; exact hi.h) (by rw [hd]; exact hi.w)
theorem finL_traced (hE : Env.Blocks E ov) : ∀ (ps : List Node) (d : Int × Int) (L : Nat), WFL d ps → FitL ps →
    PacedL L ps → SnugL L ps → EachL E.Matches ps → ∃ as, finL E ps = .ok as ∧ (ps ≠ [] → ∃ i, catAll as = .ok i ∧
      TracedImg E ov L (.concat ps d) i)
  | [], d, _, _, _, _, _, _ => ⟨[], rfl, fun h => (h rfl).elim⟩
  | p :: ps, d, L, hw, hf, hp, hs, hm => by
    rw [PacedL] at hp
    rw [SnugL] at hs
    obtain ⟨i, e, hi⟩ := fin_traced hE p L hw.1 hf.1 hp.1 hs.1 hm.1
    obtain ⟨as, es, h⟩ := finL_traced hE ps d L hw.2.2 hf.2 hp.2 hs.2 hm.2
    refine ⟨i :: as, by simp only [finL, e, es], fun _ => ?_⟩
    cases ps with
    | nil =>
      simp only [finL, Except.ok.injEq] at es
      subst es
      refine ⟨i, rfl, ⟨?_, ?_, by simpa [nchan, nchans] using hi.n, ?_⟩⟩
      · rw [show (Node.concat [p] d).dsize = d from rfl, ← hw.2.1]; exact hi.h
      · rw [show (Node.concat [p] d).dsize = d from rfl, ← hw.2.1]; exact hi.w
      · intro k hk
        have := hi.px k hk
        simpa [den, denL] using this
    | cons p' ps =>
      obtain ⟨j, ej, hj⟩ := h (by simp)
      obtain ⟨h1, h2, h3⟩ := traced_cat hi hw.2.1 hj
      cases as with
      | nil => simp [catAll] at ej
      | cons a as =>
        refine ⟨i.cat j, ?_, h3⟩
        rw [catAll]
        · rw [ej]; simp only [h1, h2, and_self, if_true]
        · simp
end

/-- The place in the overview is determined by the transform. -/
theorem traced_unique {K K' oy ox oy' ox' : Nat} (h : (Affine.trans (-(ox : ℚ)) (-(oy : ℚ)) * ovScale K) =
    .trans (-(ox' : ℚ)) (-(oy' : ℚ)) * ovScale K') : K = K' ∧ oy = oy' ∧ ox = ox' := by
  have h1 := congrArg Affine.a h
  have h2 := congrArg Affine.tx h
  have h3 := congrArg Affine.ty h
  simp [Affine.mul_def, Affine.mul, Affine.trans, ovScale, Affine.scale] at h1 h2 h3
  exact ⟨h1, h3, h2⟩

/-- Images that show the same points of the same files have the same arrays. -/
theorem traced_same {n m : Node} (hk : KeepsSnug n m) {i j : Img V} {L L' : Nat} (hi : TracedImg E ov L n i)
    (hj : TracedImg E ov L' m j) : i.Same j := by
  have e1 := hi.h
  have e2 := hj.h
  have e3 := hi.w
  have e4 := hj.w
  rw [hk.dsize] at e2 e4
  have en : i.n = j.n := by rw [hi.n, hj.n, hk.fwd.nchan]
  refine ⟨by omega, by omega, en, fun y x k hy hx hkn => ?_⟩
  have l1 := forall₂_getD hk.fwd.den k
  have l2 := forall₂_getD hk.bwd.den k
  have t1 := hi.px k hkn
  have t2 := hj.px k (by omega)
  generalize (den n).getD k Chan.none = c at *
  generalize (den m).getD k Chan.none = c' at *
  rcases t1 with ⟨a1, a2⟩ | ⟨K, oy, ox, a1, _, _, _, a5⟩
  · rcases t2 with ⟨b1, b2⟩ | ⟨K', oy', ox', b1, _, _, _, b5⟩
    · exact (a2 y x hy hx).trans (b2 y x (by omega) (by omega)).symm
    · exact absurd (l2.1 _ ((b5 y x (by omega) (by omega)).2 _ (pow_inv_half K').1 (le_refl _))) (a1 _)
  · have hd := (a5 y x hy hx).2 _ (pow_inv_half K).1 (le_refl _)
    rcases t2 with ⟨b1, b2⟩ | ⟨K', oy', ox', b1, _, _, _, b5⟩
    · exact absurd (l1.1 _ hd) (b1 _)
    · rcases l1.2 with h0 | ⟨f1, f2, f3, f4⟩
      · exact absurd hd (h0 _)
      · rw [f3, a1] at b1
        obtain ⟨rfl, rfl, rfl⟩ := traced_unique b1
        have r1 := (a5 y x hy hx).1
        have r2 := (b5 y x (by omega) (by omega)).1
        rw [f1, f2, f4] at r2
        exact r1.trans r2.symm

/-! ### The theorems -/

/-- C36, arrays with overviews: if the pixels of overviews are computed from blocks of pixels and overviews of overviews
are overviews, then `optimize` changes no pixel of images without warps whose crops start (`Paced`) and end (`Snug`) on pixels of the
overviews taken after them, or end at the border. -/
theorem C36_arrays_snug_partial (H : Heur) (hH : H.closeOff 0 0 = true) (hE : Env.Blocks E ov) {n : Node} (hb : Built n)
    (hn : Paced 0 n) (he : Snug 0 n) (hm : Each E.Matches n) (fuel : Nat) {m : Node} (h : opt H fuel n = .ok m) :
    ∃ i j, fin E n = .ok i ∧ fin E m = .ok j ∧ i.Same j := by
  obtain ⟨hw, hf⟩ := hb.ok
  have g := opt_good (deep := false) (snugRules H hH) (by simp) fuel n m ⟨⟨hw, hf, hn⟩, he⟩ h
  have k := opt_good (deep := false) (keepRules H (nameRules H) (stable_each E.Matches (fun _ _ _ h => by cases h)))
    (by simp) fuel n m ⟨hw, hm⟩ h
  obtain ⟨i, ei, hi⟩ := fin_traced hE n 0 hw hf hn he hm
  obtain ⟨j, ej, hj⟩ := fin_traced hE m 0 g.inv.wf g.inv.fit g.inv.steps g.inv.ends k.inv.2
  exact ⟨i, j, ei, ej, traced_same g.rel hi hj⟩

/-- C83, arrays with overviews: for the same images optimizing parts in advance changes no pixel. -/
theorem C83_arrays_snug_partial {H : Heur} (hH : H.closeOff 0 0 = true) (hE : Env.Blocks E ov) {n m : Node}
    (h : Early H n m) (hb : Built n) (hn : Paced 0 n) (he : Snug 0 n) (hm : Each E.Matches n) :
    ∃ i j, fin E n = .ok i ∧ fin E m = .ok j ∧ i.Same j := by
  obtain ⟨hw, hf⟩ := hb.ok
  obtain ⟨g1, g2⟩ := early_good (snugRules H hH) h ⟨⟨hw, hf, hn⟩, he⟩
  obtain ⟨l1, _⟩ := early_good (keepRules H (nameRules H) (stable_each E.Matches (fun _ _ _ h => by cases h))) h ⟨hw, hm⟩
  obtain ⟨i, ei, hi⟩ := fin_traced hE n 0 hw hf hn he hm
  obtain ⟨j, ej, hj⟩ := fin_traced hE m 0 g1.wf g1.fit g1.steps g1.ends l1.2
  exact ⟨i, j, ei, ej, traced_same g2 hi hj⟩

/-- C83, the same for the default `finalize()`: whether parts are optimized in advance or not, no exception is raised and
every pixel is the one computed without optimizing. -/
theorem C83_results_snug_partial (hE : Env.Blocks E ov) (hS : Env.Shaped E) {n m : Node} (h : Early Heur.code n m)
    (hb : Built n) (hn : Paced 0 n) (he : Snug 0 n) (hc : Coarse n) (hf : Fair n) (hd : deqs n ≤ 1)
    (hm : Each E.Matches n) :
    ∃ i j F, fin E n = .ok i ∧ (∀ f, F ≤ f → finalize Heur.code E f m = .ok j) ∧ i.Same j := by
  obtain ⟨_, j, F, _, hj, _⟩ := C83_finalize_paced_partial hS h hb hn hc hf hd hm
  have e := hj F (le_refl _)
  rw [finalize] at e
  split at e
  · cases e
  · rename_i r hr
    obtain ⟨i, j', e1, e2, e3⟩ := C83_arrays_snug_partial closeOff_zero hE (h.trans (.opt F hr (.refl r))) hb hn he hm
    rw [e] at e2
    cases e2
    exact ⟨i, j, F, e1, hj, e3⟩

/-! ### An example -/

/-- The upper left pixel of each block. -/
def cornerOv (k : Nat) (i : Img V) : Img V :=
  ⟨(ovSize k i.h).toNat, (ovSize k i.w).toNat, i.n, fun y x c => i.px (2 ^ k * y) (2 ^ k * x) c⟩

theorem corner_lt {k h y : Nat} (hy : y < (ovSize k h).toNat) : 2 ^ k * y < h := by
  obtain ⟨_, h2⟩ := ovSize_bounds k h
  have h3 : (y : Int) + 1 ≤ ovSize k h := by omega
  have h4 : (2 : Int) ^ k * (y + 1) ≤ 2 ^ k * ovSize k h := mul_le_mul_of_nonneg_left h3 (by positivity)
  have h5 : (2 : Int) ^ k * y < h := by rw [mul_add, mul_one] at h4; omega
  exact_mod_cast h5

theorem ovSize_toNat (k : Int) (h : Nat) : ((ovSize k h).toNat : Int) = ovSize k h :=
  Int.toNat_of_nonneg (ovSize_nonneg k h (by omega))

/-- Overviews that choose the upper left pixel of each block are computed from blocks. -/
theorem corner_blocks {E : Env V} (h : ∀ s (k : Nat) i, E.overview s k i = cornerOv k i)
    (hv : ∀ q, E.deq q E.nan = E.nan) : Env.Blocks E cornerOv where
  is := h
  h := fun k i => ovSize_toNat k i.h
  w := fun k i => ovSize_toNat k i.w
  n := fun _ _ => rfl
  block := by
    intro k i j a b y x c d hy hx _ _ hb
    have hp : 0 < 2 ^ k := by positivity
    obtain ⟨_, _, h3⟩ := hb (2 ^ k * y) (2 ^ k * x) (Nat.mul_div_cancel_left _ hp) (Nat.mul_div_cancel_left _ hp)
    simp only [cornerOv, mul_add]
    exact h3 (corner_lt hy) (corner_lt hx)
  zero := by
    intro i
    refine ⟨?_, ?_, rfl, fun y x c _ _ _ => ?_⟩
    · simp only [cornerOv, Nat.cast_zero, ovSize_zero]; omega
    · simp only [cornerOv, Nat.cast_zero, ovSize_zero]; omega
    · simp only [cornerOv, pow_zero, one_mul]
  add := by
    intro k l i
    refine ⟨?_, ?_, rfl, fun y x c _ _ _ => ?_⟩
    · simp only [cornerOv]; rw [ovSize_toNat, ovSize_ovSize _ _ _ (by omega), Nat.cast_add]
    · simp only [cornerOv]; rw [ovSize_toNat, ovSize_ovSize _ _ _ (by omega), Nat.cast_add]
    · simp only [cornerOv, pow_add, mul_assoc]
  deq := fun _ _ _ _ _ _ _ _ _ => rfl
  nan := fun k i c hi _ y x hy hx => hi _ _ (corner_lt hy) (corner_lt hx)
  void := hv

/-- Pictures of 10 by 10 pixels with such overviews; dequantizing exchanges rows and columns. -/
def cornerEnv : Env (Nat × Nat × Nat) := { squareEnv with
  deq := fun _ v => if v = (9, 9, 9) then v else (v.2.1, v.1, v.2.2)
  overview := fun _ k i => ⟨(ovSize k i.h).toNat, (ovSize k i.w).toNat, i.n, fun y x c =>
    i.px (2 ^ k.toNat * y) (2 ^ k.toNat * x) c⟩ }

theorem cornerEnv_blocks : Env.Blocks cornerEnv cornerOv := corner_blocks (fun _ _ _ => rfl) (fun _ => rfl)

theorem cornerEnv_shaped : Env.Shaped cornerEnv := ⟨fun _ _ _ _ => rfl, fun _ _ => rfl, fun _ _ _ => rfl⟩

theorem cornerView_fair : Coarse cornerView ∧ Fair cornerView ∧ deqs cornerView ≤ 1 ∧ Each cornerEnv.Matches cornerView :=
  ⟨⟨by decide, by decide, trivial, trivial, trivial⟩,
    ⟨⟨⟨.inr rfl, .inr rfl, trivial⟩, by simp⟩, by simp⟩, by decide, ⟨fun _ => ⟨rfl, rfl, rfl⟩, fun _ => ⟨rfl, rfl, rfl⟩, trivial⟩⟩

example : ∃ i j F, fin cornerEnv cornerView = .ok i ∧ (∀ f, F ≤ f → finalize Heur.code cornerEnv f cornerView = .ok j) ∧
    i.Same j :=
  C83_results_snug_partial cornerEnv_blocks cornerEnv_shaped (.refl _) cornerView_ok.1 cornerView_ok.2.1
    cornerView_ok.2.2.1 cornerView_fair.1 cornerView_fair.2.1 cornerView_fair.2.2.1 cornerView_fair.2.2.2

/-- The pixel is the one of row 4 and column 8. -/
example : holds (finalize Heur.code cornerEnv 60 cornerView)
    (fun i => decide (i.h = 1 ∧ i.w = 1 ∧ i.n = 6 ∧ i.px 0 0 1 = (8, 4, 1) ∧ i.px 0 0 4 = (4, 8, 1))) = true := by
  decide +kernel

/-- Without `Snug` it fails for other overviews, here the maximum of each block: the last row of the overview of five
rows shows the sixth one. -/
def blockMax : Env Nat where
  img := fun _ => ⟨10, 10, 3, fun y _ _ => y⟩
  deq := fun _ v => v
  nan := 0
  border := fun _ => 0
  warp := fun _ d _ i => ⟨d.2.toNat, d.1.toNat, i.n, fun _ _ _ => 0⟩
  resize := fun d i => ⟨d.2.toNat, d.1.toNat, i.n, fun _ _ _ => 0⟩
  finite := fun _ => true
  unique := fun l => l.eraseDups.length
  overview := fun _ k i => ⟨(ovSize k i.h).toNat, (ovSize k i.w).toNat, i.n, fun y x c =>
    ((List.range (2 ^ k.toNat)).map fun r => if 2 ^ k.toNat * y + r < i.h then i.px (2 ^ k.toNat * y + r) (2 ^ k.toNat * x) c
      else 0).foldl max 0⟩

/-- C36, arrays: crops that do not end on pixels of the overviews. -/
theorem C36_arrays_ends_violated : Built oddEnd ∧ Paced 0 oddEnd ∧
    holds (fin blockMax oddEnd) (fun i => decide (i.h = 3 ∧ i.px 2 0 0 = 4)) = true ∧
    holds (finalize Heur.code blockMax 40 oddEnd) (fun i => decide (i.h = 3 ∧ i.px 2 0 0 = 5)) = true :=
  ⟨C36_ends_violated.1, C36_ends_violated.2.1, by decide +kernel, by decide +kernel⟩

end Props
end Verif
