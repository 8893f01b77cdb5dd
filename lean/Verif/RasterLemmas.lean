/-
The arrays computed by `_finalize` are the ones described by `den`, for trees whose operations move whole
pixels: crops, channel selections, concatenations, dequantizations and warps that mirror, turn by quarters and
move by whole pixels.
-/
import Verif.Raster
import Verif.ExactRules

namespace Verif
namespace Tree

open Helpers Node

variable {V : Type}

mutual
/-- A condition on all leaves. -/
def Each (f : Leaf → Prop) : Node → Prop
  | .leaf l => f l
  | .concat ps _ => EachL f ps
  | .warp s _ _ _ => Each f s
  | .crop s _ _ _ _ _ => Each f s
  | .overview s _ _ => Each f s
  | .dequant s _ _ => Each f s
def EachL (f : Leaf → Prop) : List Node → Prop
  | [] => True
  | p :: ps => Each f p ∧ EachL f ps
end

/-- The arrays of the environment have the announced shapes. -/
def Env.Matches (E : Env V) (l : Leaf) : Prop :=
  l.nan = false → ((E.img l.id).h : Int) = l.dsize.2 ∧ ((E.img l.id).w : Int) = l.dsize.1 ∧
    (E.img l.id).n = l.nchan

/-- Moving an array by whole pixels. -/
def Img.shift (a : Img V) (tx ty : Int) (d : Int × Int) (fill : V) : Img V :=
  ⟨d.2.toNat, d.1.toNat, a.n, fun y x k =>
    if 0 ≤ (y : Int) - ty ∧ (y : Int) - ty < a.h ∧ 0 ≤ (x : Int) - tx ∧ (x : Int) - tx < a.w then
      a.px ((y : Int) - ty).toNat ((x : Int) - tx).toNat k
    else fill⟩

/-- Centre of a pixel. -/
def ctr (y x : Nat) : ℚ × ℚ := ((x : ℚ) + 1 / 2, (y : ℚ) + 1 / 2)

/-- The maps that take pixels to pixels: mirroring, turning by quarters and moving by whole pixels. -/
def Turn (m : Affine) : Prop :=
  (((m.a = 1 ∨ m.a = -1) ∧ (m.d = 1 ∨ m.d = -1) ∧ m.b = 0 ∧ m.c = 0) ∨
    ((m.b = 1 ∨ m.b = -1) ∧ (m.c = 1 ∨ m.c = -1) ∧ m.a = 0 ∧ m.d = 0)) ∧
  (∃ tx : Int, m.tx = tx) ∧ ∃ ty : Int, m.ty = ty

/-- Taking every pixel to where the map takes its centre. -/
def Img.carry (a : Img V) (m : Affine) (d : Int × Int) (fill : V) : Img V :=
  ⟨d.2.toNat, d.1.toNat, a.n, fun y x k =>
    let p := m.inv.app (ctr y x)
    if 0 ≤ p.2 ∧ p.2 < a.h ∧ 0 ≤ p.1 ∧ p.1 < a.w then a.px ⌊p.2⌋.toNat ⌊p.1⌋.toNat k else fill⟩

/-- Assumptions on the external functions: warping by a map that takes pixels to pixels moves pixels and fills
the rest with NaN (as for floating point images), and NaN is dequantized to NaN. -/
structure Env.Ok (E : Env V) : Prop where
  turn : ∀ m d a i, Turn m → a.interp ≠ .nearest → (E.warp m d a i).Same (i.carry m d E.nan)
  deq : ∀ q, E.deq q E.nan = E.nan

mutual
/-- Only operations that move whole pixels. -/
def Pix : Node → Prop
  | .leaf _ => True
  | .concat ps _ => PixL ps
  | .warp s tf _ a => Turn tf ∧ a.interp ≠ .nearest ∧ Pix s
  | .crop s _ _ _ _ _ => Pix s
  | .overview _ _ _ => False
  | .dequant s _ _ => Pix s
def PixL : List Node → Prop
  | [] => True
  | p :: ps => Pix p ∧ PixL ps
end

/-- What a channel shows at a point, `nan` where it has no data. -/
noncomputable def Env.val (E : Env V) (c : Chan) (p : ℚ × ℚ) : V :=
  (c.value (fun id ch p => (E.img id).px ⌊p.2⌋.toNat ⌊p.1⌋.toNat ch) E.deq p).getD E.nan

theorem Turn.trans (tx ty : Int) : Turn (.trans tx ty) := by
  refine ⟨.inl ⟨.inl rfl, .inl rfl, rfl, rfl⟩, ⟨tx, rfl⟩, ty, rfl⟩

theorem Turn.det {m : Affine} (h : Turn m) : m.det ≠ 0 := by
  obtain ⟨h, _, _⟩ := h
  unfold Affine.det
  rcases h with ⟨h1 | h1, h2 | h2, h3, h4⟩ | ⟨h1 | h1, h2 | h2, h3, h4⟩ <;> rw [h1, h2, h3, h4] <;> norm_num

theorem Turn.mul {m n : Affine} (hm : Turn m) (hn : Turn n) : Turn (m * n) := by
  obtain ⟨h, ⟨tx, ex⟩, ty, ey⟩ := hm
  obtain ⟨g, ⟨ux, fx⟩, uy, fy⟩ := hn
  have e : ∀ x y : ℚ, ∀ z : Int, (x = 0 ∨ x = 1 ∨ x = -1) → (y = 0 ∨ y = 1 ∨ y = -1) →
      ∃ t : Int, x * (ux : ℚ) + y * (uy : ℚ) + (z : ℚ) = t := by
    intro x y z hx hy
    have one : ∀ w : ℚ, (w = 0 ∨ w = 1 ∨ w = -1) → ∃ v : Int, w = v := by
      rintro w (rfl | rfl | rfl)
      · exact ⟨0, by simp⟩
      · exact ⟨1, by simp⟩
      · exact ⟨-1, by simp⟩
    obtain ⟨x', rfl⟩ := one x hx
    obtain ⟨y', rfl⟩ := one y hy
    exact ⟨x' * ux + y' * uy + z, by push_cast; ring⟩
  refine ⟨?_, ?_, ?_⟩
  · simp only [Affine.mul_def, Affine.mul]
    rcases h with ⟨h1 | h1, h2 | h2, h3, h4⟩ | ⟨h1 | h1, h2 | h2, h3, h4⟩ <;>
      rcases g with ⟨g1 | g1, g2 | g2, g3, g4⟩ | ⟨g1 | g1, g2 | g2, g3, g4⟩ <;>
      rw [h1, h2, h3, h4, g1, g2, g3, g4] <;> norm_num
  · simp only [Affine.mul_def, Affine.mul, fx, fy, ex]
    apply e <;> rcases h with ⟨h1 | h1, h2 | h2, h3, h4⟩ | ⟨h1 | h1, h2 | h2, h3, h4⟩ <;> simp [h1, h2, h3, h4]
  · simp only [Affine.mul_def, Affine.mul, fx, fy, ey]
    apply e <;> rcases h with ⟨h1 | h1, h2 | h2, h3, h4⟩ | ⟨h1 | h1, h2 | h2, h3, h4⟩ <;> simp [h1, h2, h3, h4]

/-- The pixel that is taken to a pixel. -/
theorem Turn.pre {m : Affine} (h : Turn m) (y x : Nat) :
    ∃ u v : Int, m.inv.app (ctr y x) = ((u : ℚ) + 1 / 2, (v : ℚ) + 1 / 2) := by
  obtain ⟨h, ⟨tx, ex⟩, ty, ey⟩ := h
  simp only [Affine.inv, Affine.app, Affine.det, ctr, ex, ey, Prod.mk.injEq]
  rcases h with ⟨h1 | h1, h2 | h2, h3, h4⟩ | ⟨h1 | h1, h2 | h2, h3, h4⟩ <;> rw [h1, h2, h3, h4]
  · exact ⟨x - tx, y - ty, by push_cast; ring, by push_cast; ring⟩
  · exact ⟨x - tx, ty - y - 1, by push_cast; ring, by push_cast; ring⟩
  · exact ⟨tx - x - 1, y - ty, by push_cast; ring, by push_cast; ring⟩
  · exact ⟨tx - x - 1, ty - y - 1, by push_cast; ring, by push_cast; ring⟩
  · exact ⟨y - ty, x - tx, by push_cast; ring, by push_cast; ring⟩
  · exact ⟨ty - y - 1, x - tx, by push_cast; ring, by push_cast; ring⟩
  · exact ⟨y - ty, tx - x - 1, by push_cast; ring, by push_cast; ring⟩
  · exact ⟨ty - y - 1, tx - x - 1, by push_cast; ring, by push_cast; ring⟩

theorem half_pos' {u : Int} : 0 ≤ (u : ℚ) + 1 / 2 ↔ 0 ≤ u := by
  constructor
  · intro h
    have : (-1 : ℚ) < u := by linarith
    have : (-1 : Int) < u := by exact_mod_cast this
    omega
  · intro h
    have : (0 : ℚ) ≤ u := by exact_mod_cast h
    linarith

theorem half_lt' {u : Int} {w : Nat} : (u : ℚ) + 1 / 2 < w ↔ u < w := by
  constructor
  · intro h
    have : (u : ℚ) < w := by linarith
    exact_mod_cast this
  · intro h
    have : (u : ℚ) + 1 ≤ w := by exact_mod_cast h
    linarith

theorem floor_half' (u : Int) : ⌊(u : ℚ) + 1 / 2⌋ = u := by
  rw [Int.floor_eq_iff]
  constructor <;> linarith

/-- Moving by whole pixels. -/
theorem carry_trans (i : Img V) (tx ty : Int) (d : Int × Int) (v : V) :
    i.carry (.trans tx ty) d v = i.shift tx ty d v := by
  unfold Img.carry Img.shift
  congr 1
  funext y x k
  have e : (Affine.trans tx ty).inv.app (ctr y x) =
      ((((x : Int) - tx : Int) : ℚ) + 1 / 2, (((y : Int) - ty : Int) : ℚ) + 1 / 2) := by
    rw [Affine.inv_trans]
    simp only [Affine.app_trans, ctr, Prod.mk.injEq]
    constructor <;> (push_cast; ring)
  simp only [e, half_pos', half_lt', floor_half']

/-- Mirroring an array of the same width. -/
theorem carry_mirror (i : Img V) (v : V) :
    (i.carry ⟨-1, 0, i.w, 0, 1, 0⟩ (i.w, i.h) v).Same ⟨i.h, i.w, i.n, fun y x k => i.px y (i.w - 1 - x) k⟩ := by
  refine ⟨by simp [Img.carry], by simp [Img.carry], rfl, ?_⟩
  intro y x k hy hx hk
  simp only [Img.carry, Int.toNat_natCast] at hy hx hk ⊢
  have e : (Affine.mk (-1) 0 i.w 0 1 0).inv.app (ctr y x) =
      ((((i.w - 1 - x : Nat) : Int) : ℚ) + 1 / 2, ((y : Int) : ℚ) + 1 / 2) := by
    simp only [Affine.inv, Affine.app, Affine.det, ctr, Prod.mk.injEq]
    rw [show i.w - 1 - x = i.w - (1 + x) by omega, Nat.cast_sub (by omega)]
    constructor <;> (push_cast; ring)
  simp only [e, half_pos', half_lt', floor_half']
  rw [if_pos (by omega)]
  simp

mutual
theorem den_det : ∀ n : Node, WF n → ∀ c ∈ den n, c.tf.det ≠ 0
  | .leaf l, _, c, hc => by
    simp only [den, List.mem_map] at hc
    obtain ⟨i, _, rfl⟩ := hc
    simp [Chan.leaf]
  | .concat ps d, h, c, hc => denL_det ps d h.2 c hc
  | .warp s tf _ _, h, c, hc => by
    simp only [den, List.mem_map] at hc
    obtain ⟨i, hi, rfl⟩ := hc
    simp only [Chan.map, Affine.det_mul]
    exact mul_ne_zero h.2 (den_det s h.1 i hi)
  | .crop s _ _ _ _ cs, h, c, hc => by
    rw [den_crop, List.mem_map] at hc
    obtain ⟨i, hi, rfl⟩ := hc
    simp only [Chan.map, Affine.det_mul]
    refine mul_ne_zero (by simp) ?_
    cases cs with
    | none => exact den_det s h.1 i hi
    | some cs =>
      simp only [selDen, pick, List.mem_map] at hi
      obtain ⟨k, hk, rfl⟩ := hi
      have hk' : k < (den s).length := by rw [den_length]; exact h.2.2.2 k hk
      rw [List.getD_eq_getElem _ _ hk']
      exact den_det s h.1 _ (List.getElem_mem hk')
  | .overview s k _, h, c, hc => by
    simp only [den, List.mem_map] at hc
    obtain ⟨i, hi, rfl⟩ := hc
    simp only [Chan.map, Affine.det_mul]
    exact mul_ne_zero (det_ovScale k) (den_det s h i hi)
  | .dequant s _ _, h, c, hc => by
    simp only [den, List.mem_map] at hc
    obtain ⟨i, hi, rfl⟩ := hc
    simp only [Chan.map, Chan.deq, Affine.det_mul]
    exact mul_ne_zero (by simp) (den_det s h i hi)
theorem denL_det : ∀ (ps : List Node) (d : Int × Int), WFL d ps → ∀ c ∈ denL ps, c.tf.det ≠ 0
  | [], _, _, c, hc => by simp [denL] at hc
  | q :: ps, d, h, c, hc => by
    simp only [denL, List.mem_append] at hc
    rcases hc with hc | hc
    · exact den_det q h.1 c hc
    · exact denL_det ps d h.2.2 c hc
end

variable {E : Env V}

theorem val_map {c : Chan} {m : Affine} {d : Int × Int} {p : ℚ × ℚ} (hc : c.tf.det ≠ 0) (hm : m.det ≠ 0)
    (hp : In d p) : E.val (c.map m d) p = E.val c (m.inv.app p) := by
  unfold Env.val Chan.value
  have e : (c.map m d).dom p ↔ c.dom (m.inv.app p) := ⟨fun h => h.2, fun h => ⟨hp, h⟩⟩
  by_cases h : c.dom (m.inv.app p)
  · rw [if_pos (e.2 h), if_pos h]
    simp only [Chan.map]
    rw [Affine.inv_mul_rev _ _ hm hc, Affine.app_mul]
  · rw [if_neg (fun h' => h (e.1 h')), if_neg h]

theorem val_deq (hE : ∀ q, E.deq q E.nan = E.nan) {c : Chan} {q : Quantization} {p : ℚ × ℚ} :
    E.val (c.deq q) p = E.deq q (E.val c p) := by
  unfold Env.val Chan.value
  have e : (c.deq q).dom p ↔ c.dom p := Iff.rfl
  by_cases h : c.dom p
  · rw [if_pos (e.2 h), if_pos h]
    simp only [Chan.deq, List.foldl_append, List.foldl_cons, List.foldl_nil, Option.getD_some]
  · rw [if_neg (fun h' => h (e.1 h')), if_neg h]
    simp [hE]

theorem val_out {c : Chan} {p : ℚ × ℚ} (h : ¬ c.dom p) : E.val c p = E.nan := by
  unfold Env.val Chan.value
  rw [if_neg h]; rfl

/-- The array is what the tree describes. -/
structure Shows (E : Env V) (t : Node) (i : Img V) : Prop where
  h : (i.h : Int) = t.dsize.2
  w : (i.w : Int) = t.dsize.1
  n : i.n = t.nchan
  px : ∀ y x k, y < i.h → x < i.w → k < i.n → i.px y x k = E.val ((den t).getD k Chan.none) (ctr y x)

theorem npSlice_range (D : Nat) (a b : Int) (h0 : 0 ≤ a) (h1 : a ≤ b) (h2 : b ≤ D) :
    Props.npSlice D (some a) (some b) = (List.range (b - a).toNat).map (fun k => a.toNat + k) := by
  unfold Props.npSlice
  have ea : Props.npBound D a = a := by unfold Props.npBound; split <;> omega
  have eb : Props.npBound D b = b := by unfold Props.npBound; split <;> omega
  simp only [ea, eb]
  exact Props.filter_range_int D a b h0 h2

theorem in_ctr {d : Int × Int} {y x : Nat} (hx : (x : Int) < d.1) (hy : (y : Int) < d.2) : In d (ctr y x) := by
  have h1 : ((x : ℚ)) + 1 ≤ d.1 := by exact_mod_cast hx
  have h2 : ((y : ℚ)) + 1 ≤ d.2 := by exact_mod_cast hy
  have h3 : (0 : ℚ) ≤ x := by positivity
  have h4 : (0 : ℚ) ≤ y := by positivity
  refine ⟨?_, ?_, ?_, ?_⟩ <;> simp only [ctr] <;> linarith

theorem ctr_in {d : Int × Int} {y x : Nat} (h : In d (ctr y x)) : (x : Int) < d.1 ∧ (y : Int) < d.2 := by
  obtain ⟨_, h1, _, h2⟩ := h
  simp only [ctr] at h1 h2
  constructor
  · have : (x : ℚ) < d.1 := by linarith
    exact_mod_cast this
  · have : (y : ℚ) < d.2 := by linarith
    exact_mod_cast this

theorem getD_map_chan {l : List Chan} {f : Chan → Chan} {k : Nat} (hk : k < l.length) :
    (l.map f).getD k Chan.none = f (l.getD k Chan.none) := by
  rw [List.getD_eq_getElem _ _ (by simpa using hk), List.getD_eq_getElem _ _ hk, List.getElem_map]

theorem getD_mem_den {n : Node} {k : Nat} (hk : k < n.nchan) : (den n).getD k Chan.none ∈ den n := by
  rw [List.getD_eq_getElem _ _ (by rw [den_length]; exact hk)]
  exact List.getElem_mem _

theorem floor_half (x : Nat) : ⌊(x : ℚ) + 1 / 2⌋.toNat = x := by
  have : ⌊(x : ℚ) + 1 / 2⌋ = x := by
    rw [Int.floor_eq_iff]
    constructor
    · push_cast; linarith
    · push_cast; linarith
  rw [this]; rfl

/-- A crop of a described array. -/
theorem shows_slice {s : Node} {i : Img V} (hs : WF s) (hi : Shows E s i) {y0 y1 x0 x1 : Int}
    (hy0 : 0 ≤ y0) (hy : y0 ≤ y1) (hy1 : y1 ≤ s.dsize.2) (hx0 : 0 ≤ x0) (hx : x0 ≤ x1)
    (hx1 : x1 ≤ s.dsize.1) : Shows E (.crop s y0 y1 x0 x1 none) (i.slice (some y0, some y1) (some x0, some x1)) := by
  have ey := npSlice_range i.h y0 y1 hy0 hy (by rw [hi.h]; exact hy1)
  have ex := npSlice_range i.w x0 x1 hx0 hx (by rw [hi.w]; exact hx1)
  refine ⟨?_, ?_, hi.n, ?_⟩
  · simp only [Img.slice, ey, dsize, List.length_map, List.length_range]; omega
  · simp only [Img.slice, ex, dsize, List.length_map, List.length_range]; omega
  intro y x k hyy hxx hk
  simp only [Img.slice, ey, ex, List.length_map, List.length_range] at hyy hxx hk ⊢
  rw [List.getD_eq_getElem _ _ (by simpa using hyy), List.getD_eq_getElem _ _ (by simpa using hxx)]
  simp only [List.getElem_map, List.getElem_range]
  have hk' : k < s.nchan := by rw [← hi.n]; exact hk
  have hih := hi.h
  have hiw := hi.w
  rw [hi.px _ _ k (by omega) (by omega) hk, den_crop]
  simp only [selDen]
  rw [getD_map_chan (by rw [den_length]; exact hk'), val_map (den_det s hs _ (getD_mem_den hk')) (by simp)
    (in_ctr (by simp only; omega) (by simp only; omega)), Affine.inv_trans]
  congr 1
  simp only [Affine.app_trans, ctr, neg_neg, Prod.mk.injEq]
  have cy : ((y0.toNat : ℕ) : ℚ) = (y0 : ℚ) := by
    have : ((y0.toNat : ℕ) : Int) = y0 := Int.toNat_of_nonneg hy0
    exact_mod_cast this
  have cx : ((x0.toNat : ℕ) : ℚ) = (x0 : ℚ) := by
    have : ((x0.toNat : ℕ) : Int) = x0 := Int.toNat_of_nonneg hx0
    exact_mod_cast this
  constructor
  · push_cast; rw [cx]; ring
  · push_cast; rw [cy]; ring

theorem shows_select {s : Node} {i : Img V} {y0 y1 x0 x1 : Int} {c : Option (List Nat)}
    (hc : IdxOk s.nchan c) (hi : Shows E (.crop s y0 y1 x0 x1 none) i) :
    ∃ j, i.select c = .ok j ∧ Shows E (.crop s y0 y1 x0 x1 c) j := by
  cases c with
  | none => exact ⟨i, rfl, hi⟩
  | some c =>
    have hn : i.n = s.nchan := by have := hi.n; simpa [nchan] using this
    have hall : c.all (fun k => decide (k < i.n)) = true := by
      rw [List.all_eq_true]
      intro k hk
      rw [decide_eq_true_eq, hn]
      exact hc k hk
    refine ⟨⟨i.h, i.w, c.length, fun y x k => i.px y x (c.getD k 0)⟩,
      by simp only [Img.select, hall, if_true], ⟨hi.h, hi.w, rfl, ?_⟩⟩
    intro y x k hy hx hk
    simp only at hy hx hk ⊢
    have hck : c.getD k 0 < s.nchan := by
      rw [List.getD_eq_getElem _ _ hk]; exact hc _ (List.getElem_mem hk)
    rw [hi.px y x _ hy hx (by rw [hn]; exact hck), den_crop, den_crop]
    simp only [selDen]
    rw [getD_map_chan (l := den s) (by rw [den_length]; exact hck),
      getD_map_chan (l := pick Chan.none (den s) c) (by simpa [pick] using hk)]
    congr 2
    simp only [pick]
    rw [List.getD_eq_getElem (c.map fun i => (den s).getD i Chan.none) _ (by simpa using hk),
      List.getElem_map, List.getD_eq_getElem c _ hk]

theorem select_error {i : Img V} {c : List Nat} (h : ¬ ∀ k ∈ c, k < i.n) :
    i.select (some c) = .error .indexError := by
  show (if c.all (fun j => decide (j < i.n)) = true then _ else _) = _
  rw [if_neg]
  intro hall
  rw [List.all_eq_true] at hall
  exact h fun k hk => by simpa using hall k hk

theorem shows_cat {d : Int × Int} {ps : List Node} {a b : Img V} {p : Node}
    (ha : Shows E p a) (hp : p.dsize = d)
    (hb : Shows E (.concat ps d) b) :
    a.h = b.h ∧ a.w = b.w ∧ Shows E (.concat (p :: ps) d) (a.cat b) := by
  have h1 := ha.h
  have h2 := ha.w
  have h3 := hb.h
  have h4 := hb.w
  rw [hp] at h1 h2
  have e3 : (Node.concat ps d).dsize = d := rfl
  rw [e3] at h3 h4
  refine ⟨by omega, by omega, h1, h2, ?_, ?_⟩
  · have := hb.n
    simp only [nchan] at this
    simp only [Img.cat, nchan, nchans, ha.n, this]
  · intro y x k hy hx hk
    simp only [Img.cat] at hy hx hk ⊢
    simp only [den, denL]
    split
    · rename_i hka
      rw [ha.px y x k hy hx hka]
      congr 1
      rw [List.getD_append _ _ _ _ (by rw [den_length, ← ha.n]; exact hka)]
    · rename_i hka
      rw [hb.px y x (k - a.n) (by omega) (by omega) (by omega)]
      congr 1
      rw [List.getD_append_right _ _ _ _ (by rw [den_length, ← ha.n]; omega), den_length, ha.n]
      rfl

mutual
/-- `_finalize` succeeds and computes what the tree describes. -/
theorem fin_den (hE : E.Ok) : ∀ n : Node, WF n → Fit n → Pix n → Each E.Matches n →
    ∃ i, fin E n = .ok i ∧ Shows E n i
  | .leaf l, hw, hf, _, hm => by
    unfold fin
    by_cases hn : l.nan = true
    · have h0 : ¬ (l.dsize.1 < 0 ∨ l.dsize.2 < 0) := by
        have h1 := hf.1
        have h2 := hf.2
        omega
      rw [if_pos hn, if_neg h0]
      refine ⟨_, rfl, ⟨by simp only [dsize]; omega, by simp only [dsize]; omega, rfl, ?_⟩⟩
      intro y x k _ _ hk
      simp only at hk ⊢
      rw [val_out]
      rw [List.getD_eq_getElem _ _ (by rw [den_length]; exact hk)]
      simp only [den, List.getElem_map, Chan.leaf, hn]
      simp
    · have hn' : l.nan = false := by simpa using hn
      rw [if_neg hn]
      obtain ⟨m1, m2, m3⟩ := hm hn'
      refine ⟨_, rfl, ⟨m1, m2, m3, ?_⟩⟩
      intro y x k hy hx hk
      rw [List.getD_eq_getElem _ _ (by rw [den_length, show (Node.leaf l).nchan = l.nchan from rfl]; omega)]
      simp only [den, List.getElem_map, List.getElem_range]
      unfold Env.val Chan.value
      have hin : In l.dsize (ctr y x) := in_ctr (by omega) (by omega)
      rw [if_pos ⟨hn', hin⟩]
      simp only [Chan.leaf, Affine.inv_id, Affine.app_id, List.foldl_nil, Option.getD_some, ctr, floor_half]
  | .concat ps d, hw, hf, hp, hm => by
    obtain ⟨as, e, h⟩ := finL_den hE ps d hw.2 hf.2 hp hm
    obtain ⟨i, hi, hs⟩ := h hw.1
    exact ⟨i, by simp only [fin, e, hi], hs⟩
  | .warp s tf d a, hw, hf, hp, hm => by
    obtain ⟨ht, hn, hps⟩ := hp
    obtain ⟨i, e, hi⟩ := fin_den hE s hw.1 hf.2 hps hm
    have hsh := hE.turn tf d a i ht hn
    refine ⟨_, by simp only [fin, e, finWarp, hn, if_false]; rfl, ⟨?_, ?_, ?_, ?_⟩⟩
    · rw [hsh.h]
      have := hf.1.2
      simp only [Img.carry, dsize]; omega
    · rw [hsh.w]
      have := hf.1.1
      simp only [Img.carry, dsize]; omega
    · rw [hsh.n]; exact hi.n
    intro y x k hy hx hk
    rw [hsh.px y x k hy hx hk]
    rw [hsh.h] at hy
    rw [hsh.w] at hx
    rw [hsh.n] at hk
    simp only [Img.carry] at hy hx hk ⊢
    have hk' : k < s.nchan := by rw [← hi.n]; exact hk
    rw [den_warp, getD_map_chan (by rw [den_length]; exact hk'),
      val_map (den_det s hw.1 _ (getD_mem_den hk')) ht.det (in_ctr (by omega) (by omega))]
    obtain ⟨u, v, ep⟩ := ht.pre y x
    rw [ep]
    have hih := hi.h
    have hiw := hi.w
    simp only [half_pos', half_lt', floor_half']
    split
    · rename_i hin
      rw [hi.px _ _ k (by omega) (by omega) hk]
      congr 1
      simp only [ctr, Prod.mk.injEq]
      constructor
      · congr 1
        exact_mod_cast Int.toNat_of_nonneg hin.2.2.1
      · congr 1
        exact_mod_cast Int.toNat_of_nonneg hin.1
    · rename_i hin
      rw [val_out]
      intro hd
      apply hin
      obtain ⟨p1, p2, p3, p4⟩ := den_in s hw.1 _ (getD_mem_den hk') _ hd
      simp only at p1 p2 p3 p4
      rw [← hiw, Int.cast_natCast] at p2
      rw [← hih, Int.cast_natCast] at p4
      exact ⟨half_pos'.1 p3.le, half_lt'.1 p4, half_pos'.1 p1.le, half_lt'.1 p2⟩
  | .crop s y0 y1 x0 x1 c, hw, hf, hp, hm => by
    obtain ⟨f0, f1, f2, f3, f4⟩ := hf
    obtain ⟨i, e, hi⟩ := fin_den hE s hw.1 f0 hp hm
    obtain ⟨j, ej, hj⟩ := shows_select hw.2.2.2 (shows_slice hw.1 hi hw.2.1 f1 f2 hw.2.2.1 f3 f4)
    exact ⟨j, by simp only [fin, e, ej], hj⟩
  | .overview s k d, hw, hf, hp, hm => hp.elim
  | .dequant s q d, hw, hf, hp, hm => by
    obtain ⟨i, e, hi⟩ := fin_den hE s hw hf.1 hp hm
    have hd : d = s.dsize := hf.2
    refine ⟨_, by simp only [fin, e]; rfl, ⟨?_, ?_, by simpa [nchan] using hi.n, ?_⟩⟩
    · simp only [dsize, hd]; exact hi.h
    · simp only [dsize, hd]; exact hi.w
    intro y x k hy hx hk
    simp only at hy hx hk ⊢
    have hk' : k < s.nchan := by rw [← hi.n]; exact hk
    have hih := hi.h
    have hiw := hi.w
    rw [hi.px y x k hy hx hk, den_dequant, getD_map_chan (by rw [den_length]; exact hk'), val_deq hE.deq,
      val_map (den_det s hw _ (getD_mem_den hk')) (by simp) (in_ctr (by rw [hd]; omega) (by rw [hd]; omega)),
      Affine.inv_id, Affine.app_id]
theorem finL_den (hE : E.Ok) : ∀ (ps : List Node) (d : Int × Int), WFL d ps → FitL ps → PixL ps →
    EachL E.Matches ps → ∃ as, finL E ps = .ok as ∧ (ps ≠ [] → ∃ i, catAll as = .ok i ∧
      Shows E (.concat ps d) i)
  | [], d, _, _, _, _ => ⟨[], rfl, fun h => (h rfl).elim⟩
  | p :: ps, d, hw, hf, hp, hm => by
    obtain ⟨i, e, hi⟩ := fin_den hE p hw.1 hf.1 hp.1 hm.1
    obtain ⟨as, es, h⟩ := finL_den hE ps d hw.2.2 hf.2 hp.2 hm.2
    refine ⟨i :: as, by simp only [finL, e, es], fun _ => ?_⟩
    cases ps with
    | nil =>
      simp only [finL, Except.ok.injEq] at es
      subst es
      refine ⟨i, rfl, ⟨?_, ?_, by simpa [nchan, nchans] using hi.n, ?_⟩⟩
      · rw [show (Node.concat [p] d).dsize = d from rfl, ← hw.2.1]; exact hi.h
      · rw [show (Node.concat [p] d).dsize = d from rfl, ← hw.2.1]; exact hi.w
      · intro y x k hy hx hk
        rw [hi.px y x k hy hx hk]
        simp [den, denL]
    | cons p' ps =>
      obtain ⟨j, ej, hj⟩ := h (by simp)
      obtain ⟨h1, h2, h3⟩ := shows_cat hi hw.2.1 hj
      cases as with
      | nil => simp [catAll] at ej
      | cons a as =>
        refine ⟨i.cat j, ?_, h3⟩
        rw [catAll]
        · rw [ej]; simp only [h1, h2, and_self, if_true]
        · simp
end

/-- Trees that show the same have the same arrays. -/
theorem shows_same {n n' : Node} (hs : Same n n') {i i' : Img V} (h : Shows E n i) (h' : Shows E n' i') :
    i.Same i' := by
  have e1 := h.h
  have e2 := h'.h
  have e3 := h.w
  have e4 := h'.w
  rw [hs.dsize] at e2 e4
  refine ⟨by omega, by omega, by rw [h.n, h'.n, hs.fwd.nchan], ?_⟩
  intro y x k hy hx hk
  rw [h.px y x k hy hx hk, h'.px y x k (by omega) (by omega) (by rw [h'.n, hs.fwd.nchan, ← h.n]; exact hk)]
  have l1 := forall₂_getD hs.fwd.den k
  have l2 := forall₂_getD hs.bwd.den k
  generalize (den n).getD k Chan.none = c at *
  generalize (den n').getD k Chan.none = c' at *
  by_cases hd : c.dom (ctr y x)
  · have hd' := l1.1 _ hd
    unfold Env.val
    unfold Chan.value
    rw [if_pos hd, if_pos hd']
    rcases l1.2 with h0 | ⟨e1, e2, e3, e4⟩
    · exact absurd hd (h0 _)
    · rw [e1, e2, e3, e4]
  · have hd' : ¬ c'.dom (ctr y x) := fun h => hd (l2.1 _ h)
    rw [val_out hd, val_out hd']

/-- A tree that shows more keeps every pixel that is not NaN. -/
theorem shows_sim {n n' : Node} (hd : n'.dsize = n.dsize) (hs : Sim n n') {i i' : Img V} (h : Shows E n i)
    (h' : Shows E n' i') : i.h = i'.h ∧ i.w = i'.w ∧ i.n = i'.n ∧
      ∀ y x k, y < i.h → x < i.w → k < i.n → i.px y x k ≠ E.nan → i'.px y x k = i.px y x k := by
  have e1 := h.h
  have e2 := h'.h
  have e3 := h.w
  have e4 := h'.w
  rw [hd] at e2 e4
  refine ⟨by omega, by omega, by rw [h.n, h'.n, hs.nchan], ?_⟩
  intro y x k hy hx hk hne
  rw [h.px y x k hy hx hk] at hne ⊢
  rw [h'.px y x k (by omega) (by omega) (by rw [h'.n, hs.nchan, ← h.n]; exact hk)]
  have l1 := forall₂_getD hs.den k
  generalize (den n).getD k Chan.none = c at *
  generalize (den n').getD k Chan.none = c' at *
  by_cases hc : c.dom (ctr y x)
  · have hd' := l1.1 _ hc
    unfold Env.val
    unfold Chan.value
    rw [if_pos hc, if_pos hd']
    rcases l1.2 with h0 | ⟨e1, e2, e3, e4⟩
    · exact absurd hc (h0 _)
    · rw [e1, e2, e3, e4]
  · exact absurd (val_out hc) hne

end Tree
end Verif
