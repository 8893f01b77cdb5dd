/-
The measure used to show that `optimize` ends.
-/
import Verif.SimRules
import Mathlib.Data.Prod.Lex
import Mathlib.Algebra.Order.Field.Basic
import Mathlib.Data.Rat.Floor
import Mathlib.Algebra.Order.Archimedean.Basic

namespace Verif
namespace Tree

open Helpers Node

/-! #### fast growing functions -/

/-- `F i` grows faster than all `F j` with `j < i`. -/
def F : Nat → Nat → Nat
  | 0, x => 2 * x + 1
  | i + 1, 0 => F i 0 + 3
  | i + 1, x + 1 => F i (F (i + 1) x + 1) + 2

theorem F_lt : ∀ i x, x < F i x
  | 0, x => by simp only [F]; omega
  | i + 1, 0 => by simp only [F]; omega
  | i + 1, x + 1 => by
    simp only [F]
    have := F_lt (i + 1) x
    have := F_lt i (F (i + 1) x + 1)
    omega

theorem F_succ (i x : Nat) : F i x + 1 < F i (x + 1) := by
  cases i with
  | zero => simp only [F]; omega
  | succ i =>
    have := F_lt i (F (i + 1) x + 1)
    simp only [F] at this ⊢
    omega

theorem F_strict (i : Nat) : StrictMono (F i) :=
  strictMono_nat_of_lt_succ fun x => by have := F_succ i x; omega

theorem F_mono (i : Nat) {x y : Nat} (h : x ≤ y) : F i x ≤ F i y := (F_strict i).monotone h

theorem F_next (i x : Nat) : F i (F (i + 1) x + 1) < F (i + 1) (x + 1) := by simp only [F]; omega

theorem F_le_succ (i : Nat) : ∀ x, F i x ≤ F (i + 1) x
  | 0 => by simp only [F]; omega
  | x + 1 => by
    have h1 := F_next i x
    have h2 := F_lt (i + 1) x
    have h3 := F_mono i (show x + 1 ≤ F (i + 1) x + 1 by omega)
    omega

theorem F_le {i j : Nat} (h : i ≤ j) (x : Nat) : F i x ≤ F j x := by
  induction h with
  | refl => exact le_rfl
  | step _ ih => exact ih.trans (F_le_succ _ _)

/-- A slower function can be moved inside. -/
theorem F_swap {i j : Nat} (h : i < j) (x : Nat) {y : Nat} (hy : x < y) : F i (F j x + 1) < F j y := by
  obtain ⟨k, rfl⟩ : ∃ k, j = k + 1 := ⟨j - 1, by omega⟩
  have h1 := F_le (show i ≤ k by omega) (F (k + 1) x + 1)
  have h2 := F_next k x
  have h3 := F_mono (k + 1) (show x + 1 ≤ y by omega)
  omega

theorem F_swap' {i j : Nat} (h : i < j) (x : Nat) {y : Nat} (hy : x < y) : F i (F j x) < F j y :=
  lt_of_le_of_lt (F_mono i (by omega)) (F_swap h x hy)

/-! #### triples in lexicographic order -/

/-- The values of the measure. -/
abbrev Tri := ℕ ×ₗ ℕ ×ₗ ℕ

def tri (a b c : Nat) : Tri := toLex (a, toLex (b, c))

theorem tri_cases (t : Tri) : ∃ a b c, t = tri a b c := by
  exact ⟨(ofLex t).1, (ofLex (ofLex t).2).1, (ofLex (ofLex t).2).2, rfl⟩

theorem tri_lt {a b c a' b' c' : Nat} :
    tri a b c < tri a' b' c' ↔ a < a' ∨ a = a' ∧ (b < b' ∨ b = b' ∧ c < c') := by
  simp [tri, Prod.Lex.toLex_lt_toLex]

theorem tri_le {a b c a' b' c' : Nat} :
    tri a b c ≤ tri a' b' c' ↔ a < a' ∨ a = a' ∧ (b < b' ∨ b = b' ∧ c ≤ c') := by
  simp [tri, Prod.Lex.toLex_le_toLex]

theorem tri_bot (t : Tri) : tri 0 0 0 ≤ t := by
  obtain ⟨a, b, c, rfl⟩ := tri_cases t
  rw [tri_le]; omega

/-- Add to the first two components and apply a function to the last. -/
def bump (u v : Nat) (f : Nat → Nat) (t : Tri) : Tri :=
  tri ((ofLex t).1 + u) ((ofLex (ofLex t).2).1 + v) (f (ofLex (ofLex t).2).2)

@[simp] theorem bump_tri (u v : Nat) (f : Nat → Nat) (a b c : Nat) :
    bump u v f (tri a b c) = tri (a + u) (b + v) (f c) := rfl

theorem bump_lt {u v : Nat} {f : Nat → Nat} (hf : StrictMono f) {s t : Tri} (h : s < t) :
    bump u v f s < bump u v f t := by
  obtain ⟨a, b, c, rfl⟩ := tri_cases s
  obtain ⟨a', b', c', rfl⟩ := tri_cases t
  simp only [bump_tri, tri_lt] at h ⊢
  rcases h with h | ⟨rfl, h | ⟨rfl, h⟩⟩
  · omega
  · omega
  · have := hf h; omega

theorem bump_le {u v : Nat} {f : Nat → Nat} (hf : StrictMono f) {s t : Tri} (h : s ≤ t) :
    bump u v f s ≤ bump u v f t := by
  rcases h.lt_or_eq with h | rfl
  · exact (bump_lt hf h).le
  · exact le_rfl

theorem lt_bump {u v : Nat} {f : Nat → Nat} (hf : ∀ x, x < f x) (t : Tri) : t < bump u v f t := by
  obtain ⟨a, b, c, rfl⟩ := tri_cases t
  have := hf c
  simp only [bump_tri, tri_lt]
  omega

/-! #### how much a transform shrinks and grows -/

theorem exists_pow2 (x : ℚ) : ∃ n : ℕ, x ≤ 2 ^ n := by
  obtain ⟨n, hn⟩ := pow_unbounded_of_one_lt x (show (1 : ℚ) < 2 by norm_num)
  exact ⟨n, hn.le⟩

/-- The least `n` with `x ≤ 2 ** n`. -/
def up (x : ℚ) : ℕ := Nat.find (exists_pow2 x)

theorem le_up (x : ℚ) : x ≤ 2 ^ up x := Nat.find_spec (exists_pow2 x)

theorem up_le {x : ℚ} {n : ℕ} (h : x ≤ 2 ^ n) : up x ≤ n := Nat.find_min' _ h

theorem up_mono {x y : ℚ} (h : x ≤ y) : up x ≤ up y := up_le (h.trans (le_up y))

theorem up_mul {x y : ℚ} (hx : 0 ≤ x) (hy : 0 ≤ y) : up (x * y) ≤ up x + up y := by
  apply up_le
  rw [pow_add]
  exact mul_le_mul (le_up x) (le_up y) hy (by positivity)

theorem up_one : up 1 = 0 := Nat.le_zero.1 (up_le (by norm_num))

theorem up_div (x : ℚ) (k : ℕ) : up (x / 2 ^ k) ≤ up x - k := by
  apply up_le
  rw [div_le_iff₀ (by positivity), ← pow_add]
  exact (le_up x).trans (pow_le_pow_right₀ (by norm_num) (by omega))

theorem up_pow {x : ℚ} {k : ℕ} (h : 2 ^ k ≤ x) : k ≤ up x := by
  have := h.trans (le_up x)
  exact (pow_le_pow_iff_right₀ (show (1 : ℚ) < 2 by norm_num)).1 this

/-- The largest sum of the absolute values in a row. -/
def norm (m : Affine) : ℚ := max (|m.a| + |m.b|) (|m.c| + |m.d|)

theorem norm_nonneg (m : Affine) : 0 ≤ norm m :=
  le_max_of_le_left (add_nonneg (abs_nonneg _) (abs_nonneg _))

theorem row_le (x y : ℚ) (n : Affine) :
    |x * n.a + y * n.c| + |x * n.b + y * n.d| ≤ (|x| + |y|) * norm n := by
  have h1 : |x * n.a + y * n.c| ≤ |x| * |n.a| + |y| * |n.c| := by
    refine (abs_add_le _ _).trans ?_
    rw [abs_mul, abs_mul]
  have h2 : |x * n.b + y * n.d| ≤ |x| * |n.b| + |y| * |n.d| := by
    refine (abs_add_le _ _).trans ?_
    rw [abs_mul, abs_mul]
  have h3 : |x| * (|n.a| + |n.b|) ≤ |x| * norm n :=
    mul_le_mul_of_nonneg_left (le_max_left _ _) (abs_nonneg _)
  have h4 : |y| * (|n.c| + |n.d|) ≤ |y| * norm n :=
    mul_le_mul_of_nonneg_left (le_max_right _ _) (abs_nonneg _)
  linarith

theorem norm_mul (m n : Affine) : norm (m * n) ≤ norm m * norm n := by
  have h := norm_nonneg n
  apply max_le
  · exact (row_le m.a m.b n).trans (mul_le_mul_of_nonneg_right (le_max_left _ _) h)
  · exact (row_le m.c m.d n).trans (mul_le_mul_of_nonneg_right (le_max_right _ _) h)

/-- Two transforms with the same linear part. -/
def SameLin (m n : Affine) : Prop := m.a = n.a ∧ m.b = n.b ∧ m.c = n.c ∧ m.d = n.d

theorem SameLin.norm {m n : Affine} (h : SameLin m n) : norm m = norm n := by
  obtain ⟨h1, h2, h3, h4⟩ := h
  simp only [Tree.norm, h1, h2, h3, h4]

theorem SameLin.inv {m n : Affine} (h : SameLin m n) : SameLin m.inv n.inv := by
  obtain ⟨h1, h2, h3, h4⟩ := h
  have : m.det = n.det := by simp only [Affine.det, h1, h2, h3, h4]
  simp only [SameLin, Affine.inv, this, h1, h2, h3, h4, and_self]

/-- How much a transform may shrink, in powers of two. -/
def shrink (m : Affine) : ℕ := up (norm m.inv)

/-- How much a transform may grow, in powers of two. -/
def grow (m : Affine) : ℕ := up (norm m)

theorem SameLin.shrink {m n : Affine} (h : SameLin m n) : shrink m = shrink n := by
  rw [Tree.shrink, Tree.shrink, h.inv.norm]

theorem SameLin.grow {m n : Affine} (h : SameLin m n) : grow m = grow n := by
  rw [Tree.grow, Tree.grow, h.norm]

theorem grow_mul (m n : Affine) : grow (m * n) ≤ grow m + grow n :=
  (up_mono (norm_mul m n)).trans (up_mul (norm_nonneg m) (norm_nonneg n))

theorem inv_mul_lin {m n : Affine} (hm : m.det ≠ 0) (hn : n.det ≠ 0) :
    SameLin (m * n).inv (n.inv * m.inv) := by
  have hd := Affine.det_mul m n
  simp only [SameLin, Affine.inv, hd]
  simp only [Affine.mul_def, Affine.mul]
  refine ⟨?_, ?_, ?_, ?_⟩ <;> field_simp <;> ring

theorem shrink_mul {m n : Affine} (hm : m.det ≠ 0) (hn : n.det ≠ 0) :
    shrink (m * n) ≤ shrink m + shrink n := by
  rw [shrink, (inv_mul_lin hm hn).norm, add_comm]
  exact (up_mono (norm_mul _ _)).trans (up_mul (norm_nonneg _) (norm_nonneg _))

theorem lin_trans (x y : ℚ) : SameLin (.trans x y) .id := ⟨rfl, rfl, rfl, rfl⟩

theorem grow_id : grow .id = 0 := by
  have : norm .id = 1 := by simp [norm, Affine.id]
  rw [grow, this, up_one]

theorem shrink_id : shrink .id = 0 := by
  have : norm (Affine.inv .id) = 1 := by simp [norm, Affine.inv, Affine.id, Affine.det]
  rw [shrink, this, up_one]

theorem grow_trans (x y : ℚ) : grow (.trans x y) = 0 := by rw [(lin_trans x y).grow, grow_id]

theorem shrink_trans (x y : ℚ) : shrink (.trans x y) = 0 := by rw [(lin_trans x y).shrink, shrink_id]

theorem innerSlice_lin (src : Int × Int) (tf : Affine) (y0 y1 x0 x1 : Int) :
    SameLin (innerSlice src tf y0 y1 x0 x1).2 tf := by
  unfold innerSlice
  split
  · rename_i h
    exact ⟨rfl, h.1.symm, h.2.1.symm, rfl⟩
  · simp only [swapWarpAfterCrop, SameLin, Affine.mul_def, Affine.mul, Affine.trans]
    refine ⟨?_, ?_, ?_, ?_⟩ <;> ring

theorem warpAfterOverview_lin (tf : Affine) (k : Int) :
    SameLin (ovScale k * tf * (ovScale k).inv) tf := by
  have h : ((2 : ℚ) ^ k) ≠ 0 := zpow_ne_zero _ (by norm_num)
  simp only [SameLin, ovScale, Affine.mul_def, Affine.mul, Affine.scale, Affine.inv, Affine.det]
  refine ⟨?_, ?_, ?_, ?_⟩ <;> field_simp <;> ring

/-- Scalings along the axes. -/
def Diag (m : Affine) : Prop := m.b = 0 ∧ m.c = 0 ∧ 0 < m.a ∧ 0 < m.d

theorem SameLin.diag {m n : Affine} (h : SameLin m n) (hn : Diag n) : Diag m := by
  obtain ⟨h1, h2, h3, h4⟩ := h
  obtain ⟨k1, k2, k3, k4⟩ := hn
  exact ⟨h2.trans k1, h3.trans k2, by rw [h1]; exact k3, by rw [h4]; exact k4⟩

theorem Diag.mul {m n : Affine} (hm : Diag m) (hn : Diag n) : Diag (m * n) := by
  obtain ⟨h1, h2, h3, h4⟩ := hm
  obtain ⟨k1, k2, k3, k4⟩ := hn
  simp only [Diag, Affine.mul_def, Affine.mul, h1, h2, k1, k2]
  refine ⟨by ring, by ring, ?_, ?_⟩
  · have := mul_pos h3 k3; linarith
  · have := mul_pos h4 k4; linarith

theorem diag_trans (x y : ℚ) : Diag (.trans x y) := ⟨rfl, rfl, one_pos, one_pos⟩

theorem diag_ovScale (k : Int) : Diag (ovScale k) := by
  have h : (0 : ℚ) < ((2 : ℚ) ^ k)⁻¹ := inv_pos.2 (zpow_pos (by norm_num) k)
  exact ⟨rfl, rfl, h, h⟩

theorem diag_ovScale_inv (k : Int) : Diag (ovScale k).inv := by
  have h : (0 : ℚ) < ((2 : ℚ) ^ k)⁻¹ := inv_pos.2 (zpow_pos (by norm_num) k)
  simp only [Diag, ovScale, Affine.inv, Affine.scale, Affine.det]
  refine ⟨by simp, by simp, ?_, ?_⟩
  · apply div_pos h; simpa using mul_pos h h
  · apply div_pos h; simpa using mul_pos h h

theorem Diag.norm {m : Affine} (h : Diag m) : norm m = max m.a m.d := by
  obtain ⟨h1, h2, h3, h4⟩ := h
  simp [Tree.norm, h1, h2, abs_of_pos h3, abs_of_pos h4]

theorem Diag.inv {m : Affine} (h : Diag m) : Diag m.inv ∧ m.inv.a = m.a⁻¹ ∧ m.inv.d = m.d⁻¹ := by
  obtain ⟨h1, h2, h3, h4⟩ := h
  have hd : m.det = m.a * m.d := by simp [Affine.det, h1]
  have e1 : m.inv.a = m.a⁻¹ := by simp only [Affine.inv, hd]; field_simp
  have e2 : m.inv.d = m.d⁻¹ := by simp only [Affine.inv, hd]; field_simp
  refine ⟨⟨by simp [Affine.inv, h1], by simp [Affine.inv, h2], ?_, ?_⟩, e1, e2⟩
  · rw [e1]; exact inv_pos.2 h3
  · rw [e2]; exact inv_pos.2 h4

theorem Diag.shrink_eq {m : Affine} (h : Diag m) : shrink m = up (max m.a⁻¹ m.d⁻¹) := by
  obtain ⟨h1, h2, h3⟩ := h.inv
  rw [shrink, h1.norm, h2, h3]

theorem Diag.det {m : Affine} (h : Diag m) : m.det ≠ 0 := by
  obtain ⟨h1, h2, h3, h4⟩ := h
  have hd : m.det = m.a * m.d := by simp [Affine.det, h1]
  rw [hd]; exact (mul_pos h3 h4).ne'

/-- Both scales of an axis aligned scaling. -/
theorem Diag.scalesLe {m : Affine} (h : Diag m) {t : ℚ} (ht : 0 < t) (hs : scalesLe m t = true) :
    m.a ≤ t ∧ m.d ≤ t := by
  obtain ⟨h1, h2, h3, h4⟩ := h
  simp only [Tree.scalesLe, Affine.det, h1, h2, Bool.and_eq_true, decide_eq_true_eq] at hs
  obtain ⟨k1, k2⟩ := hs
  have e1 : m.a ^ 2 ≤ t ^ 2 := by simpa using k1
  have l1 : m.a ≤ t := abs_le_of_sq_le_sq' e1 ht.le |>.2
  refine ⟨l1, ?_⟩
  have hp := mul_pos h3 h4
  rcases k2 with k2 | k2
  · nlinarith
  · have e2 : m.d ^ 2 * m.a ^ 2 ≤ t ^ 2 * m.a ^ 2 := by nlinarith
    have e3 : m.d ^ 2 ≤ t ^ 2 := le_of_mul_le_mul_right e2 (by positivity)
    exact abs_le_of_sq_le_sq' e3 ht.le |>.2

theorem Diag.not_scalesLt {m : Affine} (h : Diag m) {t : ℚ} (ht : 0 < t)
    (hs : scalesLt m t = false) : t ≤ m.a ∨ t ≤ m.d := by
  by_contra hn
  push Not at hn
  obtain ⟨h1, h2, h3, h4⟩ := h
  have : Tree.scalesLt m t = true := by
    simp only [Tree.scalesLt, Affine.det, h1, h2, Bool.and_eq_true, decide_eq_true_eq]
    refine ⟨by nlinarith [hn.1], .inr ?_⟩
    have e : m.d ^ 2 < t ^ 2 := by nlinarith [hn.2]
    have : m.d ^ 2 * m.a ^ 2 < t ^ 2 * m.a ^ 2 := mul_lt_mul_of_pos_right e (by positivity)
    nlinarith
  rw [this] at hs
  cases hs

theorem downsUpTo_spec (m : Affine) : ∀ n, 0 < downsUpTo m n →
    scalesLe m ((2 : ℚ) ^ downsUpTo m n)⁻¹ = true
  | 0, h => by simp [downsUpTo] at h
  | n + 1, h => by
    unfold downsUpTo at h ⊢
    split
    · assumption
    · rename_i hn
      rw [if_neg hn] at h
      exact downsUpTo_spec m n h

theorem ovScale_nat (k : ℕ) : (ovScale (k : Int)).a = ((2 : ℚ) ^ k)⁻¹ ∧ (ovScale (k : Int)).d = ((2 : ℚ) ^ k)⁻¹ := by
  simp [ovScale, Affine.scale]

/-- Moving `k` levels of an axis aligned scaling that shrinks at least that much to an overview. -/
theorem split_weight {m : Affine} (hm : Diag m) {k : ℕ} (ha : m.a ≤ ((2 : ℚ) ^ k)⁻¹)
    (hd : m.d ≤ ((2 : ℚ) ^ k)⁻¹) : shrink (m * (ovScale k).inv) + k ≤ shrink m ∧
      grow (m * (ovScale k).inv) = 0 := by
  have h2 : (0 : ℚ) < 2 ^ k := by positivity
  obtain ⟨s1, s2⟩ := ovScale_nat k
  obtain ⟨t0, t1, t2⟩ := (diag_ovScale k).inv
  have hr := hm.mul t0
  obtain ⟨_, _, pa, pd⟩ := hm
  have ea : (m * (ovScale (k : Int)).inv).a = m.a * 2 ^ k := by
    simp only [Affine.mul_def, Affine.mul, t0.2.1, t1, s1, inv_inv]; ring
  have ed : (m * (ovScale (k : Int)).inv).d = m.d * 2 ^ k := by
    simp only [Affine.mul_def, Affine.mul, t0.1, t2, s2, inv_inv]; ring
  have la : m.a * 2 ^ k ≤ 1 := by rwa [← le_div_iff₀ h2, one_div]
  have ld : m.d * 2 ^ k ≤ 1 := by rwa [← le_div_iff₀ h2, one_div]
  constructor
  · rw [hr.shrink_eq, Diag.shrink_eq ⟨by assumption, by assumption, pa, pd⟩, ea, ed]
    have e : max (m.a * 2 ^ k)⁻¹ (m.d * 2 ^ k)⁻¹ = max m.a⁻¹ m.d⁻¹ / 2 ^ k := by
      rw [mul_inv, mul_inv, div_eq_mul_inv, max_mul_of_nonneg _ _ (by positivity)]
    rw [e]
    have h3 := up_div (max m.a⁻¹ m.d⁻¹) k
    have h4 : k ≤ up (max m.a⁻¹ m.d⁻¹) := by
      apply up_pow
      apply le_max_of_le_left
      rwa [le_inv_comm₀ h2 pa]
    omega
  · rw [grow, hr.norm, ea, ed]
    exact Nat.le_zero.1 (up_le (by simpa using ⟨la, ld⟩))

/-- Moving `k` levels of an overview into an axis aligned scaling that grows. -/
theorem absorb_weight {m n : Affine} (hm : Diag m) {k : ℕ} (hk : 0 < k) (hn : SameLin n (ovScale k))
    (hb : 1 < m.a ∨ 1 < m.d) : 2 * shrink (m * n) + grow (m * n) < 2 * shrink m + grow m + 2 * k := by
  have h2 : (0 : ℚ) < 2 ^ k := by positivity
  obtain ⟨s1, s2⟩ := ovScale_nat k
  have dn : Diag n := hn.diag (diag_ovScale k)
  have hr := hm.mul dn
  obtain ⟨n1, n2, n3, n4⟩ := hn
  have h1 : shrink (m * n) ≤ shrink m + k := by
    refine (shrink_mul hm.det dn.det).trans (Nat.add_le_add_left ?_ _)
    rw [dn.shrink_eq, n1, n4, s1, s2]
    exact up_le (by simp)
  have h3 : grow (m * n) < grow m := by
    have ea : (m * n).a = m.a / 2 ^ k := by
      simp only [Affine.mul_def, Affine.mul, hm.1, n1, s1]; ring
    have ed : (m * n).d = m.d / 2 ^ k := by
      simp only [Affine.mul_def, Affine.mul, hm.2.1, n4, s2]; ring
    rw [grow, grow, hr.norm, hm.norm, ea, ed, max_div_div_right h2.le]
    have h5 := up_div (max m.a m.d) k
    have h6 : 0 < up (max m.a m.d) := by
      by_contra hz
      have hz : up (max m.a m.d) = 0 := by omega
      have := le_up (max m.a m.d)
      rw [hz, pow_zero] at this
      rcases hb with hb | hb
      · exact absurd ((le_max_left _ _).trans this) (not_le.2 hb)
      · exact absurd ((le_max_right _ _).trans this) (not_le.2 hb)
    omega
  omega

end Tree
end Verif
