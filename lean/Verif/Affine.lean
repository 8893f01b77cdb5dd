/-
Rational affine maps of the plane (`kwimage.Affine`, external) and the algebra used by the operation
trees.
-/
import Verif.Helpers
import Mathlib.Tactic.Ring
import Mathlib.Tactic.FieldSimp
import Mathlib.Tactic.Linarith
import Mathlib.Tactic.LinearCombination

namespace Verif
namespace Helpers
namespace Affine

@[ext] theorem ext' {m n : Affine} (h1 : m.a = n.a) (h2 : m.b = n.b) (h3 : m.tx = n.tx)
    (h4 : m.c = n.c) (h5 : m.d = n.d) (h6 : m.ty = n.ty) : m = n := by
  cases m; cases n; simp_all

instance : DecidableEq Affine := fun a b =>
  decidable_of_iff (a.a = b.a ∧ a.b = b.b ∧ a.tx = b.tx ∧ a.c = b.c ∧ a.d = b.d ∧ a.ty = b.ty)
    ⟨fun ⟨h1, h2, h3, h4, h5, h6⟩ => ext' h1 h2 h3 h4 h5 h6, fun h => by subst h; simp⟩

/-- `Affine.eye()`. -/
def id : Affine := ⟨1, 0, 0, 0, 1, 0⟩

/-- `A @ B`: first `B`, then `A`. -/
def mul (m n : Affine) : Affine :=
  ⟨m.a * n.a + m.b * n.c, m.a * n.b + m.b * n.d, m.a * n.tx + m.b * n.ty + m.tx,
   m.c * n.a + m.d * n.c, m.c * n.b + m.d * n.d, m.c * n.tx + m.d * n.ty + m.ty⟩

instance : Mul Affine := ⟨mul⟩

theorem mul_def (m n : Affine) : m * n = mul m n := rfl

/-- Determinant of the linear part. -/
def det (m : Affine) : ℚ := m.a * m.d - m.b * m.c

/-- `A.inv()`, meaningful if the determinant is not zero. -/
def inv (m : Affine) : Affine :=
  ⟨m.d / m.det, -m.b / m.det, (m.b * m.ty - m.d * m.tx) / m.det,
   -m.c / m.det, m.a / m.det, (m.c * m.tx - m.a * m.ty) / m.det⟩

/-- `Affine.translate((x, y))`. -/
def trans (x y : ℚ) : Affine := ⟨1, 0, x, 0, 1, y⟩

/-- `Affine.scale(s)`. -/
def scale (s : ℚ) : Affine := ⟨s, 0, 0, 0, s, 0⟩

theorem mul_assoc' (l m n : Affine) : l * m * n = l * (m * n) := by
  ext <;> simp only [mul_def, mul] <;> ring

@[simp] theorem id_mul (m : Affine) : id * m = m := by
  ext <;> simp only [mul_def, mul, id] <;> ring

@[simp] theorem mul_id (m : Affine) : m * id = m := by
  ext <;> simp only [mul_def, mul, id] <;> ring

theorem app_mul (m n : Affine) (p : ℚ × ℚ) : (m * n).app p = m.app (n.app p) := by
  simp only [mul_def, mul, app, Prod.mk.injEq]
  constructor <;> ring

@[simp] theorem app_id (p : ℚ × ℚ) : id.app p = p := by
  simp [id, app]

theorem det_mul (m n : Affine) : (m * n).det = m.det * n.det := by
  simp only [mul_def, mul, det]; ring

@[simp] theorem det_id : id.det = 1 := by simp [id, det]

@[simp] theorem det_trans (x y : ℚ) : (trans x y).det = 1 := by simp [trans, det]

@[simp] theorem det_scale (s : ℚ) : (scale s).det = s * s := by simp [scale, det]

theorem inv_mul (m : Affine) (h : m.det ≠ 0) : m.inv * m = id := by
  have e : m.a * m.d - m.b * m.c = m.det := rfl
  ext <;> simp only [mul_def, mul, inv, id]
  all_goals generalize m.det = D at *
  all_goals field_simp
  · linear_combination e
  · ring
  · ring
  · ring
  · linear_combination e
  · ring

theorem mul_inv (m : Affine) (h : m.det ≠ 0) : m * m.inv = id := by
  have e : m.a * m.d - m.b * m.c = m.det := rfl
  ext <;> simp only [mul_def, mul, inv, id]
  all_goals generalize m.det = D at *
  all_goals field_simp
  · linear_combination e
  · ring
  · linear_combination (-m.tx) * e
  · ring
  · linear_combination e
  · linear_combination (-m.ty) * e

theorem det_inv (m : Affine) (h : m.det ≠ 0) : m.inv.det ≠ 0 := by
  have := congrArg det (inv_mul m h)
  rw [det_mul, det_id] at this
  intro h0
  rw [h0] at this
  simp at this

theorem inv_unique (m n : Affine) (h : m.det ≠ 0) (e : n * m = id) : n = m.inv := by
  rw [← mul_id n, ← mul_inv m h, ← mul_assoc', e, id_mul]

theorem inv_mul_rev (m n : Affine) (hm : m.det ≠ 0) (hn : n.det ≠ 0) :
    (m * n).inv = n.inv * m.inv := by
  symm
  apply inv_unique
  · rw [det_mul]; exact mul_ne_zero hm hn
  · rw [mul_assoc', ← mul_assoc' m.inv, inv_mul m hm, id_mul, inv_mul n hn]

@[simp] theorem inv_inv (m : Affine) (h : m.det ≠ 0) : m.inv.inv = m := by
  symm
  exact inv_unique _ _ (det_inv m h) (mul_inv m h)

@[simp] theorem inv_id : id.inv = id := by
  symm; exact inv_unique _ _ (by simp) (by simp)

theorem inv_trans (x y : ℚ) : (trans x y).inv = trans (-x) (-y) := by
  ext <;> simp [trans, inv, det]

theorem inv_scale (s : ℚ) (h : s ≠ 0) : (scale s).inv = scale s⁻¹ := by
  ext <;> simp [scale, inv, det]

theorem scale_mul (s t : ℚ) : scale s * scale t = scale (s * t) := by
  ext <;> simp [scale, mul_def, mul]

theorem trans_mul (x y x' y' : ℚ) : trans x y * trans x' y' = trans (x + x') (y + y') := by
  ext <;> simp [trans, mul_def, mul, add_comm]

@[simp] theorem app_trans (x y : ℚ) (p : ℚ × ℚ) : (trans x y).app p = (p.1 + x, p.2 + y) := by
  simp [trans, app]

@[simp] theorem app_scale (s : ℚ) (p : ℚ × ℚ) : (scale s).app p = (s * p.1, s * p.2) := by
  simp [scale, app]

theorem app_inv_app (m : Affine) (h : m.det ≠ 0) (p : ℚ × ℚ) : m.app (m.inv.app p) = p := by
  rw [← app_mul, mul_inv m h, app_id]

theorem inv_app_app (m : Affine) (h : m.det ≠ 0) (p : ℚ × ℚ) : m.inv.app (m.app p) = p := by
  rw [← app_mul, inv_mul m h, app_id]

end Affine
end Helpers
end Verif
