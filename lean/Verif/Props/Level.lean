/-
C63: overviews are used where they are fine enough, and the coarsest of those.
-/
import Verif.Scale
import Verif.Walk
import Verif.Weights
import Verif.Props.Opt

namespace Verif.Props

open Tree Node Helpers

/-! ### the scales -/

theorem col_ne {m : Affine} (h : m.det ≠ 0) : 0 < m.a ^ 2 + m.c ^ 2 := by
  by_contra hn
  have h1 : m.a ^ 2 + m.c ^ 2 = 0 := le_antisymm (not_lt.1 hn) (by positivity)
  have ha : m.a = 0 := by nlinarith [sq_nonneg m.a, sq_nonneg m.c]
  have hc : m.c = 0 := by nlinarith [sq_nonneg m.a, sq_nonneg m.c]
  exact h (by simp [Affine.det, ha, hc])

/-- C63: what the code computes with angles are the length of the first column and the determinant divided by it. -/
theorem C63_scales {m : Affine} (h : m.det ≠ 0) :
    (decomposeScale m).1 = Real.sqrt ((m.a : ℝ) ^ 2 + (m.c : ℝ) ^ 2) ∧
    (decomposeScale m).2 = (m.det : ℝ) / Real.sqrt ((m.a : ℝ) ^ 2 + (m.c : ℝ) ^ 2) := by
  have hp : (0 : ℝ) < (m.a : ℝ) ^ 2 + (m.c : ℝ) ^ 2 := by exact_mod_cast col_ne h
  have hz : (⟨(m.a : ℝ), (m.c : ℝ)⟩ : ℂ) ≠ 0 := by
    intro e
    have e1 := congrArg Complex.re e
    have e2 := congrArg Complex.im e
    simp only [Complex.zero_re, Complex.zero_im] at e1 e2
    rw [e1, e2] at hp
    norm_num at hp
  have hn : ‖(⟨(m.a : ℝ), (m.c : ℝ)⟩ : ℂ)‖ = Real.sqrt ((m.a : ℝ) ^ 2 + (m.c : ℝ) ^ 2) := by
    rw [Complex.norm_def, Complex.normSq_mk]; ring_nf
  set r := Real.sqrt ((m.a : ℝ) ^ 2 + (m.c : ℝ) ^ 2) with hr
  have hr0 : 0 < r := Real.sqrt_pos.2 hp
  have hrr : r ^ 2 = (m.a : ℝ) ^ 2 + (m.c : ℝ) ^ 2 := Real.sq_sqrt hp.le
  have hc : Real.cos (atan2 m.c m.a) = m.a / r := by
    rw [atan2, Complex.cos_arg hz, hn]
  have hs : Real.sin (atan2 m.c m.a) = m.c / r := by
    rw [atan2, Complex.sin_arg, hn]
  refine ⟨?_, ?_⟩
  · show Real.sqrt _ = r
    rw [hr]; ring_nf
  · simp only [decomposeScale, hc, hs, Affine.det]
    push_cast
    split_ifs with hlt
    · have hc0 : (m.c : ℝ) ≠ 0 := by
        rintro e
        rw [e] at hlt
        simp only [zero_div, abs_zero] at hlt
        exact absurd hlt (not_lt.2 (abs_nonneg _))
      field_simp
      rw [hrr]
      ring
    · have ha0 : (m.a : ℝ) ≠ 0 := by
        rintro e
        rw [e] at hlt hp
        simp only [zero_div, abs_zero, not_lt, abs_nonpos_iff, div_eq_zero_iff, hr0.ne', or_false] at hlt
        rw [hlt] at hp
        norm_num at hp
      field_simp
      rw [hrr]
      ring

theorem ratio_le {q r t : ℝ} (hr : 0 < r) (ht : 0 < t) : q / r ≤ t ↔ q ≤ 0 ∨ q ^ 2 ≤ t ^ 2 * r ^ 2 := by
  rw [div_le_iff₀ hr]
  constructor
  · intro h
    by_cases hq : q ≤ 0
    · exact .inl hq
    · right
      rw [← mul_pow]
      exact pow_le_pow_left₀ (not_le.1 hq).le h 2
  · rintro (h | h)
    · exact h.trans (mul_pos ht hr).le
    · rw [← mul_pow] at h
      exact (abs_le_of_sq_le_sq' h (mul_pos ht hr).le).2

theorem ratio_lt {q r t : ℝ} (hr : 0 < r) (ht : 0 < t) : q / r < t ↔ q ≤ 0 ∨ q ^ 2 < t ^ 2 * r ^ 2 := by
  rw [div_lt_iff₀ hr]
  constructor
  · intro h
    by_cases hq : q ≤ 0
    · exact .inl hq
    · right
      rw [← mul_pow]
      exact pow_lt_pow_left₀ h (not_le.1 hq).le (by norm_num)
  · rintro (h | h)
    · exact h.trans_lt (mul_pos ht hr)
    · rw [← mul_pow] at h
      exact (abs_lt_of_sq_lt_sq' h (mul_pos ht hr).le).2

/-- The comparisons of squares in the model are the comparisons of the scales in the code. -/
theorem scalesLe_real {m : Affine} (h : m.det ≠ 0) {t : ℚ} (ht : 0 < t) :
    scalesLe m t = true ↔ (decomposeScale m).1 ≤ t ∧ (decomposeScale m).2 ≤ t := by
  have hp : (0 : ℝ) < (m.a : ℝ) ^ 2 + (m.c : ℝ) ^ 2 := by exact_mod_cast col_ne h
  have ht' : (0 : ℝ) < t := by exact_mod_cast ht
  obtain ⟨e1, e2⟩ := C63_scales h
  rw [e1, e2, Real.sqrt_le_left ht'.le, ratio_le (Real.sqrt_pos.2 hp) ht', Real.sq_sqrt hp.le]
  simp only [scalesLe, Bool.and_eq_true, decide_eq_true_eq]
  norm_cast

theorem scalesLt_real {m : Affine} (h : m.det ≠ 0) {t : ℚ} (ht : 0 < t) :
    scalesLt m t = true ↔ (decomposeScale m).1 < t ∧ (decomposeScale m).2 < t := by
  have hp : (0 : ℝ) < (m.a : ℝ) ^ 2 + (m.c : ℝ) ^ 2 := by exact_mod_cast col_ne h
  have ht' : (0 : ℝ) < t := by exact_mod_cast ht
  obtain ⟨e1, e2⟩ := C63_scales h
  rw [e1, e2, Real.sqrt_lt' ht', ratio_lt (Real.sqrt_pos.2 hp) ht', Real.sq_sqrt hp.le]
  simp only [scalesLt, Bool.and_eq_true, decide_eq_true_eq]
  norm_cast

/-- C63: the tests of the model that decide about splitting and absorbing are the tests of the code on the scales
it computes. -/
theorem C63_tests {m : Affine} (h : m.det ≠ 0) :
    (Heur.code.canSplit m = false ↔ (decomposeScale m).1 > 0.5 ∨ (decomposeScale m).2 > 0.5) ∧
    (Heur.code.big m = false ↔ (decomposeScale m).1 < 2 - 1e-8 ∧ (decomposeScale m).2 < 2 - 1e-8) := by
  constructor
  · have k := scalesLe_real h (t := 1 / 2) (by norm_num)
    show scalesLe m (1 / 2) = false ↔ _
    rw [← Bool.not_eq_true, k]
    push_cast
    rw [not_and_or, not_le, not_le]
    norm_num
  · have k := scalesLt_real h (t := 2 - 1 / 100000000) (by norm_num)
    show (!scalesLt m (2 - 1 / 100000000)) = false ↔ _
    rw [Bool.not_eq_false', k]
    push_cast
    norm_num

theorem downsUpTo_max {m : Affine} {k : Nat} (hk : scalesLe m ((2 : ℚ) ^ k)⁻¹ = true) :
    ∀ n, k ≤ n → k ≤ downsUpTo m n
  | 0, h => by omega
  | n + 1, h => by
    unfold downsUpTo
    split
    · exact h
    · rename_i hn
      have : k ≠ n + 1 := by rintro rfl; exact hn hk
      exact downsUpTo_max hk n (by omega)

/-- No level beyond the result of `downs` is fine enough. -/
theorem downs_max {m : Affine} (h : m.det ≠ 0) {k : Nat} (hk : scalesLe m ((2 : ℚ) ^ k)⁻¹ = true) :
    (k : Int) ≤ Heur.code.downs m := by
  have hp := col_ne h
  set q := m.a ^ 2 + m.c ^ 2 with hq
  have h1 : q ≤ (((2 : ℚ) ^ k)⁻¹) ^ 2 := by
    simp only [scalesLe, Bool.and_eq_true, decide_eq_true_eq] at hk
    exact hk.1
  have hden : (0 : ℚ) < q.den := by exact_mod_cast q.den_pos
  have h2 : (1 : ℚ) ≤ q * q.den := by
    rw [Rat.mul_den_eq_num]
    exact_mod_cast Rat.num_pos.2 hp
  have h3 : ((2 : ℚ) ^ k) ^ 2 ≤ q.den := by
    have : q * ((2 : ℚ) ^ k) ^ 2 ≤ 1 := by
      have := mul_le_mul_of_nonneg_right h1 (sq_nonneg ((2 : ℚ) ^ k))
      rwa [← mul_pow, inv_mul_cancel₀ (by positivity), one_pow] at this
    by_contra hn
    have := mul_lt_mul_of_pos_left (not_le.1 hn) hp
    linarith
  have h4 : 2 ^ k ≤ q.den := by
    have : (2 : ℚ) ^ k ≤ ((2 : ℚ) ^ k) ^ 2 := by
      have : (1 : ℚ) ≤ 2 ^ k := one_le_pow₀ (by norm_num)
      nlinarith
    exact_mod_cast this.trans h3
  have h5 : k ≤ Nat.log2 q.den := (Nat.le_log2 q.den_nz).2 h4
  show (k : Int) ≤ ((downsUpTo m (Nat.log2 q.den) : Nat) : Int)
  exact_mod_cast downsUpTo_max hk _ h5

/-- C63: the number of levels the model computes is the number the code computes with logarithms. -/
theorem C63_downs {m : Affine} (h : m.det ≠ 0) (hs : Heur.code.canSplit m = true) :
    Heur.code.downs m = prepareDowns (decomposeScale m).1 (decomposeScale m).2 := by
  obtain ⟨n, hn⟩ : ∃ n : Nat, Heur.code.downs m = n := ⟨_, rfl⟩
  have hmax : ∀ k : Nat, scalesLe m ((2 : ℚ) ^ k)⁻¹ = true → k ≤ n := fun k hk => by
    have := downs_max h hk
    rw [hn] at this
    exact_mod_cast this
  have h1 : 1 ≤ n := hmax 1 (by rw [pow_one, ← one_div]; exact hs)
  have hat : scalesLe m ((2 : ℚ) ^ n)⁻¹ = true := by
    have e : ((downsUpTo m (Nat.log2 (m.a ^ 2 + m.c ^ 2).den) : Nat) : Int) = n := hn
    have e' : downsUpTo m (Nat.log2 (m.a ^ 2 + m.c ^ 2).den) = n := by exact_mod_cast e
    have := downsUpTo_spec m (Nat.log2 (m.a ^ 2 + m.c ^ 2).den) (by omega)
    rwa [e'] at this
  have hnot : ¬ scalesLe m ((2 : ℚ) ^ (n + 1))⁻¹ = true := fun hk => by
    have := hmax _ hk
    omega
  rw [scalesLe_real h (by positivity)] at hat hnot
  set sx := (decomposeScale m).1 with hsx
  set sy := (decomposeScale m).2 with hsy
  have hpos : 0 < max sx sy := by
    have hp : (0 : ℝ) < (m.a : ℝ) ^ 2 + (m.c : ℝ) ^ 2 := by exact_mod_cast col_ne h
    refine lt_max_of_lt_left ?_
    rw [hsx, (C63_scales h).1]
    exact Real.sqrt_pos.2 hp
  have hle : max sx sy ≤ ((2 : ℝ) ^ n)⁻¹ := by
    refine max_le ?_ ?_
    · have := hat.1; push_cast at this; exact this
    · have := hat.2; push_cast at this; exact this
  have hgt : ((2 : ℝ) ^ (n + 1))⁻¹ < max sx sy := by
    by_contra hc
    have hc := not_lt.1 hc
    refine hnot ⟨?_, ?_⟩
    · push_cast; exact (le_max_left _ _).trans hc
    · push_cast; exact (le_max_right _ _).trans hc
  have hfl : ⌊Real.logb 2 (1 / max sx sy)⌋ = (n : Int) := by
    rw [Int.floor_eq_iff]
    constructor
    · rw [Real.le_logb_iff_rpow_le (by norm_num) (by positivity)]
      push_cast
      rw [Real.rpow_natCast, le_div_iff₀ hpos]
      calc (2 : ℝ) ^ n * max sx sy ≤ 2 ^ n * ((2 : ℝ) ^ n)⁻¹ := by gcongr
        _ = 1 := mul_inv_cancel₀ (by positivity)
    · rw [Real.logb_lt_iff_lt_rpow (by norm_num) (by positivity)]
      push_cast
      rw [show ((n : ℝ) + 1) = ((n + 1 : Nat) : ℝ) by push_cast; rfl, Real.rpow_natCast, div_lt_iff₀ hpos]
      calc (1 : ℝ) = 2 ^ (n + 1) * ((2 : ℝ) ^ (n + 1))⁻¹ := (mul_inv_cancel₀ (by positivity)).symm
        _ < 2 ^ (n + 1) * max sx sy := by gcongr
  rw [hn, prepareDowns, hfl]
  omega

/-! ### the level -/

/-- The linear part of the map is a rotation by `θ` after scaling by `sx` and `sy` with shear. -/
structure Decomposed (m : Affine) (θ sx sy sh : ℝ) : Prop where
  pos : 0 < sx
  a : (m.a : ℝ) = Real.cos θ * sx
  c : (m.c : ℝ) = Real.sin θ * sx
  b : (m.b : ℝ) = Real.cos θ * sh - Real.sin θ * sy
  d : (m.d : ℝ) = Real.sin θ * sh + Real.cos θ * sy

theorem Decomposed.det {m : Affine} {θ sx sy sh : ℝ} (h : Decomposed m θ sx sy sh) : (m.det : ℝ) = sx * sy := by
  simp only [Affine.det]
  push_cast
  rw [h.a, h.b, h.c, h.d]
  linear_combination sx * sy * Real.sin_sq_add_cos_sq θ

/-- What the code computes are the scales of the decomposition. -/
theorem Decomposed.scales {m : Affine} {θ sx sy sh : ℝ} (h : Decomposed m θ sx sy sh) (hd : m.det ≠ 0) :
    (decomposeScale m).1 = sx ∧ (decomposeScale m).2 = sy := by
  have e : Real.sqrt ((m.a : ℝ) ^ 2 + (m.c : ℝ) ^ 2) = sx := by
    rw [h.a, h.c, show (Real.cos θ * sx) ^ 2 + (Real.sin θ * sx) ^ 2 = sx ^ 2 by
      nlinarith [Real.sin_sq_add_cos_sq θ]]
    exact Real.sqrt_sq h.pos.le
  obtain ⟨e1, e2⟩ := C63_scales hd
  rw [e1, e2, e, h.det]
  exact ⟨rfl, by rw [mul_comm, mul_div_assoc, div_self h.pos.ne', mul_one]⟩

theorem opt_ovleaf (H : Heur) (l : Leaf) {k : Int} (hk : k ≠ 0) (f : Nat) :
    opt H (f + 2) (mkOverview (.leaf l) k : Node) = .ok (mkOverview (.leaf l) k) := by
  show optOverview H (opt H (f + 1)) (.leaf l) k _ = _
  unfold optOverview
  rw [show opt H (f + 1) (.leaf l) = .ok (.leaf l) from rfl]
  simp only [overviewRest, if_neg hk]
  rfl

theorem negl_zero {m : Affine} (h : Heur.code.negl 0 m = true) : m = .id := by
  have hz : ∀ x y : ℚ, isclose 0 0 x y = true → x = y := by
    intro x y hxy
    simp only [isclose, decide_eq_true_eq, zero_mul, add_zero] at hxy
    have := abs_nonpos_iff.1 hxy
    linarith
  simp only [Heur.code, iscloseIdentity, Bool.and_eq_true] at h
  obtain ⟨⟨⟨⟨⟨h1, h2⟩, h3⟩, h4⟩, h5⟩, h6⟩ := h
  ext <;> simp [Affine.id, hz _ _ h1, hz _ _ h2, hz _ _ h3, hz _ _ h4, hz _ _ h5, hz _ _ h6]

theorem residual_eq (tf : Affine) (k : Nat) : tf * (ovScale k).inv =
    ⟨tf.a * 2 ^ k, tf.b * 2 ^ k, tf.tx, tf.c * 2 ^ k, tf.d * 2 ^ k, tf.ty⟩ := by
  have h2k : ((2 : ℚ) ^ k) ≠ 0 := by positivity
  ext <;> simp only [Affine.mul_def, Affine.mul, Affine.inv, Affine.det, ovScale, Affine.scale, zpow_natCast] <;>
    field_simp <;> ring

/-- A warp of an overview that is neither split nor absorbed. -/
theorem opt_settled {l : Leaf} {k num : Int} (hk : k ≠ 0) (ho : l.overviews = some num) {res : Affine} {d : Int × Int}
    {a : Algo} (ha : a.noopEps = 0) (hc : Heur.code.closeId res = false) (hb : Heur.code.big res = false)
    (hs : num - k = 0 ∨ Heur.code.canSplit res = false) (f : Nat) :
    opt Heur.code (f + 3) (.warp (mkOverview (.leaf l) k) res d a.common : Node) =
      .ok (.warp (mkOverview (.leaf l) k) res d a.common) := by
  show optWarp Heur.code (opt Heur.code (f + 2)) (mkOverview (.leaf l) k) _ d a.common = _
  unfold optWarp
  rw [opt_ovleaf Heur.code l hk f]
  have hneg' : ¬ (d = (mkOverview (.leaf l) k : Node).dsize ∧ Heur.code.negl a.common.noopEps res = true) := by
    rintro ⟨_, hg⟩
    rw [show a.common.noopEps = 0 from ha] at hg
    rw [negl_zero hg] at hc
    exact absurd hc (by decide +kernel)
  have hnos : split Heur.code (opt Heur.code (f + 2)) (mkOverview (.leaf l) k : Node) res d a.common = .ok none := by
    simp only [split, mkOverview, numOverviews, ho]
    by_cases e : num - k = 0
    · rw [if_pos e]
    · rw [if_neg e, if_pos]
      rcases hs with h | h
      · exact absurd h e
      · rw [h]; rfl
  show warpRest Heur.code (opt Heur.code (f + 2)) (.overview (.leaf l) k _) res d a.common = _
  change split Heur.code (opt Heur.code (f + 2)) (.overview (.leaf l) k _ : Node) res d a.common = .ok none at hnos
  simp only [warpRest]
  simp only [mkOverview] at hnos hneg' ⊢
  rw [if_neg hneg']
  rw [hnos]
  simp only [absorb, hb]
  rfl

/-- The image cut at the lower right, or extended there by a warp. -/
def fitTo (s : Node) (d : Int × Int) : Node :=
  if d.1 ≤ s.dsize.1 ∧ d.2 ≤ s.dsize.2 then .crop s 0 d.2 0 d.1 none
  else .warp (.crop s 0 (min s.dsize.2 d.2) 0 (min s.dsize.1 d.1) none) (.trans 0 0) d .default

theorem paddedCrop_fitTo {s : Node} {d : Int × Int} (h1 : 0 ≤ s.dsize.1) (h2 : 0 ≤ s.dsize.2) (d1 : 0 ≤ d.1)
    (d2 : 0 ≤ d.2) : paddedCrop s 0 d.2 0 d.1 ((0, 0), (0, 0)) = .ok (fitTo s d) := by
  obtain ⟨dw, dh⟩ := d
  simp only at d1 d2
  have nb : ∀ D i : Int, 0 ≤ i → i ≤ D → normBound D i = i := by
    intro D i h h'
    unfold normBound
    split <;> omega
  simp only [paddedCrop, embedSlice, if_neg (not_lt.2 d1), if_neg (not_lt.2 d2), sub_zero, add_zero, max_self,
    max_eq_right d1, max_eq_right d2, mkCrop, chanCheck, ints, normSlice, fitTo]
  rw [min_eq_right h2, min_eq_right h1, nb _ _ le_rfl h2, nb _ _ le_rfl h1, nb _ _ (by omega) (by omega),
    nb _ _ (by omega) (by omega), max_eq_right (by omega : 0 ≤ min s.dsize.2 dh),
    max_eq_right (by omega : 0 ≤ min s.dsize.1 dw)]
  by_cases hc : dw ≤ s.dsize.1 ∧ dh ≤ s.dsize.2
  · rw [if_pos hc, if_neg (by omega), min_eq_right hc.1, min_eq_right hc.2]
  · rw [if_neg hc, if_pos (by omega), mkWarp]
    congr 2
    · congr 1 <;> norm_cast <;> omega
    · simp only [Option.getD_some, Prod.mk.injEq]
      omega

theorem opt_cropov (H : Heur) (l : Leaf) {k : Int} (hk : k ≠ 0) (y0 y1 x0 x1 : Int) (f : Nat) :
    opt H (f + 3) (.crop (mkOverview (.leaf l) k) y0 y1 x0 x1 none : Node) =
      .ok (.crop (mkOverview (.leaf l) k) y0 y1 x0 x1 none) := by
  show optCrop (opt H (f + 2)) _ y0 y1 x0 x1 none = _
  unfold optCrop
  rw [opt_ovleaf H l hk f]
  rfl

theorem opt_fitTo {l : Leaf} {k num : Int} (hk : k ≠ 0) (ho : l.overviews = some num) {d : Int × Int}
    (f : Nat) :
    opt Heur.code (f + 4) (fitTo (mkOverview (.leaf l) k) d : Node) = .ok (fitTo (mkOverview (.leaf l) k) d) := by
  unfold fitTo
  split
  · exact opt_cropov _ l hk _ _ _ _ (f + 1)
  · rename_i hc
    show optWarp Heur.code (opt Heur.code (f + 3)) (.crop (mkOverview (.leaf l) k) _ _ _ _ none) (.trans 0 0) d .default = _
    unfold optWarp
    rw [opt_cropov _ l hk _ _ _ _ f]
    have hd : ¬ (d = (.crop (mkOverview (.leaf l) k) 0 (min (mkOverview (.leaf l) k : Node).dsize.2 d.2) 0
        (min (mkOverview (.leaf l) k : Node).dsize.1 d.1) none : Node).dsize ∧
        Heur.code.negl Algo.default.noopEps (.trans 0 0) = true) := by
      rintro ⟨e, _⟩
      have e1 := congrArg Prod.fst e
      have e2 := congrArg Prod.snd e
      simp only [dsize] at e1 e2
      simp only [mkOverview, dsize] at e1 e2 hc
      omega
    have hs : split Heur.code (opt Heur.code (f + 3)) (.crop (mkOverview (.leaf l) k) 0
        (min (mkOverview (.leaf l) k : Node).dsize.2 d.2) 0
        (min (mkOverview (.leaf l) k : Node).dsize.1 d.1) none : Node) (.trans 0 0) d .default = .ok none := by
      simp only [split, mkOverview, numOverviews, ho]
      rw [show Heur.code.canSplit (.trans 0 0) = false by decide +kernel]
      split <;> rfl
    simp only [warpRest]
    rw [if_neg hd, hs]
    simp only [absorb]
    rw [show Heur.code.big (.trans 0 0) = false by decide +kernel]
    rfl

theorem opt_residual {l : Leaf} {k : Nat} {num : Int} (hk : (k : Int) ≠ 0) (ho : l.overviews = some num) {res : Affine}
    {d : Int × Int} {a : Algo} (ha : a.noopEps = 0) {θ sx sy sh : ℝ}
    (hres : Decomposed res θ (2 ^ k * sx) (2 ^ k * sy) (2 ^ k * sh)) (hy : sy ≠ 0) (hsx : 2 ^ k * sx ≤ 1)
    (hsy : 2 ^ k * sy ≤ 1) (hend : (k : Int) = num ∨ 1 < 2 ^ (k + 1) * sx ∨ 1 < 2 ^ (k + 1) * sy)
    (hc : Heur.code.closeId res = false) (f : Nat) :
    opt Heur.code (f + 3) (.warp (mkOverview (.leaf l) k) res d a.common : Node) =
      .ok (.warp (mkOverview (.leaf l) k) res d a.common) := by
  have hrd : res.det ≠ 0 := by
    have : (res.det : ℝ) ≠ 0 := by
      rw [hres.det]
      exact mul_ne_zero hres.pos.ne' (mul_ne_zero (by positivity) hy)
    exact_mod_cast this
  obtain ⟨fs, ft⟩ := hres.scales hrd
  obtain ⟨t1, t2⟩ := C63_tests hrd
  rw [fs, ft] at t1 t2
  refine opt_settled hk ho ha hc (t2.2 ⟨by norm_num; linarith, by norm_num; linarith⟩) ?_ f
  refine hend.imp (fun h => by omega) fun h => ?_
  rw [pow_succ] at h
  exact t1.2 (h.imp (fun h => by norm_num; linarith) (fun h => by norm_num; linarith))

/-- C63: a file with overviews that is scaled down by two or more is read from the coarsest overview that is at
least as fine as the result in both directions, or from the last one; what is left is a warp that scales neither
direction up, or the overview is cut or extended to the size asked for.  Missing: the scale `sy` of a map that mirrors
is negative, so for these maps the conditions on `sy` say nothing, see `C63_mirrored_violated`. -/
theorem C63_level_partial {l : Leaf} {num : Int} (hn : l.nan = false) (ho : l.overviews = some num) (h0 : 0 < num)
    {tf : Affine} {θ sx sy sh : ℝ} (hdec : Decomposed tf θ sx sy sh) (hy : sy ≠ 0) (hx2 : sx ≤ 1 / 2)
    (hy2 : sy ≤ 1 / 2) (d : Int × Int) {a : Algo} (ha : a.noopEps = 0) :
    ∃ k : Nat, 1 ≤ k ∧ (k : Int) ≤ num ∧ 2 ^ k * sx ≤ 1 ∧ 2 ^ k * sy ≤ 1 ∧
      ((k : Int) = num ∨ 1 < 2 ^ (k + 1) * sx ∨ 1 < 2 ^ (k + 1) * sy) ∧
      ∃ res, res * (mkOverview (.leaf l) k : Node).tfSub = tf ∧
        Decomposed res θ (2 ^ k * sx) (2 ^ k * sy) (2 ^ k * sh) ∧
        (Heur.code.closeId res = false → ∀ f,
          opt Heur.code (f + 4) (.warp (.leaf l) tf d a : Node) = .ok (.warp (mkOverview (.leaf l) k) res d a.common)) ∧
        (Heur.code.closeId res = true → (mkOverview (.leaf l) k : Node).dsize = d → ∀ f,
          opt Heur.code (f + 4) (.warp (.leaf l) tf d a : Node) = .ok (mkOverview (.leaf l) k)) ∧
        (Heur.code.closeId res = true → (mkOverview (.leaf l) k : Node).dsize ≠ d → 0 ≤ l.dsize.1 → 0 ≤ l.dsize.2 →
          0 ≤ d.1 → 0 ≤ d.2 → ∀ f,
          opt Heur.code (f + 6) (.warp (.leaf l) tf d a : Node) = .ok (fitTo (mkOverview (.leaf l) k) d)) := by
  have hdetR : (tf.det : ℝ) ≠ 0 := by rw [hdec.det]; exact mul_ne_zero hdec.pos.ne' hy
  have hdet : tf.det ≠ 0 := by exact_mod_cast hdetR
  obtain ⟨es, et⟩ := hdec.scales hdet
  have hle : ∀ k : Nat, scalesLe tf ((2 : ℚ) ^ k)⁻¹ = true ↔ 2 ^ k * sx ≤ 1 ∧ 2 ^ k * sy ≤ 1 := by
    intro k
    have hk : (0 : ℝ) < 2 ^ k := by positivity
    rw [scalesLe_real hdet (by positivity), es, et]
    push_cast
    rw [← one_div, le_div_iff₀' hk, le_div_iff₀' hk]
  obtain ⟨n, hnd⟩ : ∃ n : Nat, Heur.code.downs tf = n := ⟨_, rfl⟩
  have hmax : ∀ k : Nat, scalesLe tf ((2 : ℚ) ^ k)⁻¹ = true → k ≤ n := fun k hk => by
    have := downs_max hdet hk
    rw [hnd] at this
    exact_mod_cast this
  have hcan : Heur.code.canSplit tf = true := by
    have := (hle 1).2 ⟨by linarith, by linarith⟩
    rwa [pow_one, ← one_div] at this
  have h1 : 1 ≤ n := hmax 1 ((hle 1).2 ⟨by linarith, by linarith⟩)
  have hat : 2 ^ n * sx ≤ 1 ∧ 2 ^ n * sy ≤ 1 := by
    rw [← hle]
    have e' : downsUpTo tf (Nat.log2 (tf.a ^ 2 + tf.c ^ 2).den) = n := by
      have e : ((downsUpTo tf (Nat.log2 (tf.a ^ 2 + tf.c ^ 2).den) : Nat) : Int) = n := hnd
      exact_mod_cast e
    have := downsUpTo_spec tf (Nat.log2 (tf.a ^ 2 + tf.c ^ 2).den) (by omega)
    rwa [e'] at this
  have hnot : 1 < 2 ^ (n + 1) * sx ∨ 1 < 2 ^ (n + 1) * sy := by
    by_contra hc
    rw [not_or, not_lt, not_lt, ← hle] at hc
    have := hmax _ hc
    omega
  obtain ⟨k, hk⟩ : ∃ k : Nat, min num (n : Int) = k := Int.eq_ofNat_of_zero_le (by omega)
  have hkn : k ≤ n := by omega
  have hk1 : 1 ≤ k := by omega
  have hpow : (2 : ℝ) ^ k ≤ 2 ^ n := pow_le_pow_right₀ (by norm_num) hkn
  have hsx : 2 ^ k * sx ≤ 1 := (mul_le_mul_of_nonneg_right hpow hdec.pos.le).trans hat.1
  have hsy : 2 ^ k * sy ≤ 1 := by
    rcases le_total sy 0 with h | h
    · have : (0 : ℝ) < 2 ^ k := by positivity
      nlinarith
    · exact (mul_le_mul_of_nonneg_right hpow h).trans hat.2
  have hend : (k : Int) = num ∨ 1 < 2 ^ (k + 1) * sx ∨ 1 < 2 ^ (k + 1) * sy := by
    by_cases e : (k : Int) = num
    · exact .inl e
    · have : k = n := by omega
      rw [this]; exact .inr hnot
  have h2k : ((2 : ℚ) ^ k) ≠ 0 := by positivity
  have hk0 : (k : Int) ≠ 0 := by omega
  have hnegl : ¬ (d = (.leaf l : Node).dsize ∧ Heur.code.negl a.noopEps tf = true) := by
    rintro ⟨_, hg⟩
    rw [ha] at hg
    have e := negl_zero hg
    have h1 : (tf.a : ℝ) = 1 := by rw [e]; simp [Affine.id]
    rw [hdec.a] at h1
    have := Real.cos_le_one θ
    nlinarith [hdec.pos]
  have first : ∀ (f : Nat) (new x x' : Node),
      (if Heur.code.closeId (tf * (ovScale k).inv) = true then
        (if (mkOverview (.leaf l) k : Node).dsize ≠ d then none else some (mkOverview (.leaf l) k : Node))
        else some (.warp (mkOverview (.leaf l) k) (tf * (ovScale k).inv) d a.common)) = some new →
      subOf new = .ok (some x) → opt Heur.code (f + 3) x = .ok x' →
      opt Heur.code (f + 4) (.warp (.leaf l) tf d a : Node) = opt Heur.code (f + 3) (setSub new x') := by
    intro f new x x' hnew hsub hx
    have hsp : split Heur.code (opt Heur.code (f + 3)) (.leaf l : Node) tf d a = .ok (some new) := by
      simp only [split, numOverviews, ho, if_neg h0.ne', hcan, hnd, hk, if_neg hk0, Bool.not_true,
        Bool.false_eq_true, if_false]
      by_cases hc : Heur.code.closeId (tf * (ovScale k).inv) = true
      · rw [if_pos hc] at hnew ⊢
        by_cases hd : (mkOverview (.leaf l) k : Node).dsize ≠ d
        · rw [if_pos hd] at hnew; cases hnew
        · rw [if_neg hd] at hnew ⊢; cases hnew; rfl
      · rw [if_neg hc] at hnew ⊢; cases hnew; rfl
    show optWarp Heur.code (opt Heur.code (f + 3)) (.leaf l) tf d a = _
    unfold optWarp
    rw [show opt Heur.code (f + 3) (.leaf l : Node) = .ok (.leaf l) from rfl]
    simp only [warpRest, if_neg hnegl, hn, Bool.false_eq_true, if_false, hsp, hsub, hx]
  have hresD : Decomposed (tf * (ovScale k).inv) θ (2 ^ k * sx) (2 ^ k * sy) (2 ^ k * sh) := by
    rw [residual_eq]
    refine ⟨by have := hdec.pos; positivity, ?_, ?_, ?_, ?_⟩ <;> push_cast
    · rw [hdec.a]; ring
    · rw [hdec.c]; ring
    · rw [hdec.b]; ring
    · rw [hdec.d]; ring
  refine ⟨k, hk1, by omega, hsx, hsy, hend, tf * (ovScale k).inv, ?_, ?_, ?_, ?_, ?_⟩
  · rw [residual_eq]
    show _ * Affine.scale ((2 : ℚ) ^ (k : Int))⁻¹ = tf
    ext <;> simp only [Affine.mul_def, Affine.mul, Affine.scale, zpow_natCast] <;> field_simp <;> ring
  · exact hresD
  · intro hc f
    rw [first f (.warp (mkOverview (.leaf l) k) (tf * (ovScale k).inv) d a.common) _ _
      (if_neg (by rw [hc]; simp)) rfl (opt_ovleaf Heur.code l hk0 (f + 1))]
    exact opt_residual hk0 ho ha hresD hy hsx hsy hend hc f
  · intro hc hd f
    rw [first f (mkOverview (.leaf l) k) (.leaf l) (.leaf l) (by rw [if_pos hc, if_neg (by rw [hd]; simp)]) rfl rfl]
    exact opt_ovleaf Heur.code l hk0 (f + 1)
  · intro hc hd l1 l2 d1 d2 f
    have hfit := paddedCrop_fitTo (s := mkOverview (.leaf l) k) (d := d) (ovSize_nonneg k _ l1) (ovSize_nonneg k _ l2)
      d1 d2
    have hsp : split Heur.code (opt Heur.code (f + 5)) (.leaf l : Node) tf d a =
        .ok (some (fitTo (mkOverview (.leaf l) k) d)) := by
      simp only [split, numOverviews, ho, if_neg h0.ne', hcan, hnd, hk, if_neg hk0, Bool.not_true,
        Bool.false_eq_true, if_false]
      rw [if_pos hc, if_pos hd, hfit]
      simp only
      rw [opt_fitTo hk0 ho (f + 1)]
    obtain ⟨x, hx, hox⟩ : ∃ x, subOf (fitTo (mkOverview (.leaf l) k) d) = .ok (some x) ∧
        opt Heur.code (f + 5) x = .ok x := by
      unfold fitTo
      split
      · exact ⟨_, rfl, opt_ovleaf _ l hk0 (f + 3)⟩
      · exact ⟨_, rfl, opt_cropov _ l hk0 _ _ _ _ (f + 2)⟩
    have hset : setSub (fitTo (mkOverview (.leaf l) k) d) x = fitTo (mkOverview (.leaf l) k) d := by
      unfold fitTo at hx ⊢
      split at hx
      · rename_i h; rw [if_pos h]; cases hx; rfl
      · rename_i h; rw [if_neg h]; cases hx; rfl
    show optWarp Heur.code (opt Heur.code (f + 5)) (.leaf l) tf d a = _
    unfold optWarp
    rw [show opt Heur.code (f + 5) (.leaf l : Node) = .ok (.leaf l) from rfl]
    simp only [warpRest, if_neg hnegl, hn, Bool.false_eq_true, if_false, hsp, hx, hox, hset]
    exact opt_fitTo hk0 ho (f + 1)

/-- Half of a file, in another size: the first overview, cut to four columns and extended to six rows. -/
example : opt Heur.code 40 (.warp (.leaf pyramid) (.scale (1 / 2)) (4, 6) .default : Node) =
    .ok (fitTo (mkOverview (.leaf pyramid) 1) (4, 6)) := by
  have hdec : Decomposed (.scale (1 / 2)) 0 (1 / 2) (1 / 2) 0 := by
    constructor <;> norm_num [Affine.scale]
  obtain ⟨k, h1, _, h3, _, _, res, e, _, _, _, h⟩ := C63_level_partial (l := pyramid) rfl rfl (by decide) hdec
    (by norm_num) (by norm_num) (by norm_num) (4, 6) (a := .default) rfl
  have hk : k = 1 := by
    by_contra hne
    have : (2 : ℝ) ^ 2 ≤ 2 ^ k := pow_le_pow_right₀ (by norm_num) (by omega)
    linarith
  subst hk
  have hr : res = .scale 1 := by
    have e' : res * .scale (1 / 2) = .scale (1 / 2) := by simpa [mkOverview, tfSub] using e
    rw [Affine.mul_def] at e'
    simp only [Affine.mul, Affine.scale, Affine.mk.injEq] at e'
    ext <;> simp only [Affine.scale] <;> linarith
  subst hr
  exact h (by decide +kernel) (by decide +kernel) (by decide) (by decide) (by decide) (by decide) 34

/-- A warp of a file that is not split. -/
theorem opt_unsplit {l : Leaf} (hn : l.nan = false) {tf : Affine} (d : Int × Int) {a : Algo} (ha : a.noopEps = 0)
    (hs : l.overviews = some 0 ∨ Heur.code.canSplit tf = false) (f : Nat) :
    opt Heur.code (f + 2) (.warp (.leaf l) tf d a : Node) =
      .ok (if d = l.dsize ∧ tf = .id then .leaf l else .warp (.leaf l) tf d a) := by
  show optWarp Heur.code (opt Heur.code (f + 1)) (.leaf l) tf d a = _
  unfold optWarp
  rw [show opt Heur.code (f + 1) (.leaf l : Node) = .ok (.leaf l) from rfl]
  simp only [warpRest, ha]
  by_cases hi : d = l.dsize ∧ tf = .id
  · rw [if_pos hi, if_pos ⟨hi.1, by rw [hi.2]; decide +kernel⟩]
  · rw [if_neg hi, if_neg fun h => hi ⟨h.1, negl_zero h.2⟩]
    have hs : split Heur.code (opt Heur.code (f + 1)) (.leaf l : Node) tf d a = .ok none := by
      simp only [split, numOverviews]
      cases ho : l.overviews with
      | none => rfl
      | some num =>
        rcases hs with h | h
        · rw [ho] at h
          cases h
          rfl
        · simp only [h, Bool.not_false, if_true]
          split <;> rfl
    simp only [hn, Bool.false_eq_true, if_false, hs, absorb]
    split <;> rfl

/-- C63: otherwise the file is read in full resolution, mirrored or not. -/
theorem C63_full {l : Leaf} (hn : l.nan = false) {tf : Affine} (hdet : tf.det ≠ 0) {θ sx sy sh : ℝ}
    (hdec : Decomposed tf θ sx sy sh) (h2 : 1 / 2 < sx ∨ 1 / 2 < sy) (d : Int × Int) {a : Algo} (ha : a.noopEps = 0)
    (f : Nat) :
    opt Heur.code (f + 2) (.warp (.leaf l) tf d a : Node) =
      .ok (if d = l.dsize ∧ tf = .id then .leaf l else .warp (.leaf l) tf d a) := by
  obtain ⟨es, et⟩ := hdec.scales hdet
  refine opt_unsplit hn d ha (.inr ?_) f
  rw [(C63_tests hdet).1, es, et]
  exact h2.imp (fun h => by norm_num; linarith) (fun h => by norm_num; linarith)

example : opt Heur.code 40 (.warp (.leaf pyramid) ⟨0, -1 / 4, 4, 1, 0, 0⟩ (3, 10) .default : Node) =
    .ok (.warp (.leaf pyramid) ⟨0, -1 / 4, 4, 1, 0, 0⟩ (3, 10) .default) := by
  have hdec : Decomposed ⟨0, -1 / 4, 4, 1, 0, 0⟩ (Real.pi / 2) 1 (1 / 4) 0 := by
    constructor <;> simp <;> norm_num
  have h := C63_full (l := pyramid) rfl (by decide +kernel) hdec (.inl (by norm_num)) (3, 10) (a := .default) rfl 38
  rw [if_neg (by decide +kernel)] at h
  exact h

/-- A file with two overviews turned by a quarter and scaled to a fifth. -/
example : ∃ k : Nat, 1 ≤ k ∧ (k : Int) ≤ 2 ∧ ((k : Int) = 2 ∨ (1 : ℝ) < 2 ^ (k + 1) * (1 / 5)) ∧
    (2 : ℝ) ^ k * (1 / 5) ≤ 1 := by
  have hdec : Decomposed ⟨0, -1 / 5, 4, 1 / 5, 0, 0⟩ (Real.pi / 2) (1 / 5) (1 / 5) 0 := by
    constructor <;> simp <;> norm_num
  obtain ⟨k, h1, h2, h3, _, h5, _⟩ := C63_level_partial (l := { pyramid with overviews := some 2 }) rfl rfl (by decide)
    hdec (by norm_num) (by norm_num) (by norm_num) (2, 2) (a := .default) rfl
  exact ⟨k, h1, h2, h5.imp id (fun h => h.elim id id), h3⟩

/-- Every invertible map has a decomposition. -/
theorem decomposed {m : Affine} (h : m.det ≠ 0) : ∃ θ sx sy sh, Decomposed m θ sx sy sh ∧ sy ≠ 0 := by
  have hp : (0 : ℝ) < (m.a : ℝ) ^ 2 + (m.c : ℝ) ^ 2 := by exact_mod_cast col_ne h
  have hz : (⟨(m.a : ℝ), (m.c : ℝ)⟩ : ℂ) ≠ 0 := by
    intro e
    have e1 := congrArg Complex.re e
    have e2 := congrArg Complex.im e
    simp only [Complex.zero_re, Complex.zero_im] at e1 e2
    rw [e1, e2] at hp
    norm_num at hp
  have hn : ‖(⟨(m.a : ℝ), (m.c : ℝ)⟩ : ℂ)‖ = Real.sqrt ((m.a : ℝ) ^ 2 + (m.c : ℝ) ^ 2) := by
    rw [Complex.norm_def, Complex.normSq_mk]; ring_nf
  set r := Real.sqrt ((m.a : ℝ) ^ 2 + (m.c : ℝ) ^ 2) with hr
  have hr0 : 0 < r := Real.sqrt_pos.2 hp
  have hrr : r ^ 2 = (m.a : ℝ) ^ 2 + (m.c : ℝ) ^ 2 := Real.sq_sqrt hp.le
  have hc : Real.cos (atan2 m.c m.a) = m.a / r := by rw [atan2, Complex.cos_arg hz, hn]
  have hs : Real.sin (atan2 m.c m.a) = m.c / r := by rw [atan2, Complex.sin_arg, hn]
  have hd : (m.a : ℝ) * m.d - m.b * m.c ≠ 0 := by
    have : (m.det : ℝ) ≠ 0 := by exact_mod_cast h
    simpa [Affine.det] using this
  refine ⟨atan2 m.c m.a, r, (m.a * m.d - m.b * m.c) / r, (m.a * m.b + m.c * m.d) / r, ⟨hr0, ?_, ?_, ?_, ?_⟩,
    div_ne_zero hd hr0.ne'⟩
  · rw [hc]; field_simp
  · rw [hs]; field_simp
  · rw [hc, hs]; field_simp; rw [hrr]; ring
  · rw [hc, hs]; field_simp; rw [hrr]; ring

theorem fitTo_dsize (s : Node) (d : Int × Int) : (fitTo s d).dsize = d := by
  unfold fitTo
  split
  · simp only [dsize, sub_zero]
  · rfl

/-- C54, C36 and C37 for warped files with overviews: optimize ends after a fixed number of calls with an image of the
size asked for, and optimizing that image changes nothing. -/
theorem C54_file_partial {l : Leaf} (hn : l.nan = false) {num : Int} (ho : l.overviews = some num) (h0 : 0 ≤ num)
    (l1 : 0 ≤ l.dsize.1) (l2 : 0 ≤ l.dsize.2) {tf : Affine} (hdet : tf.det ≠ 0) {d : Int × Int} (d1 : 0 ≤ d.1)
    (d2 : 0 ≤ d.2) {a : Algo} (ha : a.noopEps = 0) :
    ∃ m : Node, m.dsize = d ∧ ∀ f, opt Heur.code (f + 6) (.warp (.leaf l) tf d a : Node) = .ok m ∧
      opt Heur.code (f + 6) m = .ok m := by
  have plain : (∀ f, opt Heur.code (f + 2) (.warp (.leaf l) tf d a : Node) =
      .ok (if d = l.dsize ∧ tf = .id then .leaf l else .warp (.leaf l) tf d a)) →
      ∃ m : Node, m.dsize = d ∧ ∀ f, opt Heur.code (f + 6) (.warp (.leaf l) tf d a : Node) = .ok m ∧
        opt Heur.code (f + 6) m = .ok m := by
    intro h
    by_cases hi : d = l.dsize ∧ tf = .id
    · refine ⟨.leaf l, hi.1.symm, fun f => ⟨?_, rfl⟩⟩
      rw [h (f + 4), if_pos hi]
    · refine ⟨.warp (.leaf l) tf d a, rfl, fun f => ?_⟩
      have := h (f + 4)
      rw [if_neg hi] at this
      exact ⟨this, this⟩
  obtain ⟨θ, sx, sy, sh, hdec, hy⟩ := decomposed hdet
  by_cases hnum : num = 0
  · exact plain fun f => opt_unsplit hn d ha (.inl (by rw [ho, hnum])) f
  by_cases hx2 : sx ≤ 1 / 2
  swap
  · exact plain fun f => C63_full hn hdet hdec (.inl (not_le.1 hx2)) d ha f
  by_cases hy2 : sy ≤ 1 / 2
  swap
  · exact plain fun f => C63_full hn hdet hdec (.inr (not_le.1 hy2)) d ha f
  obtain ⟨k, hk, _, hsx, hsy, hend, res, _, hres, o1, o2, o3⟩ :=
    C63_level_partial hn ho (by omega) hdec hy hx2 hy2 d ha
  have hk0 : (k : Int) ≠ 0 := by omega
  cases hc : Heur.code.closeId res with
  | false =>
    exact ⟨_, rfl, fun f => ⟨o1 hc (f + 2), opt_residual hk0 ho ha hres hy hsx hsy hend hc (f + 3)⟩⟩
  | true =>
    by_cases hd : (mkOverview (.leaf l) k : Node).dsize = d
    · exact ⟨_, hd, fun f => ⟨o2 hc hd (f + 2), opt_ovleaf _ l hk0 (f + 4)⟩⟩
    · exact ⟨_, fitTo_dsize _ d, fun f => ⟨o3 hc hd l1 l2 d1 d2 f, opt_fitTo hk0 ho (f + 2)⟩⟩

/-- A file with overviews, turned and scaled to a fifth. -/
example : ∃ m : Node, m.dsize = (2, 3) ∧ ∀ f,
    opt Heur.code (f + 6) (.warp (.leaf pyramid) ⟨0, -1 / 5, 4, 1 / 5, 0, 0⟩ (2, 3) .default : Node) = .ok m ∧
      opt Heur.code (f + 6) m = .ok m :=
  C54_file_partial rfl rfl (by decide) (by decide) (by decide) (by decide +kernel) (by decide) (by decide) rfl

/-- The image upside down, with a quarter of the columns. -/
def mirrored : Node := .warp (.leaf pyramid) ⟨1 / 4, 0, 0, 0, -1, 9⟩ (3, 10) .default

/-- C63 fails for maps that mirror, as the scale of a mirrored axis is negative: all ten rows are asked for, and
they are read from an overview with three rows and scaled up by four. -/
theorem C63_mirrored_violated : ∃ a, opt Heur.code 40 mirrored = .ok (.warp (mkOverview (.leaf pyramid) 2)
    ⟨1, 0, 0, 0, -4, 9⟩ (3, 10) a) ∧ (mkOverview (.leaf pyramid) 2 : Node).dsize = (3, 3) := by
  have hd : (mkOverview (.leaf pyramid) 2 : Node).dsize = (3, 3) := by decide +kernel
  obtain ⟨m, h1, h2⟩ := holds_ok (x := opt Heur.code 40 mirrored) (f := fun m => match m with
    | .warp (.overview (.leaf l) k d0) tf d _ =>
      decide (l = pyramid ∧ k = 2 ∧ d0 = (3, 3) ∧ tf = ⟨1, 0, 0, 0, -4, 9⟩ ∧ d = (3, 10))
    | _ => false) (by decide +kernel)
  split at h2
  · rename_i l k d0 tf d a
    obtain ⟨rfl, rfl, rfl, rfl, rfl⟩ := of_decide_eq_true h2
    refine ⟨a, ?_, hd⟩
    rw [h1]
    show _ = Except.ok (Node.warp (Node.overview (.leaf pyramid) 2 (mkOverview (.leaf pyramid) 2 : Node).dsize) _ _ _)
    rw [hd]
  · cases h2

/-! ### images with more operations -/

/-- The first image is the second one or an image it is derived from, not through a concat. -/
inductive Within (x : Node) : Node → Prop
  | refl : Within x x
  | warp {s : Node} (tf : Affine) (d : Int × Int) (a : Algo) : Within x s → Within x (.warp s tf d a)
  | crop {s : Node} (y0 y1 x0 x1 : Int) (c : Option (List Nat)) : Within x s → Within x (.crop s y0 y1 x0 x1 c)
  | overview {s : Node} (k : Int) (d : Int × Int) : Within x s → Within x (.overview s k d)
  | dequant {s : Node} (q : Quantization) (d : Int × Int) : Within x s → Within x (.dequant s q d)

/-- An overview, perhaps cropped and dequantized. -/
inductive OfOverview : Node → Prop
  | overview (s : Node) (k : Int) (d : Int × Int) : OfOverview (.overview s k d)
  | crop {s : Node} (y0 y1 x0 x1 : Int) (c : Option (List Nat)) : OfOverview s → OfOverview (.crop s y0 y1 x0 x1 c)
  | dequant {s : Node} (q : Quantization) (d : Int × Int) : OfOverview s → OfOverview (.dequant s q d)

theorem Within.nf {H : Heur} {x n : Node} (hw : Within x n) (h : NF H false n) : NF H false x := by
  induction hw with
  | refl => exact h
  | warp _ _ _ _ ih => rw [NF] at h; exact ih h.1
  | crop _ _ _ _ _ _ ih => rw [NF] at h; exact ih h.1
  | overview _ _ _ ih => rw [NF] at h; exact ih h.1
  | dequant _ _ _ ih => rw [NF] at h; exact ih h.1

theorem Within.wf {x n : Node} (hw : Within x n) (h : WF n) : WF x := by
  induction hw with
  | refl => exact h
  | warp _ _ _ _ ih => rw [WF] at h; exact ih h.1
  | crop _ _ _ _ _ _ ih => rw [WF] at h; exact ih h.1
  | overview _ _ _ ih => rw [WF] at h; exact ih h
  | dequant _ _ _ ih => rw [WF] at h; exact ih h

/-- In normal form the overview is found. -/
theorem OfOverview.look {H : Heur} {s : Node} (h : OfOverview s) (hs : NF H false s) : (look 4 s).isSome = true := by
  have crop : ∀ (n : Nat) {s : Node} {y0 y1 x0 x1 : Int} {c : Option (List Nat)},
      OfOverview s → NF H false (.crop s y0 y1 x0 x1 c) → (Tree.look (n + 2) (.crop s y0 y1 x0 x1 c)).isSome = true := by
    intro n s y0 y1 x0 x1 c h hs
    rw [NF] at hs
    cases h with
    | overview => simp [look_step]
    | crop => exact hs.2.elim
    | dequant => exact hs.2.elim
  cases h with
  | overview => rfl
  | crop _ _ _ _ _ h => exact crop 2 h hs
  | dequant _ _ h =>
    have hs' := hs
    rw [NF] at hs'
    rw [look_step]
    simp only [Option.isSome_map]
    cases h with
    | overview => rfl
    | crop _ _ _ _ _ h => exact crop 1 h hs'.1
    | dequant => exact hs'.2.elim

/-- C63: whatever operations there are, in the result of optimize an overview is at most one level too coarse: if it
is warped, after cropping and dequantizing, then by less than two in both directions.  Missing: the parts of concats (see `C37_normal_form_violated`), and a bound of one instead of two (see below). -/
theorem C63_upscale_partial {n : Node} (hb : Built n) {fuel : Nat} {m : Node} (h : opt Heur.code fuel n = .ok m) {s : Node}
    {tf : Affine} {d : Int × Int} {a : Algo} (hw : Within (.warp s tf d a) m) (hs : OfOverview s) {θ sx sy sh : ℝ}
    (hdec : Decomposed tf θ sx sy sh) : sx < 2 ∧ sy < 2 := by
  have g := opt_good (deep := false) (nameRules Heur.code) (by simp) fuel n m hb.ok.1 h
  have hnf := hw.nf g.nf
  have hdet := hw.wf g.inv
  rw [NF] at hnf
  rw [WF] at hdet
  obtain ⟨es, et⟩ := hdec.scales hdet.2
  have := (C63_tests hdet.2).2.1 (hnf.2.2 (hs.look hnf.1))
  rw [es, et] at this
  constructor <;> linarith [this.1, this.2]

/-- Scaled to a half and then by almost two. -/
def restored : Node :=
  mkWarp (mkWarp (.leaf pyramid) (.scale (1 / 2)) none .default) (.scale (19 / 10)) none .default

theorem restored_built : Built restored := by
  have h1 : Built (mkWarp (.leaf pyramid) (.scale (1 / 2)) none .default) :=
    .warp _ _ none .default pyramid_built (by decide +kernel) ⟨by decide +kernel, by decide +kernel⟩
  exact .warp _ _ none .default h1 (by decide +kernel) ⟨by decide +kernel, by decide +kernel⟩

/-- C63 fails for images that are scaled more than once: the result is scaled to 19 / 20 of the file, and it is read
from an overview with half of the pixels in each direction. -/
theorem C63_nested_violated : Built restored ∧ leafTf restored = .ok (.scale (19 / 20)) ∧
    ∃ d a, opt Heur.code 40 restored = .ok (.warp (.overview (.leaf pyramid) 1 (5, 5)) (.scale (19 / 10)) d a) := by
  refine ⟨restored_built, by decide +kernel, ?_⟩
  obtain ⟨m, h1, h2⟩ := holds_ok (x := opt Heur.code 40 restored) (f := fun m => match m with
    | .warp (.overview (.leaf l) k d0) tf _ _ =>
      decide (l = pyramid ∧ k = 1 ∧ d0 = (5, 5) ∧ tf = .scale (19 / 10))
    | _ => false) (by decide +kernel)
  split at h2
  · rename_i l k d0 tf d a
    obtain ⟨rfl, rfl, rfl, rfl⟩ := of_decide_eq_true h2
    exact ⟨d, a, h1⟩
  · cases h2

/-- The bound of `C63_upscale_partial` is sharp: it is 1.9 here. -/
example : ∃ m, opt Heur.code 40 restored = .ok m ∧ ∃ s tf d a, Within (.warp s tf d a) m ∧ OfOverview s ∧
    Decomposed tf 0 1.9 1.9 0 ∧ ((1.9 : ℝ) < 2 ∧ (1.9 : ℝ) < 2) := by
  obtain ⟨hb, _, d, a, h⟩ := C63_nested_violated
  have hdec : Decomposed (.scale (19 / 10)) 0 1.9 1.9 0 := by
    constructor <;> norm_num [Affine.scale]
  exact ⟨_, h, _, _, _, _, .refl, .overview .., hdec, C63_upscale_partial hb h .refl (.overview ..) hdec⟩

/-- The second overview, scaled up by two. -/
def blownUp : Node := mkWarp (mkOverview (.leaf pyramid) 2) (.scale 2) none .default

theorem blownUp_built : Built blownUp :=
  .warp _ _ none .default (.overview _ 2 pyramid_built) (by decide +kernel) ⟨by decide +kernel, by decide +kernel⟩

/-- C63 fails for overviews that are scaled up: the result has half of the size of the file, and it is read from the
file in full resolution although there is an overview of that resolution. -/
theorem C63_enlarged_violated : Built blownUp ∧ leafTf blownUp = .ok (.scale (1 / 2)) ∧
    ∃ d a, opt Heur.code 40 blownUp = .ok (.warp (.leaf pyramid) (.scale (1 / 2)) d a) := by
  refine ⟨blownUp_built, by decide +kernel, ?_⟩
  obtain ⟨m, h1, h2⟩ := holds_ok (x := opt Heur.code 40 blownUp) (f := fun m => match m with
    | .warp (.leaf l) tf _ _ => decide (l = pyramid ∧ tf = .scale (1 / 2))
    | _ => false) (by decide +kernel)
  split at h2
  · rename_i l tf d a
    obtain ⟨rfl, rfl⟩ := of_decide_eq_true h2
    exact ⟨d, a, h1⟩
  · cases h2

end Verif.Props
