/-
C36 on images in which every pixel is interpolated at most once.
-/
import Verif.Props.Geometry
import Verif.Props.Types

namespace Verif.Props

open Tree Helpers Node

variable {V : Type}

/-! #### linear interpolation -/

/-- No smoothing takes place before the warp: it is switched off, or nothing is made smaller. -/
def Mild (tf : Affine) (a : Algo) : Prop := a.antialias = false ∨ (1 ≤ tf.a ∧ 1 ≤ tf.d)

/-- The pixels of a channel, with nothing around them. -/
def onGrid (d : Int × Int) (f : Nat → Nat → V) (y x : Int) : Option V :=
  if 0 ≤ y ∧ y < d.2 ∧ 0 ≤ x ∧ x < d.1 then some (f y.toNat x.toNat) else none

/-- What is assumed of `kwimage.warp_affine` with linear interpolation for a scaling and translation: the value of a
pixel is computed (by `g`) from the point its centre comes from and the pixels of the source less than a pixel away;
only relative positions matter; a point with no pixels around it gets a value that does not depend on the point; and
the centre of a pixel has its value.  The backend makes no difference. -/
structure Env.Linear (E : Env V) (g : Algo → ℚ × ℚ → (Int → Int → Option V) → V) : Prop where
  warp : ∀ (tf : Affine) (d : Int × Int) (a : Algo) (i : Img V), Upright tf → a.interp = .other 0 → Mild tf a →
    ∀ y x k : Nat, (y : Int) < d.2 → (x : Int) < d.1 → k < i.n → (E.warp tf d a i).px y x k =
      g a (tf.inv.app (ctr y x)) (onGrid (i.w, i.h) (fun y x => i.px y x k))
  common : ∀ (a : Algo), g a.common = g a
  near : ∀ (a : Algo) p f f', (∀ y x, Needs p x y → f y x = f' y x) → g a p f = g a p f'
  shift : ∀ (a : Algo) (p : ℚ × ℚ) f (u v : Int),
    g a (p.1 + u, p.2 + v) (fun y x => f (y - v) (x - u)) = g a p f
  away : ∀ (a : Algo) p p', g a p (fun _ _ => none) = g a p' (fun _ _ => none)
  centre : ∀ (a : Algo) (y x : Int) f v, f y x = some v → g a ((x : ℚ) + 1 / 2, (y : ℚ) + 1 / 2) f = v

mutual
/-- On the way from a file to the result there is at most one warp, which scales and moves with linear interpolation
and is not followed by a dequantization; `K` is a condition on its parameters. -/
def OnceIf (K : Algo → Prop) : Node → Prop
  | .leaf _ => True
  | .concat ps _ => OnceIfL K ps
  | .warp s tf _ a => Flat s ∧ Upright tf ∧ a.interp = .other 0 ∧ Mild tf a ∧ K a
  | .crop s _ _ _ _ _ => OnceIf K s
  | .overview _ _ _ => False
  | .dequant s _ _ => Flat s
def OnceIfL (K : Algo → Prop) : List Node → Prop
  | [] => True
  | p :: ps => OnceIf K p ∧ OnceIfL K ps
end

/-- The same; if there may be channels without data (`b`), the border is NaN. -/
def Once (b : Bool) (n : Node) : Prop := OnceIf (fun a => b = true → a.border = none) n

/-- Files, and channels without data if `b`. -/
def Present (b : Bool) (E : Env V) (l : Leaf) : Prop := (l.nan = true → b = true) ∧ E.Matches l

/-- Where there is no data, nothing is interpolated. -/
def Env.Void (E : Env V) (g : Algo → ℚ × ℚ → (Int → Int → Option V) → V) : Prop :=
  ∀ a d p, a.border = none → g a p (onGrid d fun _ _ => E.nan) = E.nan

theorem OnceIfL_iff {K : Algo → Prop} (ps : List Node) : OnceIfL K ps ↔ ∀ p ∈ ps, OnceIf K p := by
  induction ps with
  | nil => simp [OnceIfL]
  | cons p ps ih => simp [OnceIfL, ih]

mutual
theorem Flat.once {K : Algo → Prop} : ∀ {n : Node}, Flat n → OnceIf K n
  | .leaf _, _ => trivial
  | .concat ps _, h => by rw [OnceIf]; exact FlatL.once h
  | .warp _ _ _ _, h => h.elim
  | .crop _ _ _ _ _ _, h => by rw [OnceIf]; exact Flat.once h
  | .overview _ _ _, h => h.elim
  | .dequant _ _ _, h => h
theorem FlatL.once {K : Algo → Prop} : ∀ {ps : List Node}, FlatL ps → OnceIfL K ps
  | [], _ => trivial
  | _ :: _, h => ⟨Flat.once h.1, FlatL.once h.2⟩
end

mutual
theorem Flat.smooth : ∀ {n : Node}, Flat n → Smooth n
  | .leaf _, _ => trivial
  | .concat ps _, h => by rw [Smooth]; exact FlatL.smooth h
  | .warp _ _ _ _, h => h.elim
  | .crop _ _ _ _ _ _, h => by rw [Smooth]; exact Flat.smooth h
  | .overview _ _ _, h => h.elim
  | .dequant _ _ _, h => by rw [Smooth]; exact Flat.smooth h
theorem FlatL.smooth : ∀ {ps : List Node}, FlatL ps → SmoothL ps
  | [], _ => trivial
  | _ :: _, h => ⟨Flat.smooth h.1, FlatL.smooth h.2⟩
end

mutual
theorem OnceIf.smooth {K : Algo → Prop} : ∀ {n : Node}, OnceIf K n → Smooth n
  | .leaf _, _ => trivial
  | .concat ps _, h => by rw [Smooth]; exact OnceIfL.smooth h
  | .warp _ _ _ _, h => ⟨by rw [h.2.2.1]; simp, Flat.smooth h.1⟩
  | .crop _ _ _ _ _ _, h => by rw [Smooth]; exact OnceIf.smooth h
  | .overview _ _ _, h => h.elim
  | .dequant _ _ _, h => by rw [Smooth]; exact Flat.smooth h
theorem OnceIfL.smooth {K : Algo → Prop} : ∀ {ps : List Node}, OnceIfL K ps → SmoothL ps
  | [], _ => trivial
  | _ :: _, h => ⟨OnceIf.smooth h.1, OnceIfL.smooth h.2⟩
end

mutual
theorem OnceIf.tight {K : Algo → Prop} : ∀ {n : Node}, OnceIf K n → NoSlack n → OnceIf (fun a => K a ∧ a.noopEps = 0) n
  | .leaf _, _, _ => trivial
  | .concat ps _, h, hz => by rw [OnceIf]; exact OnceIf.tightL h hz
  | .warp _ _ _ _, h, hz => ⟨h.1, h.2.1, h.2.2.1, h.2.2.2.1, h.2.2.2.2, hz.1⟩
  | .crop _ _ _ _ _ _, h, hz => by rw [OnceIf]; exact OnceIf.tight h hz
  | .overview _ _ _, h, _ => h.elim
  | .dequant _ _ _, h, _ => h
theorem OnceIf.tightL {K : Algo → Prop} : ∀ {ps : List Node}, OnceIfL K ps → NoSlackL ps →
    OnceIfL (fun a => K a ∧ a.noopEps = 0) ps
  | [], _, _ => trivial
  | _ :: _, h, hz => ⟨OnceIf.tight h.1 hz.1, OnceIf.tightL h.2 hz.2⟩
end

/-! #### what operations do to a channel -/

/-- A channel cropped. -/
def cropped (nan : V) (y0 y1 x0 x1 : Int) (f : Nat → Nat → V) (y x : Nat) : V :=
  if (y : Int) < y1 - y0 ∧ (x : Int) < x1 - x0 then f (y0.toNat + y) (x0.toNat + x) else nan

/-- A channel dequantized. -/
def planeDeq (E : Env V) (q : Quantization) (d : Int × Int) (f : Nat → Nat → V) (y x : Nat) : V :=
  if (y : Int) < d.2 ∧ (x : Int) < d.1 then E.deq q (f y x) else E.nan

/-- A channel warped. -/
def warped (g : Algo → ℚ × ℚ → (Int → Int → Option V) → V) (nan : V) (a : Algo) (tf : Affine) (src d : Int × Int)
    (f : Nat → Nat → V) (y x : Nat) : V :=
  if (y : Int) < d.2 ∧ (x : Int) < d.1 then g a (tf.inv.app (ctr y x)) (onGrid src f) else nan

/-- The selected channels. -/
def chosen (nan : V) (c : Option (List Nat)) (l : List (Nat → Nat → V)) : List (Nat → Nat → V) :=
  match c with
  | none => l
  | some c => pick (fun _ _ => nan) l c

variable {E : Env V} {b : Bool}

theorem planes_getElem (nan : V) (i : Img V) {k : Nat} (hk : k < (planes nan i).length) (y x : Nat) :
    (planes nan i)[k] y x = if y < i.h ∧ x < i.w then i.px y x k else nan := by
  have : (planes nan i)[k] = fun y x => if y < i.h ∧ x < i.w then i.px y x k else nan := by simp [planes]
  rw [this]

theorem planes_length (nan : V) (i : Img V) : (planes nan i).length = i.n := by simp [planes]

/-- Arrays with the same height, width and channels are the same. -/
theorem same_of_planes {nan : V} {i j : Img V} (hh : i.h = j.h) (hw : i.w = j.w)
    (h : planes nan i = planes nan j) : i.Same j := by
  have hn : i.n = j.n := by rw [← planes_length nan i, h, planes_length]
  refine ⟨hh, hw, hn, fun y x k hy hx hk => ?_⟩
  rw [← planes_get nan i hk hy hx (fun _ _ => nan), h, planes_get nan j (hn ▸ hk) (hh ▸ hy) (hw ▸ hx)]

theorem planes_of_same {nan : V} {i j : Img V} (h : i.Same j) : planes nan i = planes nan j := by
  apply List.ext_getElem
  · rw [planes_length, planes_length, h.n]
  intro k h1 h2
  funext y x
  rw [planes_getElem, planes_getElem, ← h.h, ← h.w]
  split
  · rename_i hyx
    exact h.px y x k hyx.1 hyx.2 (by rwa [planes_length] at h1)
  · rfl

/-- A tree with an array of the announced shape. -/
def Displayed (E : Env V) (n : Node) : Prop := ∃ i, fin E n = .ok i ∧ HasShape n i

theorem seen_warp {g : Algo → ℚ × ℚ → (Int → Int → Option V) → V} (hg : Env.Linear E g) (hE : Env.Shaped E) {s : Node}
    (hs : Displayed E s) {tf : Affine} {d : Int × Int} {a : Algo} (ht : Upright tf) (ha : a.interp = .other 0)
    (hm : Mild tf a) :
    seen E (.warp s tf d a) = (seen E s).map (warped g E.nan a tf s.dsize d) := by
  obtain ⟨i, ei, hi⟩ := hs
  have e : fin E (.warp s tf d a) = .ok (E.warp tf d a i) := by
    simp only [fin, ei, finWarp]
    rw [if_neg (by rw [ha]; simp)]
  have hsh := hE.warp tf d a i
  simp only [Prod.mk.injEq] at hsh
  obtain ⟨s1, s2, s3⟩ := hsh
  rw [seen_planes _ _ e, seen_planes _ _ ei]
  apply List.ext_getElem
  · rw [List.length_map, planes_length, planes_length, s3]
  intro k h1 h2
  rw [planes_length, s3] at h1
  funext y x
  rw [planes_getElem, List.getElem_map, warped, s1, s2]
  by_cases hyx : (y : Int) < d.2 ∧ (x : Int) < d.1
  · rw [if_pos (by omega), if_pos hyx, hg.warp tf d a i ht ha hm y x k hyx.1 hyx.2 h1]
    congr 1
    funext v u
    have e1 := hi.h
    have e2 := hi.w
    simp only [onGrid, e1, e2, Prod.mk.eta]
    by_cases hvu : 0 ≤ v ∧ v < s.dsize.2 ∧ 0 ≤ u ∧ u < s.dsize.1
    · rw [if_pos hvu, if_pos hvu, planes_getElem, if_pos (by omega)]
    · rw [if_neg hvu, if_neg hvu]
  · rw [if_neg (by omega), if_neg hyx]

theorem seen_dequant {s : Node} (hs : Displayed E s) (q : Quantization) (d : Int × Int) :
    seen E (.dequant s q d) = (seen E s).map (planeDeq E q s.dsize) := by
  obtain ⟨i, ei, hi⟩ := hs
  have e : fin E (.dequant s q d) = .ok { i with px := fun y x k => E.deq q (i.px y x k) } := by
    simp only [fin, ei]
  rw [seen_planes _ _ e, seen_planes _ _ ei]
  apply List.ext_getElem
  · rw [List.length_map, planes_length, planes_length]
  intro k h1 h2
  funext y x
  rw [planes_getElem, List.getElem_map, planeDeq, planes_getElem]
  have e1 := hi.h
  have e2 := hi.w
  simp only
  by_cases hyx : y < i.h ∧ x < i.w
  · rw [if_pos hyx, if_pos (by omega), if_pos hyx]
  · rw [if_neg hyx, if_neg (by omega)]

theorem seen_length {n : Node} (hn : Displayed E n) : (seen E n).length = n.nchan := by
  obtain ⟨i, ei, hi⟩ := hn
  rw [seen_planes _ _ ei, planes_length, hi.n]

theorem seen_crop {s : Node} (hs : Displayed E s) {y0 y1 x0 x1 : Int} {c : Option (List Nat)} (hc : IdxOk s.nchan c)
    (hy0 : 0 ≤ y0) (hy : y0 ≤ y1) (hy1 : y1 ≤ s.dsize.2) (hx0 : 0 ≤ x0) (hx : x0 ≤ x1) (hx1 : x1 ≤ s.dsize.1) :
    seen E (.crop s y0 y1 x0 x1 c) = (chosen E.nan c (seen E s)).map (cropped E.nan y0 y1 x0 x1) := by
  obtain ⟨i, ei, hi⟩ := hs
  have e1 := hi.h
  have e2 := hi.w
  obtain ⟨l1, l2, l3⟩ := slice_shape i hy0 hy (by omega) hx0 hx (by omega)
  have hsel := select_ok (i.slice (some y0, some y1) (some x0, some x1)) (c := c) (by rw [l3, hi.n]; exact hc)
  have e : fin E (.crop s y0 y1 x0 x1 c) = (i.slice (some y0, some y1) (some x0, some x1)).select c := by
    simp only [fin, ei]
  rw [seen_planes _ _ (e.trans hsel), seen_planes _ _ ei]
  apply List.ext_getElem
  · rw [List.length_map, planes_length, l3]
    cases c with
    | none => simp [chosen, selLen, planes_length]
    | some c => simp [chosen, selLen, pick]
  intro k h1 h2
  rw [planes_length] at h1
  simp only [l3] at h1
  have hk : selAt c k < i.n ∧ ∀ h, (chosen E.nan c (planes E.nan i))[k]'h =
      (planes E.nan i).getD (selAt c k) (fun _ _ => E.nan) := by
    cases c with
    | none =>
      refine ⟨h1, fun h => ?_⟩
      simp only [chosen, selAt]
      rw [List.getD_eq_getElem _ _ (by rw [planes_length]; exact h1)]
    | some c =>
      have hkc : k < c.length := h1
      constructor
      · rw [hi.n]
        apply hc
        simp only [selAt]
        rw [List.getD_eq_getElem _ _ hkc]
        exact List.getElem_mem _
      · intro h
        simp only [chosen, selAt, pick, List.getElem_map]
        rw [List.getD_eq_getElem c _ hkc]
  funext y x
  rw [planes_getElem, List.getElem_map, hk.2]
  simp only [cropped]
  by_cases hyx : (y : Int) < y1 - y0 ∧ (x : Int) < x1 - x0
  · rw [if_pos (by omega), if_pos hyx, planes_get E.nan i hk.1 (by omega) (by omega)]
    simp only [Img.slice]
    rw [npSlice_range _ _ _ hy0 hy (by omega), npSlice_range _ _ _ hx0 hx (by omega)]
    rw [List.getD_eq_getElem _ _ (by simp; omega), List.getD_eq_getElem (l := List.map _ _) _ (by simp; omega)]
    simp
  · rw [if_neg (by omega), if_neg hyx]

/-! #### a crop of a warp -/

theorem upright_inv {tf : Affine} (h : Upright tf) (p : ℚ × ℚ) :
    tf.inv.app p = ((p.1 - tf.tx) / tf.a, (p.2 - tf.ty) / tf.d) := by
  obtain ⟨hb, hc, ha, hd⟩ := h
  have := ha.ne'
  have := hd.ne'
  simp only [Affine.app, Affine.inv, Affine.det, hb, hc, Prod.mk.injEq]
  constructor <;> (field_simp; ring)

/-- The transform of the rewritten crop goes with its window, or the window is empty. -/
theorem warpAfterCrop_window {s inner : Node} (hs : Nonneg s.dsize) {tf tf' : Affine} (htf : Upright tf)
    {y0 y1 x0 x1 : Int} {c : Option (List Nat)} (h : warpAfterCrop s tf y0 y1 x0 x1 c = .ok (some (inner, tf'))) :
    ∃ iy0 iy1 ix0 ix1, inner = .crop s iy0 iy1 ix0 ix1 c ∧
      (0 ≤ iy0 ∧ iy0 ≤ iy1 ∧ iy1 ≤ s.dsize.2) ∧ (0 ≤ ix0 ∧ ix0 ≤ ix1 ∧ ix1 ≤ s.dsize.1) ∧
      Upright tf' ∧ tf'.a = tf.a ∧ tf'.d = tf.d ∧
      ((tf'.tx = tf.tx + tf.a * ix0 - x0 ∧ tf'.ty = tf.ty + tf.d * iy0 - y0) ∨ iy0 = iy1 ∨ ix0 = ix1) := by
  obtain ⟨hs1, hs2⟩ := hs
  simp only [warpAfterCrop] at h
  split at h
  · cases h
  split at h
  · cases h
  rename_i inner' hm
  simp only [Except.ok.injEq, Option.some.injEq, Prod.mk.injEq] at h
  obtain ⟨rfl, rfl⟩ := h
  have hup : tf.b = 0 ∧ tf.c = 0 ∧ 0 < tf.a ∧ 0 < tf.d := htf
  rw [innerSlice, if_pos hup] at hm ⊢
  obtain ⟨gx0, gx1, _⟩ := axisFast_spec s.dsize.1 tf.a tf.tx htf.2.2.1 x0 x1
  obtain ⟨gy0, gy1, _⟩ := axisFast_spec s.dsize.2 tf.d tf.ty htf.2.2.2 y0 y1
  refine ⟨_, _, _, _, mkCrop_ints hm, ?_, ?_, ⟨rfl, rfl, htf.2.2⟩, rfl, rfl, ?_⟩
  · simp only [normBound]; omega
  · simp only [normBound]; omega
  · simp only at gx1 gy1 ⊢
    rw [gx1, gy1]
    generalize (axisFast s.dsize.1 tf.a tf.tx x0 x1).1 = lx at *
    generalize (axisFast s.dsize.2 tf.d tf.ty y0 y1).1 = ly at *
    by_cases hx : lx ≤ s.dsize.1
    · by_cases hy : ly ≤ s.dsize.2
      · rw [normBound_id gx0 hx, normBound_id gy0 hy]
        exact .inl ⟨rfl, rfl⟩
      · right; left
        simp only [normBound]; omega
    · right; right
      simp only [normBound]; omega

/-- A channel warped and cropped is the channel cropped to what is needed and warped. -/
theorem warped_cropped {g : Algo → ℚ × ℚ → (Int → Int → Option V) → V} (hg : Env.Linear E g) {s : Node}
    (hs : Nonneg s.dsize) {tf tf' : Affine} (ht : Upright tf) {d : Int × Int} {a : Algo} {y0 y1 x0 x1 : Int}
    {c : Option (List Nat)} {iy0 iy1 ix0 ix1 : Int}
    (h : warpAfterCrop s tf y0 y1 x0 x1 c = .ok (some (.crop s iy0 iy1 ix0 ix1 c, tf')))
    (hy0 : 0 ≤ y0) (hx0 : 0 ≤ x0) (hy1 : y1 ≤ d.2) (hx1 : x1 ≤ d.1) (f : Nat → Nat → V) :
    cropped E.nan y0 y1 x0 x1 (warped g E.nan a tf s.dsize d f) =
      warped g E.nan a.common tf' (ix1 - ix0, iy1 - iy0) (x1 - x0, y1 - y0) (cropped E.nan iy0 iy1 ix0 ix1 f) := by
  obtain ⟨iy0', iy1', ix0', ix1', e, hy, hx, ht', ea, ed, hw⟩ := warpAfterCrop_window hs ht h
  cases e
  obtain ⟨jy0, jy1, jx0, jx1, e, cov⟩ := C32_geometry_and_coverage_partial (by
    simp only [Affine.det, ht.1, ht.2.1, mul_zero, sub_zero]
    exact (mul_pos ht.2.2.1 ht.2.2.2).ne') h
  cases e
  funext y x
  simp only [cropped, warped]
  by_cases hyx : (y : Int) < y1 - y0 ∧ (x : Int) < x1 - x0
  swap
  · rw [if_neg hyx, if_neg hyx]
  rw [if_pos hyx, if_pos hyx, if_pos (by omega), hg.common]
  have hc : ctr (y0.toNat + y) (x0.toNat + x) = centre x0 y0 x y := by
    have e1 : ((y0.toNat : Nat) : ℚ) = y0 := by exact_mod_cast Int.toNat_of_nonneg hy0
    have e2 : ((x0.toNat : Nat) : ℚ) = x0 := by exact_mod_cast Int.toNat_of_nonneg hx0
    simp only [ctr, centre, Nat.cast_add, e1, e2, Int.cast_natCast]
  rw [hc]
  have hcov : ∀ i j : Int, 0 ≤ i → i < s.dsize.1 → 0 ≤ j → j < s.dsize.2 →
      Needs (tf.inv.app (centre x0 y0 x y)) i j → ix0 ≤ i ∧ i < ix1 ∧ iy0 ≤ j ∧ j < iy1 :=
    fun i j h1 h2 h3 h4 hn => (cov x y i j (by omega) hyx.2 (by omega) hyx.1 h1 h2 h3 h4 hn (.inl ht)).1
  have hin : ∀ v u : Int, onGrid (ix1 - ix0, iy1 - iy0) (cropped E.nan iy0 iy1 ix0 ix1 f) v u =
      if 0 ≤ v ∧ v < iy1 - iy0 ∧ 0 ≤ u ∧ u < ix1 - ix0 then some (f (iy0 + v).toNat (ix0 + u).toNat) else none := by
    intro v u
    simp only [onGrid, cropped]
    by_cases hvu : 0 ≤ v ∧ v < iy1 - iy0 ∧ 0 ≤ u ∧ u < ix1 - ix0
    · rw [if_pos hvu, if_pos hvu, if_pos (by omega)]
      congr 2 <;> omega
    · rw [if_neg hvu, if_neg hvu]
  rcases hw with ⟨w1, w2⟩ | hempty
  · have hp : tf.inv.app (centre x0 y0 x y) =
        ((tf'.inv.app (ctr y x)).1 + ix0, (tf'.inv.app (ctr y x)).2 + iy0) := by
      rw [upright_inv ht, upright_inv ht', ea, ed, w1, w2]
      have := ht.2.2.1.ne'
      have := ht.2.2.2.ne'
      simp only [centre, ctr, Prod.mk.injEq, Int.cast_natCast]
      constructor <;> (field_simp; ring)
    rw [← hg.shift a (tf'.inv.app (ctr y x)) _ ix0 iy0, ← hp]
    apply hg.near
    intro v u hn
    rw [hin]
    simp only [onGrid]
    by_cases hvu : 0 ≤ v ∧ v < s.dsize.2 ∧ 0 ≤ u ∧ u < s.dsize.1
    · have := hcov u v hvu.2.2.1 hvu.2.2.2 hvu.1 hvu.2.1 hn
      rw [if_pos hvu, if_pos (by omega)]
      congr 3 <;> omega
    · rw [if_neg hvu, if_neg (by omega)]
  · have e1 : g a (tf'.inv.app (ctr y x)) (onGrid (ix1 - ix0, iy1 - iy0) (cropped E.nan iy0 iy1 ix0 ix1 f)) =
        g a (tf'.inv.app (ctr y x)) (fun _ _ => none) := by
      congr 1
      funext v u
      rw [hin, if_neg (by omega)]
    rw [e1, hg.away a _ (tf.inv.app (centre x0 y0 x y))]
    apply hg.near
    intro v u hn
    simp only [onGrid]
    rw [if_neg]
    intro hvu
    have := hcov u v hvu.2.2.1 hvu.2.2.2 hvu.1 hvu.2.1 hn
    omega

/-- The identity changes nothing. -/
theorem warped_id {g : Algo → ℚ × ℚ → (Int → Int → Option V) → V} (hg : Env.Linear E g) {n : Node} (hn : Displayed E n)
    (a : Algo) : (seen E n).map (warped g E.nan a .id n.dsize n.dsize) = seen E n := by
  obtain ⟨i, ei, hi⟩ := hn
  rw [seen_planes _ _ ei]
  apply List.ext_getElem
  · rw [List.length_map]
  intro k h1 h2
  have e1 := hi.h
  have e2 := hi.w
  funext y x
  rw [List.getElem_map, planes_getElem, warped]
  by_cases hyx : y < i.h ∧ x < i.w
  · rw [if_pos hyx, if_pos (by omega)]
    have e : Affine.id.inv.app (ctr y x) = (((x : Int) : ℚ) + 1 / 2, ((y : Int) : ℚ) + 1 / 2) := by
      rw [upright_inv ⟨rfl, rfl, by norm_num [Affine.id], by norm_num [Affine.id]⟩]
      simp [Affine.id, ctr]
    rw [e]
    apply hg.centre
    simp only [onGrid]
    rw [if_pos (by omega), Int.toNat_natCast, Int.toNat_natCast, planes_getElem, if_pos hyx]
  · rw [if_neg hyx, if_neg (by omega)]

/-! #### the rewrites -/

/-- The images considered here. -/
structure Interpolated (E : Env V) (b : Bool) (K : Algo → Prop) (n : Node) : Prop where
  base : Plain n ∧ Each (Present b E) n
  once : OnceIf K n

/-- The same size and the same channels. -/
structure Lookalike (E : Env V) (n m : Node) : Prop where
  size : m.dsize = n.dsize ∧ m.nchan = n.nchan
  flat : Flat n → Flat m
  seen : seen E m = seen E n

theorem displayed_of (hE : Env.Shaped E) {n : Node} (hw : WF n) (hf : Fit n)
    (hm : Each (Present b E) n) (hs : Smooth n) : Displayed E n := by
  have hm' : Each E.Matches n := each_imp (fun _ h => h.2) _ hm
  obtain ⟨i, ei⟩ := fin_total hE n hw hf hm' hs
  exact ⟨i, ei, fin_shape hE n hw hf hm' i ei⟩

theorem Interpolated.displayed {K : Algo → Prop} (hE : Env.Shaped E) {n : Node} (h : Interpolated E b K n) :
    Displayed E n :=
  displayed_of hE h.base.1.wf h.base.1.fit h.base.2 h.once.smooth

theorem nanCrop_form {l : Leaf} {y0 y1 x0 x1 : Int} {c : Option (List Nat)} {r : Node}
    (hr : nanCrop l y0 y1 x0 x1 c = .ok r) : ∃ d names, r = nanLeaf l.id d names := by
  unfold nanCrop at hr
  split at hr
  · cases hr
  · split at hr
    · cases hr
    · split at hr
      · cases hr
      · cases hr; exact ⟨_, _, rfl⟩

/-- The channels of an image without data. -/
theorem seen_nan {l : Leaf} (hn : l.nan = true) (hd : Displayed E (.leaf l)) :
    seen E (.leaf l) = List.replicate l.nchan (fun _ _ => E.nan) := by
  obtain ⟨i, ei, -⟩ := hd
  rw [seen_planes _ _ ei]
  simp only [fin, hn, if_true] at ei
  split at ei
  · cases ei
  · cases ei
    rw [List.eq_replicate_iff]
    refine ⟨planes_length _ _, fun f hf => ?_⟩
    obtain ⟨k, -, rfl⟩ := List.mem_map.1 hf
    funext y x
    exact ite_self _

theorem chosen_replicate (nan : V) {k : Nat} {c : Option (List Nat)} (hc : IdxOk k c) :
    chosen nan c (List.replicate k fun _ _ => nan) =
      List.replicate (match c with | none => k | some c => c.length) (fun _ _ => nan) := by
  cases c with
  | none => rfl
  | some c =>
    simp only [chosen, pick]
    rw [List.eq_replicate_iff]
    refine ⟨by simp, fun f hf => ?_⟩
    obtain ⟨i, hi, rfl⟩ := List.mem_map.1 hf
    rw [List.getD_eq_getElem _ _ (by simpa using hc i hi), List.getElem_replicate]

theorem fileRules (H : Heur) (b : Bool) (E : Env V) :
    Rules H (fun n => Plain n ∧ Each (Present b E) n)
      (fun n m => m.dsize = n.dsize ∧ m.nchan = n.nchan) :=
  keepRulesIn H (sizeRules H) (firm_each _) (fun _ hc ht => takeIdx_each _ hc _ _ ht)
    (fun _ hn hl => ⟨fun _ => hl.1 hn, fun h => by cases h⟩) (fun _ hn hl hr => by
      obtain ⟨d, names, rfl⟩ := nanCrop_form hr
      exact ⟨fun _ => hl.1 hn, fun h => by cases h⟩)

theorem once_take {K : Algo → Prop} : TakeStable (OnceIf K) where
  parts := fun h p hp => (OnceIfL_iff _).1 h p hp
  concat := by
    intro ps qs d c _ hq hc
    obtain ⟨d', rfl, _, _⟩ := mkConcat_ok hc
    exact (OnceIfL_iff _).2 fun q hq' => (hq q hq').1
  nan := fun _ => trivial
  crop := by
    intro p idxs t _ hp _ h
    rw [mkCrop_none_form h]; exact hp

theorem chosen_map (nan : V) {l : List (Nat → Nat → V)} {c : Option (List Nat)} (hc : IdxOk l.length c)
    (f : (Nat → Nat → V) → (Nat → Nat → V)) : chosen nan c (l.map f) = (chosen nan c l).map f := by
  cases c with
  | none => rfl
  | some c =>
    simp only [chosen, pick, List.map_map]
    apply List.map_congr_left
    intro k hk
    have := hc k hk
    simp only [Function.comp]
    rw [List.getD_eq_getElem _ _ (by simpa using this), List.getD_eq_getElem _ _ this, List.getElem_map]

theorem forall₂_flatMap_eq {β : Type} {f : Node → List β} {ps qs : List Node}
    (h : List.Forall₂ (fun p q => f q = f p) ps qs) : qs.flatMap f = ps.flatMap f := by
  induction h with
  | nil => rfl
  | cons h _ ih => rw [List.flatMap_cons, List.flatMap_cons, h, ih]

theorem forall₂_flatMap_map {β : Type} {f : Node → List β} {w : β → β} {ps qs : List Node}
    (h : List.Forall₂ (fun p q => f q = (f p).map w) ps qs) : qs.flatMap f = (ps.flatMap f).map w := by
  induction h with
  | nil => rfl
  | cons h _ ih => rw [List.flatMap_cons, List.flatMap_cons, h, ih, List.map_append]

/-- The conditions on the parameters of warps. -/
structure Terms (H : Heur) (b : Bool) (K : Algo → Prop) : Prop where
  negl : ∀ a m, K a → H.negl a.noopEps m = true → m = .id
  common : ∀ a : Algo, K a → K a.common
  border : b = true → ∀ a, K a → a.border = none

/-- `optimize` keeps the channels of such images. -/
theorem onceRules (H : Heur) {K : Algo → Prop} (hK : Terms H b K)
    (hE : Env.Shaped E) {g : Algo → ℚ × ℚ → (Int → Int → Option V) → V}
    (hg : Env.Linear E g) (hV : b = true → Env.Void E g) :
    Rules H (Interpolated E b K) (Lookalike E) where
  refl := fun n => ⟨(fileRules H b E).refl n, fun h => h, rfl⟩
  trans := fun h1 h2 => ⟨(fileRules H b E).trans h1.size h2.size, fun h => h2.flat (h1.flat h), h2.seen.trans h1.seen⟩
  sub := by
    intro n x hn h
    refine ⟨(fileRules H b E).sub hn.base h, ?_⟩
    have ho := hn.once
    cases n with
    | leaf l => simp [subOf] at h
    | concat _ _ => simp [subOf] at h
    | warp s _ _ _ => cases h; exact Flat.once ho.1
    | crop s _ _ _ _ _ => cases h; exact ho
    | overview s _ _ => exact ho.elim
    | dequant s _ _ => cases h; exact Flat.once ho
  parts := fun h p hp => ⟨(fileRules H b E).parts h.base p hp, (OnceIfL_iff _).1 h.once p hp⟩
  same := fun h => (fileRules H b E).same h.base
  nan := fun h => (fileRules H b E).nan h.base
  cong := by
    intro n x x' hn hx hx' hs
    obtain ⟨w1, w2⟩ := (fileRules H b E).cong hn.base hx hx'.base hs.size
    have ho := hn.once
    have hd' := hx'.displayed hE
    cases n with
    | leaf l => simp [subOf] at hx
    | concat _ _ => simp [subOf] at hx
    | warp s tf d a =>
      cases hx
      have hsd := displayed_of hE hn.base.1.wf.1 hn.base.1.fit.2 hn.base.2 (Flat.smooth ho.1)
      refine ⟨⟨w1, hs.flat ho.1, ho.2⟩, w2, fun h => h.elim, ?_⟩
      rw [setSub, seen_warp hg hE hd' ho.2.1 ho.2.2.1 ho.2.2.2.1, seen_warp hg hE hsd ho.2.1 ho.2.2.1 ho.2.2.2.1,
        hs.seen, hs.size.1]
    | crop s y0 y1 x0 x1 c =>
      cases hx
      have hsd := displayed_of hE hn.base.1.wf.1 hn.base.1.fit.1 hn.base.2 (OnceIf.smooth ho)
      obtain ⟨_, f1, f2, f3, f4⟩ := hn.base.1.fit
      obtain ⟨_, g1, g2, g3⟩ := hn.base.1.wf
      refine ⟨⟨w1, hx'.once⟩, w2, fun h => hs.flat h, ?_⟩
      rw [setSub, seen_crop hd' (by rw [hs.size.2]; exact g3) g1 f1 (by rw [hs.size.1]; exact f2) g2 f3
        (by rw [hs.size.1]; exact f4), seen_crop hsd g3 g1 f1 f2 g2 f3 f4, hs.seen]
    | overview s _ _ => exact ho.elim
    | dequant s q d =>
      cases hx
      have hsd : Displayed E x := displayed_of hE hn.base.1.wf hn.base.1.fit.1 hn.base.2 (Flat.smooth ho)
      refine ⟨⟨w1, hs.flat ho⟩, w2, fun h => hs.flat h, ?_⟩
      rw [setSub, seen_dequant hd', seen_dequant hsd, hs.seen, hs.size.1]
  concat := by
    intro ps d qs c hn hf hc
    obtain ⟨w1, w2⟩ := (fileRules H b E).concat hn.base (hf.imp fun _ _ h => ⟨h.1.base, h.2.size⟩) hc
    obtain ⟨d', rfl, _, _⟩ := mkConcat_ok hc
    refine ⟨⟨w1, (OnceIfL_iff _).2 fun q hq => ?_⟩, w2, fun h => ?_, ?_⟩
    · obtain ⟨p, _, h⟩ := forall₂_mem_right hf hq
      exact h.1.once
    · refine (FlatL_iff _).2 fun q hq => ?_
      obtain ⟨p, hp, h'⟩ := forall₂_mem_right hf hq
      exact h'.2.flat ((FlatL_iff _).1 h p hp)
    · rw [seen, seen, seenL_eq, seenL_eq]
      exact forall₂_flatMap_eq (hf.imp fun _ _ h => h.2.seen)
  push := by
    intro n ps d c hn hsub hsel h
    obtain ⟨w1, w2⟩ := (fileRules H b E).push hn.base hsub hsel h
    obtain ⟨qs, rfl, hne, hnn, hm, hps, hqs⟩ := push_size hn.base.1.wf hn.base.1.fit hsub h
    have hpar : ∀ p ∈ ps, Each E.Matches p := fun p hp =>
      each_imp (fun _ h => h.2) _ ((fileRules H b E).parts ((fileRules H b E).sub hn.base hsub) p hp).2
    have hdis : ∀ p ∈ ps, Smooth p → Displayed E p := by
      intro p hp hsm
      obtain ⟨_, hfp, hwp⟩ := hps p hp
      obtain ⟨i, ei⟩ := fin_total hE p hwp hfp (hpar p hp) hsm
      exact ⟨i, ei, fin_shape hE p hwp hfp (hpar p hp) i ei⟩
    have ho := hn.once
    cases n with
    | leaf l => simp [subOf] at hsub
    | concat _ _ => simp [subOf] at hsub
    | warp s tf dw a =>
      cases hsub
      have hfl := (FlatL_iff _).1 ho.1
      refine ⟨⟨w1, (OnceIfL_iff _).2 fun q hq => ?_⟩, w2, fun h => h.elim, ?_⟩
      · obtain ⟨p, hp, e⟩ := forall₂_mem_right hm hq
        cases e
        exact ⟨hfl p hp, ho.2⟩
      · have hcat : Displayed E (.concat ps d) := displayed_of hE hn.base.1.wf.1 hn.base.1.fit.2 hn.base.2
            (Flat.smooth ho.1)
        rw [seen_warp hg hE hcat ho.2.1 ho.2.2.1 ho.2.2.2.1, seen, seen, seenL_eq, seenL_eq]
        refine forall₂_flatMap_map (forall₂_imp_left hm fun p hp q e => ?_)
        cases e
        rw [seen_warp hg hE (hdis p hp (Flat.smooth (hfl p hp))) ho.2.1 ho.2.2.1 ho.2.2.2.1, (hps p hp).1]
        rfl
    | crop s y0 y1 x0 x1 ci =>
      cases hsub
      cases ci with
      | some _ => exact (hsel trivial).elim
      | none =>
        have hfl := (OnceIfL_iff _).1 ho
        obtain ⟨_, f1, f2, f3, f4⟩ := hn.base.1.fit
        obtain ⟨_, g1, g2, g3⟩ := hn.base.1.wf
        have hre : ∀ p ∈ ps, ∀ q, reapply (.crop (.concat ps d) y0 y1 x0 x1 none) p = .ok q →
            q = .crop p y0 y1 x0 x1 none := fun p hp q e => by
          have ed := (hps p hp).1
          exact mkCrop_fit e g1 g2 f1 (by rw [ed]; exact f2) f3 (by rw [ed]; exact f4)
        refine ⟨⟨w1, (OnceIfL_iff _).2 fun q hq => ?_⟩, w2, fun h => (FlatL_iff _).2 fun q hq => ?_, ?_⟩
        · obtain ⟨p, hp, e⟩ := forall₂_mem_right (forall₂_imp_left hm fun p hp q e => And.intro hp (hre p hp q e)) hq
          rw [e.2]; exact hfl p e.1
        · obtain ⟨p, hp, e⟩ := forall₂_mem_right (forall₂_imp_left hm fun p hp q e => And.intro hp (hre p hp q e)) hq
          rw [e.2]; exact (FlatL_iff _).1 h p e.1
        · have hcat : Displayed E (.concat ps d) := displayed_of hE hn.base.1.wf.1 hn.base.1.fit.1 hn.base.2
              (OnceIf.smooth ho)
          rw [seen_crop hcat g3 g1 f1 f2 g2 f3 f4, seen, seen, seenL_eq, seenL_eq]
          refine forall₂_flatMap_map (forall₂_imp_left hm fun p hp q e => ?_)
          rw [hre p hp q e]
          have ed := (hps p hp).1
          rw [seen_crop (hdis p hp (OnceIf.smooth (hfl p hp))) (c := none) trivial g1 f1 (by rw [ed]; exact f2) g2 f3
            (by rw [ed]; exact f4)]
          rfl
    | overview s k dw => exact ho.elim
    | dequant s q dw =>
      cases hsub
      have hfl := (FlatL_iff _).1 ho
      refine ⟨⟨w1, (OnceIfL_iff _).2 fun q hq => ?_⟩, w2, fun h => (FlatL_iff _).2 fun q hq => ?_, ?_⟩
      · obtain ⟨p, hp, e⟩ := forall₂_mem_right hm hq
        cases e
        exact hfl p hp
      · obtain ⟨p, hp, e⟩ := forall₂_mem_right hm hq
        cases e
        exact hfl p hp
      · have hcat : Displayed E (.concat ps d) := displayed_of hE hn.base.1.wf hn.base.1.fit.1 hn.base.2 (Flat.smooth
            ho)
        rw [seen_dequant hcat, seen, seen, seenL_eq, seenL_eq]
        refine forall₂_flatMap_map (forall₂_imp_left hm fun p hp q' e => ?_)
        cases e
        rw [mkDequant, seen_dequant (hdis p hp (Flat.smooth (hfl p hp))), (hps p hp).1]
        rfl
  fuseWarps := fun h => h.once.1.elim
  idWarp := by
    intro s tf d a h hd hn
    have ho := h.once
    cases hK.negl _ _ ho.2.2.2.2 hn
    have hsd : Displayed E s := displayed_of hE h.base.1.wf.1 h.base.1.fit.2 h.base.2 (Flat.smooth ho.1)
    refine ⟨(fileRules H b E).idWarp h.base hd hn, fun h => h.elim, ?_⟩
    rw [seen_warp hg hE hsd ho.2.1 ho.2.2.1 ho.2.2.2.1, hd, warped_id hg hsd]
  nanWarp := by
    intro l tf d a h hn
    obtain ⟨w1, w2⟩ := (fileRules H b E).nanWarp h.base hn
    have hnd : Displayed E (nanLeaf l.id d l.names) := displayed_of hE w1.1.wf w1.1.fit w1.2 trivial
    have ho := h.once
    have v1 := hV (h.base.2.1 hn)
    have v2 := hK.border (h.base.2.1 hn)
    have hsd : Displayed E (.leaf l) := displayed_of hE h.base.1.wf.1 h.base.1.fit.2 h.base.2 trivial
    refine ⟨⟨w1, trivial⟩, w2, fun _ => trivial, ?_⟩
    rw [seen_warp hg hE hsd ho.2.1 ho.2.2.1 ho.2.2.2.1, seen_nan hn hsd, nanLeaf, seen_nan rfl hnd, List.map_replicate]
    have e : (nanLeaf l.id d l.names : Node).nchan = l.nchan := w2.2
    have e2 : warped g E.nan a tf (Node.leaf l : Node).dsize d (fun _ _ => E.nan) = fun _ _ => E.nan := by
      funext y x
      simp only [warped, v1 _ _ _ (v2 a ho.2.2.2.2), ite_self]
    rw [e2]
    exact congrArg (fun k => List.replicate k _) e
  splitWarp := fun h hnum hne => absurd (numOverviews_noOv _ h.base.1.noOv _ hnum) hne
  splitOv := fun h hnum hne => absurd (numOverviews_noOv _ h.base.1.noOv _ hnum) hne
  splitCrop := fun h hnum hne => absurd (numOverviews_noOv _ h.base.1.noOv _ hnum) hne
  absorb := by
    intro s tf d a num r h _ hr
    unfold absorb at hr
    split at hr
    · cases hr; exact ⟨h, ⟨rfl, rfl⟩, fun h => h, rfl⟩
    · rw [look_noOv 4 s h.base.1.noOv] at hr
      cases hr; exact ⟨h, ⟨rfl, rfl⟩, fun h => h, rfl⟩
  nanCrop := by
    intro l y0 y1 x0 x1 c r h hn hr
    obtain ⟨w1, w2⟩ := (fileRules H b E).nanCrop h.base hn hr
    have hsd : Displayed E (.leaf l) := displayed_of hE h.base.1.wf.1 h.base.1.fit.1 h.base.2 trivial
    obtain ⟨_, f5, f6, f7, f8⟩ := h.base.1.fit
    obtain ⟨g0, g4, g5, g6⟩ := h.base.1.wf
    obtain ⟨d, names, rfl⟩ := nanCrop_form hr
    have hnd : Displayed E (nanLeaf l.id d names) := displayed_of hE w1.1.wf w1.1.fit w1.2 trivial
    refine ⟨⟨w1, trivial⟩, w2, fun _ => trivial, ?_⟩
    have gc : IdxOk l.nchan c := g6
    rw [seen_crop hsd g6 g4 f5 f6 g5 f7 f8, seen_nan hn hsd, nanLeaf, seen_nan rfl hnd, chosen_replicate _ gc,
        List.map_replicate]
    have e2 : cropped E.nan y0 y1 x0 x1 (fun _ _ => E.nan) = fun _ _ => E.nan := by
      funext y x
      simp [cropped]
    rw [e2]
    refine congrArg (fun k => List.replicate k _) (w2.2.trans ?_)
    cases c <;> rfl
  fuseCrops := by
    intro s iy0 iy1 ix0 ix1 ic y0 y1 x0 x1 c r h hr
    obtain ⟨w1, w2⟩ := (fileRules H b E).fuseCrops h.base hr
    have ho := h.once
    obtain ⟨i, ei, hi⟩ : Displayed E s := displayed_of hE h.base.1.wf.1.1 h.base.1.fit.1.1 h.base.2 (OnceIf.smooth ho)
    obtain ⟨⟨_, f1, f2, f3, f4⟩, f5, f6, f7, f8⟩ := h.base.1.fit
    obtain ⟨⟨g0, g1, g2, g3⟩, g4, g5, g6⟩ := h.base.1.wf
    obtain ⟨r', hr', ⟨a1, b1, a2, b2, nc, rfl⟩, hag⟩ := C25_crop_of_crop E g0 ei ⟨hi.h, hi.w, hi.n, fun l =>
        channels_length s l g0⟩ ⟨g1, f1, f2⟩ ⟨g2, f3, f4⟩
      ⟨g4, f5, f6⟩ ⟨g5, f7, f8⟩ g3 g6
    rw [hr] at hr'
    cases hr'
    obtain ⟨j1, e1, _⟩ := (Interpolated.mk (b := b) (K := K) w1 ho).displayed hE
    obtain ⟨j2, e2, _⟩ := h.displayed hE
    refine ⟨⟨w1, ho⟩, w2, fun h => h, ?_⟩
    rw [e1, e2] at hag
    rw [seen_planes _ _ e1, seen_planes _ _ e2]
    exact planes_of_same hag
  warpAfterCrop := by
    intro s tf d a y0 y1 x0 x1 c inner tf' h hr
    obtain ⟨w1, w2⟩ := (fileRules H b E).warpAfterCrop h.base hr
    have ho := h.once
    obtain ⟨⟨hnn, fs⟩, f5, f6, f7, f8⟩ := h.base.1.fit
    obtain ⟨g0, g4, g5, g6⟩ := h.base.1.wf
    have hsn := fs.nonneg g0.1
    have hsd : Displayed E s := displayed_of hE g0.1 fs h.base.2 (Flat.smooth ho.1)
    have hwd : Displayed E (.warp s tf d a) := ((Interpolated.mk (b := b) (K := K) ((fileRules H b E).sub h.base rfl)
        ho)).displayed hE
    obtain ⟨iy0, iy1, ix0, ix1, rfl, hy, hx, ht', ea, ed, _⟩ := warpAfterCrop_window hsn ho.2.1 hr
    have hmild : Mild tf' a.common := by
      have := ho.2.2.2.1
      simp only [Mild, Algo.common] at this ⊢
      rw [ea, ed]; exact this
    have hP : Interpolated E b K (.warp (.crop s iy0 iy1 ix0 ix1 c) tf' (x1 - x0, y1 - y0) a.common) :=
      ⟨w1, ho.1, ht', ho.2.2.1, hmild, hK.common _ ho.2.2.2.2⟩
    have hid : Displayed E (.crop s iy0 iy1 ix0 ix1 c) :=
      (Interpolated.mk (b := b) (K := K) ((fileRules H b E).sub w1 rfl) (Flat.once (K := K) (n := .crop s iy0 iy1 ix0
          ix1 c) ho.1)).displayed hE
    refine ⟨hP, w2, fun h => h.elim, ?_⟩
    have gc : IdxOk s.nchan c := g6
    rw [seen_warp hg hE hid ht' (a := a.common) ho.2.2.1 hmild, seen_crop hwd g6 g4 f5 f6 g5 f7 f8,
      seen_crop hsd gc hy.1 hy.2.1 hy.2.2 hx.1 hx.2.1 hx.2.2, seen_warp hg hE hsd ho.2.1 ho.2.2.1 ho.2.2.2.1,
      chosen_map E.nan (by rw [seen_length hsd]; exact gc), List.map_map, List.map_map]
    apply List.map_congr_left
    intro f _
    exact (warped_cropped hg hsn ho.2.1 hr g4 g5 f6 f8 f).symm
  dequantCrop := by
    intro s q d y0 y1 x0 x1 c h
    obtain ⟨w1, w2⟩ := (fileRules H b E).dequantCrop h.base
    have ho : Flat s := h.once
    obtain ⟨⟨fs, fd⟩, f5, f6, f7, f8⟩ := h.base.1.fit
    obtain ⟨g0, g4, g5, g6⟩ := h.base.1.wf
    have hsd : Displayed E s := displayed_of hE g0 fs h.base.2 (Flat.smooth ho)
    have hqd : Displayed E (.dequant s q d) := (Interpolated.mk (b := b) (K := K) ((fileRules H b E).sub h.base rfl)
        ho).displayed hE
    have hid : Displayed E (.crop s y0 y1 x0 x1 c) :=
      (Interpolated.mk (b := b) (K := K) ((fileRules H b E).sub w1 rfl) (Flat.once (K := K) (n := .crop s y0 y1 x0 x1
          c) ho)).displayed hE
    refine ⟨⟨w1, ho⟩, w2, fun h => h, ?_⟩
    have gc : IdxOk s.nchan c := g6
    have e6 : y1 ≤ s.dsize.2 := by simp only [Node.dsize] at f6; rwa [fd] at f6
    have e8 : x1 ≤ s.dsize.1 := by simp only [Node.dsize] at f8; rwa [fd] at f8
    rw [mkDequant, seen_dequant hid, seen_crop hqd g6 g4 f5 f6 g5 f7 f8,
      seen_crop hsd gc g4 f5 e6 g5 f7 e8, seen_dequant hsd,
      chosen_map E.nan (by rw [seen_length hsd]; exact gc), List.map_map, List.map_map]
    apply List.map_congr_left
    intro f _
    funext y x
    show planeDeq E q (x1 - x0, y1 - y0) (cropped E.nan y0 y1 x0 x1 f) y x =
      cropped E.nan y0 y1 x0 x1 (planeDeq E q s.dsize f) y x
    simp only [planeDeq, cropped]
    by_cases hyx : (y : Int) < y1 - y0 ∧ (x : Int) < x1 - x0
    · rw [if_pos hyx, if_pos hyx, if_pos hyx, if_pos (by omega)]
    · rw [if_neg hyx, if_neg hyx]
  take := by
    intro ps d y0 y1 x0 x1 c t h ht
    obtain ⟨w1, w2⟩ := (fileRules H b E).take h.base ht
    have hot := takeIdx_stable once_take _ h.base.1.wf.1 h.once c t h.base.1.wf.2.2.2 ht
    refine ⟨⟨w1, hot⟩, ?_⟩
    intro t' cr ht' hs hcr
    obtain ⟨v1, v2⟩ := w2 t' cr ht'.base hs.size hcr
    obtain ⟨f0, f1, f2, f3, f4⟩ := h.base.1.fit
    obtain ⟨g0, g4, g5, g6⟩ := h.base.1.wf
    have hT := takeIdx_ok _ g0 c t g6 ht
    have ed : t'.dsize = d := hs.size.1.trans hT.dsize
    simp only [Node.dsize] at f2 f4
    have e := mkCrop_fit hcr g4 g5 f1 (by rw [ed]; exact f2) f3 (by rw [ed]; exact f4)
    subst e
    obtain ⟨i, ei, hi⟩ : Displayed E (.concat ps d) :=
      (Interpolated.mk (b := b) (K := K) ((fileRules H b E).sub h.base rfl) h.once).displayed hE
    have hlive := live_of hE _ g0 f0 (each_imp (fun _ h => h.2) _ h.base.2) i ei
    have hview := takeIdx_view live_view _ hlive c t g6 ht
    refine ⟨⟨v1, ht'.once⟩, v2, fun hf => ?_, ?_⟩
    · have := takeIdx_stable stable_flat.take _ g0 hf c t g6 ht
      exact hs.flat this
    · rw [seen_crop (ht'.displayed hE) (c := none) trivial g4 f1 (by rw [ed]; exact f2) g5 f3 (by rw [ed]; exact f4),
          hs.seen, hview,
        seen_crop ⟨i, ei, hi⟩ g6 g4 f1 f2 g5 f3 f4]
      rfl
  renorm := by
    intro ps d y0 y1 x0 x1 cr h hcr
    obtain ⟨f0, f1, f2, f3, f4⟩ := h.base.1.fit
    have e := mkCrop_fit hcr h.base.1.wf.2.1 h.base.1.wf.2.2.1 f1 f2 f3 f4
    subst e
    exact ⟨h, ⟨rfl, rfl⟩, fun h => h, rfl⟩
  cropAfterOverview := fun h => h.once.elim
  warpAfterOverview := fun h => h.once.elim
  dequantOverview := fun h => h.once.elim
  ov0 := fun h => h.once.elim
  fuseOv := fun h => h.once.elim
  dequantWarp := fun h => h.once.elim

/-! #### the theorem -/

theorem once_tol {H : Heur} {n : Node} (hH : Sharp H n) (hn : Once b n) :
    ∃ K : Algo → Prop, Terms H b K ∧ OnceIf K n := by
  rcases hH with hX | ⟨h0, _, hz⟩
  · exact ⟨_, ⟨fun a m _ => hX.negl _ m, fun _ h => h, fun hb a h => h hb⟩, hn⟩
  · exact ⟨_, ⟨fun a m ha => by rw [ha.2]; exact h0 m, fun _ h => h, fun hb a h => h.1 hb⟩, OnceIf.tight hn hz⟩

/-- C36, arrays of files (and channels without data) that are cropped, dequantized, put together and scaled and moved
at most once, with linear interpolation and exact comparisons: `finalize()`, which optimizes, and
`finalize(optimize=False)` give the same array.  The assumptions on the interpolation are listed in `Env.Linear`.
Missing: several warps one after the other (each rounds to pixels, `C31`), rotations (`C32_border_blend_violated`),
other interpolations, dequantization after warps and overviews. -/
theorem C36_arrays_once_partial (H : Heur) (hE : Env.Shaped E) {g : Algo → ℚ × ℚ → (Int → Int → Option V) → V}
    (hg : Env.Linear E g) (hV : b = true → Env.Void E g) {n : Node} (hH : Sharp H n) (hb : Tree.Built n) (ho : NoOv n)
    (hn : Once b n) (hm : Each (Present b E) n) (fuel : Nat) {m : Node} (h : opt H fuel n = .ok m) :
    ∃ i j, fin E n = .ok i ∧ finalize H E fuel n = .ok j ∧ i.Same j := by
  obtain ⟨K, hK, hK'⟩ := once_tol hH hn
  have hS : Interpolated E b K n := ⟨⟨⟨hb.ok.1, hb.ok.2, ho⟩, hm⟩, hK'⟩
  have r := opt_good (deep := false) (onceRules H hK hE hg hV) (by simp) fuel n m hS h
  obtain ⟨i, ei, hi⟩ := hS.displayed hE
  obtain ⟨j, ej, hj⟩ := r.inv.displayed hE
  refine ⟨i, j, ei, by rw [finalize, h]; exact ej, ?_⟩
  have e1 := hi.h
  have e2 := hi.w
  have e3 := hj.h
  have e4 := hj.w
  rw [r.rel.size.1] at e3 e4
  refine same_of_planes (nan := E.nan) (by omega) (by omega) ?_
  rw [← seen_planes _ _ ei, ← seen_planes _ _ ej, r.rel.seen]

/-! #### bilinear interpolation is one -/

/-- A weighted mean of two values; the result is NaN (`none`) if one of them is that counts. -/
def mix (t : ℚ) (x y : Option ℚ) : Option ℚ :=
  if t = 0 then x else match x, y with
    | some x, some y => some ((1 - t) * x + t * y)
    | _, _ => none

theorem mix_self (t : ℚ) (x : Option ℚ) : mix t x x = x := by
  unfold mix
  split
  · rfl
  · cases x with
    | none => rfl
    | some x => simp only [Option.some.injEq]; ring

/-- Bilinear interpolation; where there is no pixel the border colour is used, by default NaN. -/
def bil (a : Algo) (p : ℚ × ℚ) (f : Int → Int → Option (Option ℚ)) : Option ℚ :=
  let u := ⌊p.1 - 1 / 2⌋
  let v := ⌊p.2 - 1 / 2⌋
  let s := p.1 - 1 / 2 - u
  let w := fun y x => (f y x).getD a.border
  mix (p.2 - 1 / 2 - v) (mix s (w v u) (w v (u + 1))) (mix s (w (v + 1) u) (w (v + 1) (u + 1)))

/-- Pixels that depend on the file and their coordinates, warped by bilinear interpolation; `none` stands for NaN. -/
def bilEnv : Env (Option ℚ) where
  img := fun id => ⟨4, 5, 3, fun y x k => some (y * x + 10 * y + 100 * k + 1000 * id)⟩
  deq := fun _ v => v.map (· / 2)
  nan := none
  border := fun a => a.border
  warp := fun tf d a i => ⟨d.2.toNat, d.1.toNat, i.n, fun y x k =>
    bil a (tf.inv.app (ctr y x)) (onGrid (i.w, i.h) fun y x => i.px y x k)⟩
  resize := fun d i => i.carry .id d none
  finite := Option.isSome
  unique := fun l => l.dedup.length
  overview := fun _ k i => ⟨(ovSize k i.h).toNat, (ovSize k i.w).toNat, i.n, fun y x c =>
    i.px (y * 2 ^ k.toNat) (x * 2 ^ k.toNat) c⟩

theorem bilEnv_shaped : Env.Shaped bilEnv := ⟨fun _ _ _ _ => rfl, fun _ _ => rfl, fun _ _ _ => rfl⟩

theorem bil_near {a : Algo} {p : ℚ × ℚ} {f f' : Int → Int → Option (Option ℚ)}
    (h : ∀ y x, Needs p x y → f y x = f' y x) : bil a p f = bil a p f' := by
  have e1 := Int.floor_le (p.1 - 1 / 2)
  have e2 := Int.lt_floor_add_one (p.1 - 1 / 2)
  have e3 := Int.floor_le (p.2 - 1 / 2)
  have e4 := Int.lt_floor_add_one (p.2 - 1 / 2)
  simp only [bil]
  generalize ⌊p.1 - 1 / 2⌋ = u at *
  generalize ⌊p.2 - 1 / 2⌋ = v at *
  have key : ∀ x y : Int, |(x : ℚ) + 1 / 2 - p.1| < 1 → |(y : ℚ) + 1 / 2 - p.2| < 1 → f y x = f' y x :=
    fun x y h1 h2 => h y x ⟨h1, h2⟩
  have a1 : |(u : ℚ) + 1 / 2 - p.1| < 1 := abs_lt.2 ⟨by linarith, by linarith⟩
  have a2 : |(v : ℚ) + 1 / 2 - p.2| < 1 := abs_lt.2 ⟨by linarith, by linarith⟩
  have b1 : p.1 - 1 / 2 - u = 0 ∨ |((u + 1 : Int) : ℚ) + 1 / 2 - p.1| < 1 := by
    rcases eq_or_lt_of_le e1 with h | h
    · exact .inl (by linarith)
    · exact .inr (abs_lt.2 ⟨by push_cast; linarith, by push_cast; linarith⟩)
  have b2 : p.2 - 1 / 2 - v = 0 ∨ |((v + 1 : Int) : ℚ) + 1 / 2 - p.2| < 1 := by
    rcases eq_or_lt_of_le e3 with h | h
    · exact .inl (by linarith)
    · exact .inr (abs_lt.2 ⟨by push_cast; linarith, by push_cast; linarith⟩)
  have m0 : ∀ x y, mix 0 x y = x := fun x y => by simp [mix]
  rcases b1 with b1 | b1 <;> rcases b2 with b2 | b2
  · rw [b1, b2, m0, m0, m0, m0, key _ _ a1 a2]
  · rw [b1, m0, m0, m0, m0, key _ _ a1 a2, key _ _ a1 b2]
  · rw [b2, m0, m0, key _ _ a1 a2, key _ _ b1 a2]
  · rw [key _ _ a1 a2, key _ _ a1 b2, key _ _ b1 a2, key _ _ b1 b2]

theorem bil_linear : Env.Linear bilEnv bil where
  warp := fun _ _ _ _ _ _ _ _ _ _ _ _ _ => rfl
  common := fun _ => rfl
  near := fun _ _ _ _ => bil_near
  shift := by
    intro a p f u v
    simp only [bil]
    have e1 : ⌊p.1 + u - 1 / 2⌋ = ⌊p.1 - 1 / 2⌋ + u := by
      rw [← Int.floor_add_intCast]; congr 1; ring
    have e2 : ⌊p.2 + v - 1 / 2⌋ = ⌊p.2 - 1 / 2⌋ + v := by
      rw [← Int.floor_add_intCast]; congr 1; ring
    rw [e1, e2]
    have e3 : ∀ x u : Int, x + u - u = x := fun x u => by omega
    have e4 : ∀ x u : Int, x + u + 1 - u = x + 1 := fun x u => by omega
    have e5 : ∀ (x : ℚ) (y u : Int), x + u - 1 / 2 - ((y + u : Int) : ℚ) = x - 1 / 2 - y := fun x y u => by
      push_cast; ring
    rw [e3, e3, e4, e4, e5, e5]
  away := by
    intro a p p'
    simp only [bil, Option.getD_none, mix_self]
  centre := by
    intro a y x f v h
    have e : ∀ z : Int, ⌊(z : ℚ) + 1 / 2 - 1 / 2⌋ = z := fun z => by rw [add_sub_cancel_right, Int.floor_intCast]
    have e' : ∀ z : Int, (z : ℚ) + 1 / 2 - 1 / 2 - z = 0 := fun z => by ring
    have m0 : ∀ x y, mix 0 x y = x := fun x y => by simp [mix]
    simp only [bil, e, e', m0, h, Option.getD_some]

theorem bil_void : Env.Void bilEnv bil := by
  intro a d p h
  have e : ∀ y x, (onGrid d (fun _ _ => bilEnv.nan) y x).getD (none : Option ℚ) = none := fun y x => by
    simp only [onGrid]
    split <;> rfl
  simp only [bil, h, e, mix_self]
  rfl

/-- A file, cropped and dequantized, a window of another one and a channel without data, stacked, made twice as
large, moved by thirty percent of a pixel, with three channels of a window in the middle taken. -/
def onceTree : Node :=
  .crop (.warp (.concat [.dequant (.crop (.leaf rgbLeaf) 1 4 1 5 (some [1])) ⟨0, 1, 0, 10, none⟩
    (4, 3), nanLeaf 3 (4, 3) (some [p! "x"]), .crop (.leaf { rgbLeaf with id := 2 }) 0 3 0 4 none] (4, 3))
    ⟨2, 0, 3 / 10, 0, 2, 0⟩ (8, 6) .default) 4 6 5 8 (some [4, 0, 1])

theorem rgb_wf (id : Nat) : Leaf.WF { rgbLeaf with id := id } := by
  refine ⟨?_, ?_⟩
  · intro l e
    simp only [rgbLeaf, Option.some.injEq] at e
    subst e
    rfl
  · intro e
    simp [rgbLeaf] at e

theorem onceTree_ok : Tree.Built onceTree ∧ NoOv onceTree ∧ Once true onceTree ∧ Sharp Heur.code onceTree ∧
    Each (Present true bilEnv) onceTree := by
  have ho : NoOv onceTree := ⟨.inl rfl, .inl rfl, .inl rfl, trivial⟩
  refine ⟨built_of _ ?_ ?_, ho, ?_, sharp_code ho ⟨rfl, trivial, trivial, trivial, trivial⟩, ?_⟩
  · refine ⟨⟨⟨by simp, ⟨rgb_wf 1, by decide, by decide, ?_⟩, rfl, ?_, rfl,
      ⟨rgb_wf 2, by decide, by decide, trivial⟩, rfl, trivial⟩, by decide +kernel⟩, by decide, by decide, ?_⟩
    · show ∀ i ∈ [1], i < 3; decide
    · exact ⟨fun l e => by cases e; rfl, fun _ => ⟨rfl, rfl⟩⟩
    · show ∀ i ∈ [4, 0, 1], i < 5; decide
  · have hn : ∀ d : Nat × Nat, Nonneg ((d.1 : Int), (d.2 : Int)) := fun d => ⟨by simp, by simp⟩
    exact ⟨⟨hn (8, 6), hn (4, 3), ⟨⟨hn (5, 4), by decide, by decide, by decide, by decide⟩, rfl⟩, hn (4, 3),
      ⟨hn (5, 4), by decide, by decide, by decide, by decide⟩, trivial⟩, by decide, by decide, by decide, by decide⟩
  · exact ⟨⟨trivial, trivial, trivial, trivial⟩, by norm_num [Upright], rfl, .inr (by norm_num), fun _ => rfl⟩
  · exact ⟨⟨fun _ => rfl, fun _ => ⟨rfl, rfl, rfl⟩⟩, ⟨fun _ => rfl, fun h => by cases h⟩,
      ⟨fun _ => rfl, fun _ => ⟨rfl, rfl, rfl⟩⟩, trivial⟩

mutual
/-- The windows of files in an image. -/
def fileWindows : Node → List (Nat × (Int × Int) × (Int × Int) × Option (List Nat))
  | .leaf _ => []
  | .crop s y0 y1 x0 x1 c => match s with
    | .leaf l => [(l.id, (y0, y1), (x0, x1), c)]
    | s => fileWindows s
  | .concat ps _ => fileWindowsL ps
  | .warp s _ _ _ => fileWindows s
  | .overview s _ _ => fileWindows s
  | .dequant s _ _ => fileWindows s
def fileWindowsL : List Node → List (Nat × (Int × Int) × (Int × Int) × Option (List Nat))
  | [] => []
  | p :: ps => fileWindows p ++ fileWindowsL ps
end

/-- `onceTree` is optimized to small windows of one channel of each file that are warped and stacked with a channel
without data, and the array is the same. -/
example : ∃ m i j, opt Heur.code 40 onceTree = .ok m ∧
    fileWindows m = [(2, (1, 3), (1, 4), some [2]), (1, (2, 4), (2, 5), some [1])] ∧ fin bilEnv onceTree = .ok i ∧
    finalize Heur.code bilEnv 40 onceTree = .ok j ∧ i.Same j ∧ (i.h, i.w, i.n) = (2, 3, 3) := by
  obtain ⟨h1, h2, h3, h4, h5⟩ := onceTree_ok
  obtain ⟨m, e, ew⟩ := holds_ok (x := opt Heur.code 40 onceTree)
    (f := fun m => decide (fileWindows m = [(2, (1, 3), (1, 4), some [2]), (1, (2, 4), (2, 5), some [1])]))
    (by decide +kernel)
  obtain ⟨i, j, e1, e2, e3⟩ := C36_arrays_once_partial Heur.code bilEnv_shaped bil_linear (fun _ => bil_void) h4 h1
      h2 h3 h5 40 e
  refine ⟨m, i, j, e, of_decide_eq_true ew, e1, e2, e3, ?_⟩
  have := fin_shape bilEnv_shaped _ h1.ok.1 h1.ok.2 (each_imp (fun _ h => h.2) _ h5) i e1
  have g1 : (i.h : Int) = 2 := this.h
  have g2 : (i.w : Int) = 3 := this.w
  have g3 : i.n = 3 := this.n
  rw [g3, show i.h = 2 by omega, show i.w = 3 by omega]

end Verif.Props
