/-
The rewrite rules of the optimizer keep what a tree shows (`Sim`).
-/
import Verif.Sem
import Mathlib.Data.List.GetD

namespace Verif
namespace Tree

open Helpers Node

/-! #### affine maps on open boxes -/

theorem lt_max4 (a b k l u t v x y : ℚ) (hab : a ≠ 0 ∨ b ≠ 0) (hx0 : l < x) (hx1 : x < u) (hy0 : t < y)
    (hy1 : y < v) :
    a * x + b * y + k <
      max4 (a * l + b * t + k) (a * u + b * t + k) (a * l + b * v + k) (a * u + b * v + k) := by
  simp only [max4, lt_max_iff]
  rcases lt_trichotomy a 0 with ha | ha | ha <;> rcases lt_trichotomy b 0 with hb | hb | hb
  · exact .inl (.inl (by nlinarith))
  · subst hb; exact .inl (.inl (by nlinarith))
  · exact .inr (.inl (by nlinarith))
  · subst ha; exact .inl (.inl (by nlinarith))
  · subst ha; subst hb; simp at hab
  · subst ha; exact .inr (.inl (by nlinarith))
  · exact .inl (.inr (by nlinarith))
  · subst hb; exact .inl (.inr (by nlinarith))
  · exact .inr (.inr (by nlinarith))

theorem min4_lt (a b k l u t v x y : ℚ) (hab : a ≠ 0 ∨ b ≠ 0) (hx0 : l < x) (hx1 : x < u) (hy0 : t < y)
    (hy1 : y < v) :
    min4 (a * l + b * t + k) (a * u + b * t + k) (a * l + b * v + k) (a * u + b * v + k) <
      a * x + b * y + k := by
  simp only [min4, min_lt_iff]
  rcases lt_trichotomy a 0 with ha | ha | ha <;> rcases lt_trichotomy b 0 with hb | hb | hb
  · exact .inr (.inr (by nlinarith))
  · subst hb; exact .inl (.inr (by nlinarith))
  · exact .inl (.inr (by nlinarith))
  · subst ha; exact .inr (.inl (by nlinarith))
  · subst ha; subst hb; simp at hab
  · subst ha; exact .inl (.inl (by nlinarith))
  · exact .inr (.inl (by nlinarith))
  · subst hb; exact .inl (.inl (by nlinarith))
  · exact .inl (.inl (by nlinarith))

theorem det_row1 (m : Affine) (h : m.det ≠ 0) : m.a ≠ 0 ∨ m.b ≠ 0 := by
  by_contra hc
  simp only [not_or, not_not] at hc
  exact h (by simp [Affine.det, hc.1, hc.2])

theorem det_row2 (m : Affine) (h : m.det ≠ 0) : m.c ≠ 0 ∨ m.d ≠ 0 := by
  by_contra hc
  simp only [not_or, not_not] at hc
  exact h (by simp [Affine.det, hc.1, hc.2])

/-- Points inside the source land strictly below the automatic size. -/
theorem app_lt_auto (m : Affine) (hm : m.det ≠ 0) (d : Int × Int) (q : ℚ × ℚ) (hq : In d q) :
    (m.app q).1 < (autoDsize (some m) d).1 ∧ (m.app q).2 < (autoDsize (some m) d).2 := by
  obtain ⟨h1, h2, h3, h4⟩ := hq
  refine ⟨?_, ?_⟩
  · exact lt_of_lt_of_le (lt_max4 m.a m.b m.tx 0 d.1 0 d.2 q.1 q.2 (det_row1 m hm) h1 h2 h3 h4)
      (Int.le_ceil _)
  · exact lt_of_lt_of_le (lt_max4 m.c m.d m.ty 0 d.1 0 d.2 q.1 q.2 (det_row2 m hm) h1 h2 h3 h4)
      (Int.le_ceil _)

theorem two_pow_pos (k : Int) : (0 : ℚ) < ((2 : ℚ) ^ k)⁻¹ := inv_pos.2 (zpow_pos (by norm_num) k)

theorem det_ovScale (k : Int) : (ovScale k).det ≠ 0 := by
  have := two_pow_pos k
  rw [ovScale, Affine.det_scale]
  positivity

theorem ovSize_lt (k : Int) (w : Int) (x : ℚ) (h : x < w) : ((2 : ℚ) ^ k)⁻¹ * x < ovSize k w :=
  lt_of_lt_of_le (mul_lt_mul_of_pos_left h (two_pow_pos k)) (Int.le_ceil _)

theorem in_mkOverview (k : Int) (s : Node) (q : ℚ × ℚ) (h : In s.dsize q) :
    In (mkOverview s k).dsize ((ovScale k).app q) := by
  have := two_pow_pos k
  refine ⟨?_, ?_, ?_, ?_⟩
  · simpa [ovScale] using mul_pos this h.1
  · simpa [ovScale, mkOverview, dsize] using ovSize_lt k _ _ h.2.1
  · simpa [ovScale] using mul_pos this h.2.2.1
  · simpa [ovScale, mkOverview, dsize] using ovSize_lt k _ _ h.2.2.2

/-! #### channels seen through a transform and a region -/

/-- The channel seen through `T`, restricted to a region. -/
def Chan.via (T : Affine) (R : ℚ × ℚ → Prop) (c : Chan) : Chan :=
  { c with tf := T * c.tf, dom := fun p => R p ∧ c.dom (T.inv.app p) }

theorem map_eq_via (c : Chan) (m : Affine) (d : Int × Int) : c.map m d = c.via m (In d) := rfl

theorem map_via (m T : Affine) (hm : m.det ≠ 0) (hT : T.det ≠ 0) (d : Int × Int) (R : ℚ × ℚ → Prop)
    (c : Chan) : (c.via T R).map m d = c.via (m * T) (fun p => In d p ∧ R (m.inv.app p)) := by
  simp only [Chan.map, Chan.via, Affine.mul_assoc', Affine.inv_mul_rev m T hm hT, Affine.app_mul,
    and_assoc]

theorem deq_via (q : Quantization) (T : Affine) (R : ℚ × ℚ → Prop) (c : Chan) :
    (c.via T R).deq q = (c.deq q).via T R := rfl

theorem self_via (c : Chan) : c = c.via .id (fun _ => True) := by
  simp [Chan.via]

/-- Two views of the same channel are related if they agree on every point of the channel that is seen. -/
theorem via_le {c : Chan} {T T' : Affine} {R R' : ℚ × ℚ → Prop} (hT : T.det ≠ 0)
    (h : ∀ q, c.dom q → R (T.app q) → T' = T ∧ R' (T.app q)) : (c.via T R).Le (c.via T' R') := by
  have key : ∀ p, (c.via T R).dom p → T' = T ∧ R' p := by
    intro p hp
    have := h (T.inv.app p) hp.2
    rw [Affine.app_inv_app T hT] at this
    exact this hp.1
  refine ⟨fun p hp => ?_, ?_⟩
  · obtain ⟨e, r⟩ := key p hp
    subst e
    exact ⟨r, hp.2⟩
  · by_cases he : ∀ p, ¬ (c.via T R).dom p
    · exact .inl he
    · simp only [not_forall, not_not] at he
      obtain ⟨p, hp⟩ := he
      exact .inr ⟨rfl, rfl, by simp only [Chan.via, (key p hp).1], rfl⟩

/-! #### channel selection -/

/-- The channels a crop selects. -/
def selDen (s : Node) (c : Option (List Nat)) : List Chan :=
  match c with
  | Option.none => den s
  | some c => pick Chan.none (den s) c

/-- The names of the channels a crop selects. -/
def selNames (s : Node) (c : Option (List Nat)) : Option (List Str) :=
  match c with
  | Option.none => s.channels
  | some c => s.channels.map (fun l => pick [] l c)

theorem den_crop (s : Node) (y0 y1 x0 x1 : Int) (c : Option (List Nat)) :
    den (.crop s y0 y1 x0 x1 c) =
      (selDen s c).map (Chan.map (.trans (-x0) (-y0)) (x1 - x0, y1 - y0)) := by
  cases c <;> simp [den, selDen]

theorem den_dequant (s : Node) (q : Quantization) (d : Int × Int) :
    den (.dequant s q d) = (den s).map (fun c => (c.map .id d).deq q) := by
  simp only [den]

theorem den_warp (s : Node) (tf : Affine) (d : Int × Int) (a : Algo) :
    den (.warp s tf d a) = (den s).map (Chan.map tf d) := by
  simp only [den]

theorem den_overview (s : Node) (k : Int) (d : Int × Int) :
    den (.overview s k d) = (den s).map (Chan.map (ovScale k) d) := by
  simp only [den]

theorem channels_warp (s : Node) (tf : Affine) (d : Int × Int) (a : Algo) :
    (Node.warp s tf d a).channels = s.channels := by simp only [channels]

theorem channels_overview (s : Node) (k : Int) (d : Int × Int) :
    (Node.overview s k d).channels = s.channels := by simp only [channels]

theorem channels_dequant (s : Node) (q : Quantization) (d : Int × Int) :
    (Node.dequant s q d).channels = s.channels := by simp only [channels]

theorem channels_crop (s : Node) (y0 y1 x0 x1 : Int) (c : Option (List Nat)) :
    (Node.crop s y0 y1 x0 x1 c).channels = selNames s c := by
  cases c <;> simp [channels, selNames]

theorem selNames_congr {s s' : Node} (h : s'.channels = s.channels) (c : Option (List Nat)) :
    selNames s' c = selNames s c := by
  cases c <;> simp [selNames, h]

theorem pick_map {α β} (a : α) (b : β) (f : α → β) (l : List α) (c : List Nat)
    (h : ∀ i ∈ c, i < l.length) : pick b (l.map f) c = (pick a l c).map f := by
  simp only [pick, List.map_map]
  apply List.map_congr_left
  intro i hi
  have := h i hi
  simp [List.getD, this]

theorem selDen_map {s s' : Node} (f : Chan → Chan) (h : den s' = (den s).map f) (c : Option (List Nat))
    (hc : IdxOk (nchan s) c) : selDen s' c = (selDen s c).map f := by
  cases c with
  | none => exact h
  | some c => simp only [selDen, h]; exact pick_map _ _ f _ c (by rw [den_length]; exact hc)

theorem selDen_in {s : Node} (hs : WF s) (c : Option (List Nat)) : ∀ x ∈ selDen s c, ∀ p, x.dom p →
    In s.dsize p := by
  intro x hx p hp
  cases c with
  | none => exact den_in s hs x hx p hp
  | some c =>
    simp only [selDen, pick, List.mem_map] at hx
    obtain ⟨i, _, rfl⟩ := hx
    by_cases hi : i < (den s).length
    · exact den_in s hs _ (by rw [List.getD_eq_getElem _ _ hi]; exact List.getElem_mem hi) p hp
    · rw [List.getD_eq_default _ _ (by omega)] at hp
      exact hp.elim

/-! #### warps -/

/-- `_opt_fuse_warps`. -/
theorem sim_fuseWarps (s : Node) (tf1 tf2 : Affine) (h1 : tf1.det ≠ 0) (h2 : tf2.det ≠ 0)
    (d1 d2 : Int × Int) (a1 a2 b : Algo) :
    Sim (.warp (.warp s tf1 d1 a1) tf2 d2 a2) (.warp s (tf2 * tf1) d2 b) := by
  refine ⟨rfl, ?_⟩
  simp only [den, List.map_map]
  refine forall₂_map_self fun c _ => ?_
  simp only [Function.comp, map_eq_via c, map_via tf2 tf1 h2 h1]
  exact via_le (by rw [Affine.det_mul]; exact mul_ne_zero h2 h1) fun q _ h => ⟨rfl, h.1⟩

/-- An identity warp can be dropped. -/
theorem sim_idWarp (s : Node) (d : Int × Int) (a : Algo) : Sim (.warp s .id d a) s := by
  refine ⟨rfl, ?_⟩
  have : den s = (den s).map (fun c => c) := by simp
  conv => arg 3; rw [this]
  simp only [den]
  refine forall₂_map_self fun c _ => ?_
  rw [map_eq_via]
  conv => arg 2; rw [self_via c]
  exact via_le (by simp) fun q _ _ => ⟨rfl, trivial⟩

/-- Data of an all-NaN leaf is nowhere. -/
theorem forall₂_nan (l l' : List Chan) (hl : l.length = l'.length) (h : ∀ c ∈ l, ∀ p, ¬ c.dom p) :
    List.Forall₂ Chan.Le l l' := by
  induction l generalizing l' with
  | nil => cases l' with
    | nil => exact .nil
    | cons _ _ => simp at hl
  | cons a l ih => cases l' with
    | nil => simp at hl
    | cons b l' =>
      exact .cons ⟨fun p hp => (h a (by simp) p hp).elim, .inl (h a (by simp))⟩
        (ih l' (by simpa using hl) fun c hc => h c (by simp [hc]))

theorem nanLeaf_den_length (kind : Nat) (d : Int × Int) (names : List Str) :
    (den (nanLeaf kind d (some names))).length = names.length := by
  simp [nanLeaf, den]

/-- `DelayedNans._optimized_warp`. -/
theorem sim_nanWarp (l : Leaf) (hl : l.WF) (hn : l.nan = true) (tf : Affine) (d : Int × Int) (a : Algo) :
    Sim (.warp (.leaf l) tf d a) (nanLeaf l.id d l.names) := by
  obtain ⟨names, he⟩ := Option.isSome_iff_exists.1 (hl.2 hn).1
  refine ⟨rfl, ?_⟩
  rw [he]
  apply forall₂_nan
  · rw [nanLeaf_den_length, hl.1 _ he]; simp [den]
  · intro c hc p hp
    simp only [den, List.mem_map] at hc
    obtain ⟨_, ⟨i, _, rfl⟩, rfl⟩ := hc
    have := hp.2.1
    simp [hn] at this

/-- An overview is a warp. -/
theorem sim_overviewAsWarp (s : Node) (k : Int) (d : Int × Int) (a : Algo) :
    Sim (.overview s k d) (.warp s (ovScale k) d a) := by
  refine ⟨rfl, ?_⟩
  simp only [den]
  exact forall₂_le_refl _

/-- `_opt_split_warp_overview`. -/
theorem sim_split (s : Node) (hs : WF s) (tf : Affine) (htf : tf.det ≠ 0) (d : Int × Int) (a b : Algo)
    (k : Int) : Sim (.warp s tf d a) (.warp (mkOverview s k) (tf * (ovScale k).inv) d b) := by
  refine ⟨rfl, ?_⟩
  have hk := det_ovScale k
  have hd : (tf * (ovScale k).inv).det ≠ 0 := by
    rw [Affine.det_mul]; exact mul_ne_zero htf (Affine.det_inv _ hk)
  have e : tf * (ovScale k).inv * ovScale k = tf := by
    rw [Affine.mul_assoc', Affine.inv_mul _ hk, Affine.mul_id]
  simp only [den, mkOverview, List.map_map]
  refine forall₂_map_self fun c hc => ?_
  simp only [Function.comp, map_eq_via c, map_via _ _ hd hk, e]
  refine via_le htf fun q hq h => ⟨rfl, h, ?_⟩
  have := in_mkOverview k s q (den_in s hs c hc q hq)
  rw [Affine.inv_mul_rev _ _ htf (Affine.det_inv _ hk), Affine.inv_inv _ hk, Affine.app_mul,
    Affine.inv_app_app _ htf]
  exact this

/-- `_opt_warp_after_overview`. -/
theorem sim_warpAfterOverview (s : Node) (hs : WF s) (tf : Affine) (htf : tf.det ≠ 0) (d d' : Int × Int)
    (a : Algo) (k : Int) : Sim (.overview (.warp s tf d a) k d') (warpAfterOverview s tf k) := by
  refine ⟨rfl, ?_⟩
  have hk := det_ovScale k
  have hd1 : (ovScale k * tf).det ≠ 0 := by rw [Affine.det_mul]; exact mul_ne_zero hk htf
  have hd : (ovScale k * tf * (ovScale k).inv).det ≠ 0 := by
    rw [Affine.det_mul]; exact mul_ne_zero hd1 (Affine.det_inv _ hk)
  have e : ovScale k * tf * (ovScale k).inv * ovScale k = ovScale k * tf := by
    rw [Affine.mul_assoc', Affine.inv_mul _ hk, Affine.mul_id]
  simp only [den, warpAfterOverview, mkWarp, mkOverview, List.map_map]
  refine forall₂_map_self fun c hc => ?_
  simp only [Function.comp, map_eq_via c, map_via _ _ hd hk, map_via _ _ hk htf, e]
  refine via_le hd1 fun q hq h => ⟨rfl, ?_, ?_⟩
  · have h1 := in_mkOverview k s q (den_in s hs c hc q hq)
    have h2 := app_lt_auto _ hd _ _ h1
    rw [← Affine.app_mul, e] at h2
    exact ⟨h.1.1, h2.1, h.1.2.2.1, h2.2⟩
  · have := in_mkOverview k s q (den_in s hs c hc q hq)
    rw [Affine.inv_mul_rev _ _ hd1 (Affine.det_inv _ hk), Affine.inv_inv _ hk, Affine.app_mul,
      Affine.inv_app_app _ hd1]
    exact this

/-! #### dequantization -/

/-- `_opt_dequant_before_other`. -/
theorem sim_dequantWarp (s : Node) (hs : WF s) (tf : Affine) (htf : tf.det ≠ 0) (d d' : Int × Int)
    (a : Algo) (q : Quantization) :
    Sim (.dequant (.warp s tf d a) q d') (.warp (mkDequant s q) tf d a) := by
  refine ⟨rfl, ?_⟩
  have h1 : Affine.id.det ≠ 0 := by simp
  simp only [den, mkDequant, List.map_map]
  refine forall₂_map_self fun c hc => ?_
  simp only [Function.comp, map_eq_via c, map_via _ _ h1 htf, deq_via, map_via _ _ htf h1, Affine.id_mul,
    Affine.mul_id]
  refine via_le htf fun p hp h => ⟨rfl, ?_, ?_⟩
  · simpa using h.2
  · rw [Affine.inv_app_app _ htf]
    exact den_in s hs c hc p hp

/-- `_opt_dequant_after_crop`. -/
theorem sim_dequantCrop (s : Node) (d d' : Int × Int) (y0 y1 x0 x1 : Int) (c : Option (List Nat))
    (hc : IdxOk (nchan s) c) (q : Quantization) (hd : d' = (x1 - x0, y1 - y0)) :
    Sim (.crop (.dequant s q d) y0 y1 x0 x1 c) (.dequant (.crop s y0 y1 x0 x1 c) q d') := by
  refine ⟨?_, ?_⟩
  · cases c <;> simp [channels]
  have h1 : Affine.id.det ≠ 0 := by simp
  have h2 : (Affine.trans (-x0) (-y0)).det ≠ 0 := by simp
  rw [den_crop, selDen_map (s := s) _ rfl c hc]
  simp only [den_dequant, den_crop, List.map_map]
  refine forall₂_map_self fun c hc => ?_
  simp only [Function.comp, map_eq_via c, map_via _ _ h1 h2, deq_via, map_via _ _ h2 h1, Affine.id_mul,
    Affine.mul_id]
  refine via_le h2 fun p hp h => ⟨rfl, ?_, ?_⟩
  · rw [hd]; exact h.1
  · simpa using h.1

/-- `_opt_dequant_after_overview`. -/
theorem sim_dequantOverview (s : Node) (d d' : Int × Int) (k : Int) (q : Quantization) :
    Sim (.overview (.dequant s q d) k d') (.dequant (.overview s k d') q d') := by
  refine ⟨rfl, ?_⟩
  have h1 : Affine.id.det ≠ 0 := by simp
  have hk := det_ovScale k
  simp only [den, List.map_map]
  refine forall₂_map_self fun c hc => ?_
  simp only [Function.comp, map_eq_via c, map_via _ _ h1 hk, deq_via, map_via _ _ hk h1, Affine.id_mul,
    Affine.mul_id]
  refine via_le hk fun p hp h => ⟨rfl, ?_, ?_⟩
  · exact h.1
  · simpa using h.1

/-! #### crops -/

theorem mkCrop_ints {s r : Node} {y0 y1 x0 x1 : Int} {c : Option (List Nat)}
    (h : mkCrop s (ints y0 y1 x0 x1) c = .ok r) :
    r = .crop s (normBound s.dsize.2 y0) (max (normBound s.dsize.2 y0) (normBound s.dsize.2 y1))
      (normBound s.dsize.1 x0) (max (normBound s.dsize.1 x0) (normBound s.dsize.1 x1)) c := by
  unfold mkCrop at h
  split at h
  · cases h
  · simp only [ints, normSlice, Except.ok.injEq] at h
    exact h.symm

theorem normBound_nonneg (D i : Int) : 0 ≤ normBound D i := le_max_left _ _

theorem wf_mkCrop {s r : Node} {y0 y1 x0 x1 : Int} {c : Option (List Nat)} (hs : WF s)
    (hc : IdxOk (nchan s) c) (h : mkCrop s (ints y0 y1 x0 x1) c = .ok r) : WF r := by
  rw [mkCrop_ints h]
  exact ⟨hs, normBound_nonneg _ _, normBound_nonneg _ _, hc⟩

/-- A point strictly between two bounds stays there when the bounds are normalized to an axis that
contains it. -/
theorem norm_axis (D lo hi : Int) (q : ℚ) (h0 : 0 ≤ lo) (hq0 : 0 < q) (hqD : q < D) (h1 : (lo : ℚ) < q)
    (h2 : q < hi) : normBound D lo = lo ∧ q < (max (normBound D lo) (normBound D hi) : Int) := by
  have hlo : lo < D := by exact_mod_cast h1.trans hqD
  have hhi : 0 < hi := by exact_mod_cast hq0.trans h2
  have e1 : normBound D lo = lo := by unfold normBound; split <;> omega
  have e2 : normBound D hi = min D hi := by unfold normBound; split <;> omega
  refine ⟨e1, ?_⟩
  rw [e1, e2]
  push_cast
  exact lt_max_of_lt_right (lt_min hqD h2)

/-- One view through a normalized crop. -/
theorem in_crop {y0 y1 x0 x1 : Int} {q : ℚ × ℚ} :
    In (x1 - x0, y1 - y0) ((Affine.trans (-x0) (-y0)).app q) ↔
      (x0 : ℚ) < q.1 ∧ q.1 < x1 ∧ (y0 : ℚ) < q.2 ∧ q.2 < y1 := by
  simp only [In, Affine.app_trans, Int.cast_sub]
  constructor
  · rintro ⟨h1, h2, h3, h4⟩
    exact ⟨by linarith, by linarith, by linarith, by linarith⟩
  · rintro ⟨h1, h2, h3, h4⟩
    exact ⟨by linarith, by linarith, by linarith, by linarith⟩

theorem takeList_ok {i o l : List Nat} (h : takeList i o = .ok l) :
    l = pick 0 i o ∧ ∀ j ∈ o, j < i.length := by
  induction o generalizing l with
  | nil => cases h; exact ⟨rfl, by simp⟩
  | cons a o ih =>
    simp only [takeList] at h
    split at h
    · cases h
    · rename_i x hx
      split at h
      · cases h
      · rename_i xs hxs
        cases h
        obtain ⟨e, h2⟩ := ih hxs
        obtain ⟨ha, hx'⟩ := List.getElem?_eq_some_iff.1 hx
        refine ⟨?_, ?_⟩
        · rw [e]; simp [pick, List.getD, hx]
        · intro j hj
          rcases List.mem_cons.1 hj with rfl | hj
          · exact ha
          · exact h2 j hj

theorem pick_pick {α} (a : α) (l : List α) (i o : List Nat) (h : ∀ j ∈ o, j < i.length) :
    pick a (pick a l i) o = pick a l (pick 0 i o) := by
  simp only [pick, List.map_map]
  apply List.map_congr_left
  intro j hj
  have := h j hj
  simp [List.getD, this]

theorem fuseChans_ok {s : Node} {ic c nc : Option (List Nat)} (h : fuseChans ic c = .ok nc)
    (hi : IdxOk (nchan s) ic) (hc : IdxOk (nchan (.crop s 0 0 0 0 ic)) c) :
    IdxOk (nchan s) nc ∧ (∀ y0 y1 x0 x1, selNames (.crop s y0 y1 x0 x1 ic) c = selNames s nc) ∧
    ∀ y0 y1 x0 x1, selDen (.crop s y0 y1 x0 x1 ic) c =
      (selDen s nc).map (Chan.map (.trans (-x0) (-y0)) (x1 - x0, y1 - y0)) := by
  cases c with
  | none =>
    cases ic with
    | none =>
      cases h
      exact ⟨hi, fun _ _ _ _ => by simp [selNames, channels], fun _ _ _ _ => by
        simp only [selDen, den_crop]⟩
    | some i =>
      cases h
      exact ⟨hi, fun _ _ _ _ => by simp [selNames, channels], fun _ _ _ _ => by
        simp only [selDen, den_crop]⟩
  | some o =>
    cases ic with
    | none =>
      cases h
      refine ⟨hc, fun _ _ _ _ => by simp [selNames, channels], fun _ _ _ _ => ?_⟩
      exact selDen_map (s := s) _ (by simp only [den_crop, selDen]) (some o) hc
    | some i =>
      simp only [fuseChans] at h
      split at h
      · cases h
      · rename_i l hl
        cases h
        obtain ⟨rfl, hlt⟩ := takeList_ok hl
        refine ⟨?_, fun _ _ _ _ => ?_, fun y0 y1 x0 x1 => ?_⟩
        · intro j hj
          simp only [pick, List.mem_map] at hj
          obtain ⟨k, hk, rfl⟩ := hj
          rw [List.getD_eq_getElem _ _ (hlt k hk)]
          exact hi _ (List.getElem_mem _)
        · simp only [selNames, channels, Option.map_map]
          congr 1
          funext l
          exact pick_pick _ _ _ _ hlt
        · simp only [selDen, den_crop]
          rw [pick_map Chan.none Chan.none _ _ o (by simpa [pick] using hlt), pick_pick _ _ _ _ hlt]

/-- `_opt_fuse_crops`. -/
theorem sim_fuseCrops {s r : Node} (hs : WF s) {iy0 iy1 ix0 ix1 y0 y1 x0 x1 : Int}
    {ic c : Option (List Nat)} (hi : WF (.crop s iy0 iy1 ix0 ix1 ic)) (hy : 0 ≤ y0) (hx : 0 ≤ x0)
    (hc : IdxOk (nchan (.crop s iy0 iy1 ix0 ix1 ic)) c)
    (h : fuseCrops s iy0 iy1 ix0 ix1 ic y0 y1 x0 x1 c = .ok r) :
    Sim (.crop (.crop s iy0 iy1 ix0 ix1 ic) y0 y1 x0 x1 c) r ∧ WF r ∧
      ∃ y0' y1' x0' x1' c', r = .crop s y0' y1' x0' x1' c' := by
  simp only [fuseCrops] at h
  split at h
  · cases h
  · rename_i nc hnc
    obtain ⟨_, hiy0, hix0, hic⟩ := hi
    obtain ⟨h1, h2, h3⟩ := fuseChans_ok (s := s) hnc hic hc
    refine ⟨?_, wf_mkCrop hs h1 h, _, _, _, _, _, mkCrop_ints h⟩
    rw [mkCrop_ints h]
    refine ⟨?_, ?_⟩
    · rw [channels_crop, channels_crop, h2]
    · rw [den_crop, den_crop, h3, List.map_map]
      refine forall₂_map_self fun a ha => ?_
      simp only [Function.comp, map_eq_via a]
      rw [map_via _ _ (by simp) (by simp), Affine.trans_mul]
      refine via_le (by simp) fun q hq hR => ?_
      have hin := selDen_in hs nc a ha q hq
      obtain ⟨hR1, hR2⟩ := hR
      rw [← Affine.trans_mul, Affine.app_mul] at hR1 hR2
      rw [Affine.inv_app_app _ (by simp)] at hR2
      rw [in_crop] at hR1 hR2
      simp only [Affine.app_trans] at hR1
      simp only [fuseAxis]
      obtain ⟨g1, g2, g3, g4⟩ := hin
      obtain ⟨i1, i2, i3, i4⟩ := hR2
      obtain ⟨o1, o2, o3, o4⟩ := hR1
      have ex : min (ix0 + x0) ix1 = ix0 + x0 := by
        have : ((ix0 + x0 : Int) : ℚ) < ix1 := by push_cast; linarith
        have : ix0 + x0 < ix1 := by exact_mod_cast this
        omega
      have ey : min (iy0 + y0) iy1 = iy0 + y0 := by
        have : ((iy0 + y0 : Int) : ℚ) < iy1 := by push_cast; linarith
        have : iy0 + y0 < iy1 := by exact_mod_cast this
        omega
      rw [ex, ey]
      obtain ⟨nx1, nx2⟩ := norm_axis s.dsize.1 (ix0 + x0) (min (ix0 + x1) ix1) q.1 (by omega) g1 g2
        (by push_cast; linarith) (by push_cast; exact lt_min (by linarith) i2)
      obtain ⟨ny1, ny2⟩ := norm_axis s.dsize.2 (iy0 + y0) (min (iy0 + y1) iy1) q.2 (by omega) g3 g4
        (by push_cast; linarith) (by push_cast; exact lt_min (by linarith) i4)
      rw [nx1] at nx2 ⊢
      rw [ny1] at ny2 ⊢
      have eT : Affine.trans (-((ix0 + x0 : Int) : ℚ)) (-((iy0 + y0 : Int) : ℚ)) =
          Affine.trans (-(x0 : ℚ) + -(ix0 : ℚ)) (-(y0 : ℚ) + -(iy0 : ℚ)) := by
        congr 1 <;> push_cast <;> ring
      refine ⟨eT, ?_⟩
      rw [← eT, in_crop]
      refine ⟨by push_cast; linarith, nx2, by push_cast; linarith, ny2⟩

/-! #### moving a crop under a warp -/

/-- What `_opt_warp_after_crop` needs from the inner slice: for every point of the source that the crop
shows, the slice contains it, its start is not negative and the new transform undoes the start. -/
def GoodSlice (src : Int × Int) (tf : Affine) (y0 y1 x0 x1 : Int)
    (r : (Int × Int × Int × Int) × Affine) : Prop :=
  r.2.det ≠ 0 ∧ 0 ≤ r.1.1 ∧ 0 ≤ r.1.2.2.1 ∧
  r.2 * Affine.trans (-r.1.2.2.1) (-r.1.1) = Affine.trans (-x0) (-y0) * tf ∧
  ∀ q, In src q → In (x1 - x0, y1 - y0) ((Affine.trans (-x0) (-y0)).app (tf.app q)) →
    (r.1.2.2.1 : ℚ) < q.1 ∧ q.1 < r.1.2.2.2 ∧ (r.1.1 : ℚ) < q.2 ∧ q.2 < r.1.2.1

theorem axisFast_spec (src : Int) (s t : ℚ) (hs : 0 < s) (r0 r1 : Int) :
    0 ≤ (axisFast src s t r0 r1).1 ∧
    (axisFast src s t r0 r1).2.2 = t + s * (axisFast src s t r0 r1).1 - r0 ∧
    ∀ q : ℚ, 0 < q → q < src → (r0 : ℚ) < s * q + t → s * q + t < r1 →
      ((axisFast src s t r0 r1).1 : ℚ) < q ∧ q < (axisFast src s t r0 r1).2.1 := by
  refine ⟨?_, rfl, ?_⟩
  · simp only [axisFast]; omega
  · intro q h0 h1 h2 h3
    have f0 : (r0 - t) / s < q := by rw [div_lt_iff₀ hs]; linarith
    have f1 : q < (r1 - t) / s := by rw [lt_div_iff₀ hs]; linarith
    have hr : (r0 : ℚ) < r1 := h2.trans h3
    have hr' : r0 < r1 := by exact_mod_cast hr
    simp only [axisFast]
    generalize hF0 : ⌊((r0 : ℚ) - t) / s⌋ = F0
    generalize hF1 : ⌈((r1 : ℚ) - t) / s⌉ = F1
    have g0 : (F0 : ℚ) < q := lt_of_le_of_lt (by rw [← hF0]; exact Int.floor_le _) f0
    have g1 : q < F1 := lt_of_lt_of_le f1 (by rw [← hF1]; exact Int.le_ceil _)
    have hpad : (0 : Int) ≤ if max (r1 - r0) 0 = 0 then 0 else
        ⌈max (((r1 : ℚ) - t) / s - ((r0 : ℚ) - t) / s) 0 / ((max (r1 - r0) 0 : Int) : ℚ)⌉ := by
      split
      · exact le_refl _
      · apply Int.ceil_nonneg
        apply div_nonneg (le_max_right _ _)
        exact_mod_cast le_max_right (r1 - r0) 0
    generalize (if max (r1 - r0) 0 = 0 then (0 : Int) else
        ⌈max (((r1 : ℚ) - t) / s - ((r0 : ℚ) - t) / s) 0 / ((max (r1 - r0) 0 : Int) : ℚ)⌉) = pad at hpad
    constructor
    · have hm : ((max F0 0 : Int) : ℚ) < q := by push_cast; exact max_lt g0 h0
      have : max F0 0 - min (max F0 0) 1 ≤ max F0 0 := by omega
      have : ((max F0 0 - min (max F0 0) 1 : Int) : ℚ) ≤ ((max F0 0 : Int) : ℚ) := by exact_mod_cast this
      linarith
    · have hp : (0 : ℚ) ≤ pad := by exact_mod_cast hpad
      push_cast
      apply lt_min _ h1
      have := lt_min g1 h1
      linarith

theorem fast_good (src : Int × Int) (tf : Affine) (y0 y1 x0 x1 : Int)
    (h : tf.b = 0 ∧ tf.c = 0 ∧ 0 < tf.a ∧ 0 < tf.d) :
    GoodSlice src tf y0 y1 x0 x1 (innerSlice src tf y0 y1 x0 x1) := by
  obtain ⟨hb, hc, ha, hd⟩ := h
  obtain ⟨x1', x2', x3'⟩ := axisFast_spec src.1 tf.a tf.tx ha x0 x1
  obtain ⟨y1', y2', y3'⟩ := axisFast_spec src.2 tf.d tf.ty hd y0 y1
  rw [innerSlice, if_pos ⟨hb, hc, ha, hd⟩]
  refine ⟨?_, y1', x1', ?_, ?_⟩
  · simp only [Affine.det]
    have := mul_pos ha hd
    intro h0
    simp at h0
    rcases h0 with h0 | h0 <;> linarith
  · simp only [x2', y2']
    ext <;> simp only [Affine.mul_def, Affine.mul, Affine.trans, hb, hc] <;> ring
  · intro q ⟨g1, g2, g3, g4⟩ hR
    rw [in_crop] at hR
    simp only [Affine.app, hb, hc] at hR
    obtain ⟨o1, o2, o3, o4⟩ := hR
    have hx := x3' q.1 g1 g2 (by linarith) (by linarith)
    have hy := y3' q.2 g3 g4 (by linarith) (by linarith)
    exact ⟨hx.1, hx.2, hy.1, hy.2⟩

theorem swap_axis (m M : ℚ) (root : Int) (hroot : 0 ≤ root) (q : ℚ) (h0 : 0 < q) (h1 : m < q) (h2 : q < M) :
    ((max 0 ⌊m⌋ - min (max 0 ⌊m⌋) 1 : Int) : ℚ) < q ∧
    q < (max 0 ⌈M⌉ + (if root = 0 then 0 else ⌈((max 0 ⌈M⌉ - max 0 ⌊m⌋ : Int) : ℚ) / (root : ℚ)⌉) : Int) := by
  have g1 : (⌊m⌋ : ℚ) < q := lt_of_le_of_lt (Int.floor_le _) h1
  have g2 : q < ⌈M⌉ := lt_of_lt_of_le h2 (Int.le_ceil _)
  generalize ⌊m⌋ = F at *
  generalize ⌈M⌉ = C at *
  have hFC : F < C := by exact_mod_cast g1.trans g2
  have hC : 0 < C := by exact_mod_cast h0.trans g2
  constructor
  · have hm : ((max 0 F : Int) : ℚ) < q := by push_cast; exact max_lt h0 g1
    have : max 0 F - min (max 0 F) 1 ≤ max 0 F := by omega
    have : ((max 0 F - min (max 0 F) 1 : Int) : ℚ) ≤ ((max 0 F : Int) : ℚ) := by exact_mod_cast this
    linarith
  · have hpad : (0 : Int) ≤ if root = 0 then 0 else ⌈((max 0 C - max 0 F : Int) : ℚ) / (root : ℚ)⌉ := by
      split
      · exact le_refl _
      · apply Int.ceil_nonneg
        apply div_nonneg
        · have : 0 ≤ max 0 C - max 0 F := by omega
          exact_mod_cast this
        · exact_mod_cast hroot
    have hC' : C ≤ max 0 C + (if root = 0 then 0 else ⌈((max 0 C - max 0 F : Int) : ℚ) / (root : ℚ)⌉) := by
      omega
    have : (C : ℚ) ≤ ((max 0 C + (if root = 0 then 0 else
        ⌈((max 0 C - max 0 F : Int) : ℚ) / (root : ℚ)⌉) : Int) : ℚ) := by exact_mod_cast hC'
    linarith

theorem swap_good (src : Int × Int) (tf : Affine) (htf : tf.det ≠ 0) (y0 y1 x0 x1 : Int) :
    GoodSlice src tf y0 y1 x0 x1 (swapWarpAfterCrop tf y0 y1 x0 x1) := by
  refine ⟨?_, ?_, ?_, ?_, ?_⟩
  · simp only [swapWarpAfterCrop, Affine.det_mul, Affine.det_trans, mul_one, one_mul]
    exact htf
  · simp only [swapWarpAfterCrop]; omega
  · simp only [swapWarpAfterCrop]; omega
  · simp only [swapWarpAfterCrop]
    generalize (max 0 ⌊min4 _ _ _ _⌋ : Int) = l
    generalize (max 0 ⌊min4 _ _ _ _⌋ : Int) = t
    rw [Affine.mul_assoc', Affine.mul_assoc', Affine.trans_mul, Affine.trans_mul]
    have : Affine.trans ((l : ℚ) + (-((min l 1 : Int) : ℚ) + -((l - min l 1 : Int) : ℚ)))
      ((t : ℚ) + (-((min t 1 : Int) : ℚ) + -((t - min t 1 : Int) : ℚ))) = Affine.id := by
      ext <;> simp [Affine.trans, Affine.id] <;> ring
    rw [this, Affine.mul_id]
  · intro q ⟨g1, _, g3, _⟩ hR
    rw [in_crop] at hR
    obtain ⟨o1, o2, o3, o4⟩ := hR
    have hx : x0 < x1 := by exact_mod_cast o1.trans o2
    have hy : y0 < y1 := by exact_mod_cast o3.trans o4
    have hi := Affine.det_inv tf htf
    have eq : tf.inv.app (tf.app q) = q := Affine.inv_app_app tf htf q
    have e1 : tf.inv.a * (tf.app q).1 + tf.inv.b * (tf.app q).2 + tf.inv.tx = q.1 := congrArg Prod.fst eq
    have e2 : tf.inv.c * (tf.app q).1 + tf.inv.d * (tf.app q).2 + tf.inv.ty = q.2 := congrArg Prod.snd eq
    have a1 := lt_max4 tf.inv.a tf.inv.b tf.inv.tx x0 x1 y0 y1 _ _ (det_row1 _ hi) o1 o2 o3 o4
    have a2 := min4_lt tf.inv.a tf.inv.b tf.inv.tx x0 x1 y0 y1 _ _ (det_row1 _ hi) o1 o2 o3 o4
    have b1 := lt_max4 tf.inv.c tf.inv.d tf.inv.ty x0 x1 y0 y1 _ _ (det_row2 _ hi) o1 o2 o3 o4
    have b2 := min4_lt tf.inv.c tf.inv.d tf.inv.ty x0 x1 y0 y1 _ _ (det_row2 _ hi) o1 o2 o3 o4
    rw [e1] at a1 a2
    rw [e2] at b1 b2
    have hx' := swap_axis _ _ (x1 - x0) (by omega) q.1 g1 a2 a1
    have hy' := swap_axis _ _ (y1 - y0) (by omega) q.2 g3 b2 b1
    exact ⟨hx'.1, hx'.2, hy'.1, hy'.2⟩

theorem innerSlice_good (src : Int × Int) (tf : Affine) (htf : tf.det ≠ 0) (y0 y1 x0 x1 : Int) :
    GoodSlice src tf y0 y1 x0 x1 (innerSlice src tf y0 y1 x0 x1) := by
  by_cases h : tf.b = 0 ∧ tf.c = 0 ∧ 0 < tf.a ∧ 0 < tf.d
  · exact fast_good src tf y0 y1 x0 x1 h
  · rw [innerSlice, if_neg h]
    exact swap_good src tf htf y0 y1 x0 x1

/-- `_opt_warp_after_crop`. -/
theorem sim_warpAfterCrop {s inner : Node} (hs : WF s) {tf tf' : Affine} (htf : tf.det ≠ 0)
    {y0 y1 x0 x1 : Int} {c : Option (List Nat)} (hc : IdxOk (nchan s) c)
    (h : warpAfterCrop s tf y0 y1 x0 x1 c = .ok (some (inner, tf'))) (d : Int × Int) (a b : Algo) :
    Sim (.crop (.warp s tf d a) y0 y1 x0 x1 c) (.warp inner tf' (x1 - x0, y1 - y0) b) ∧
    WF inner ∧ tf'.det ≠ 0 ∧ ∃ y0' y1' x0' x1', inner = .crop s y0' y1' x0' x1' c := by
  simp only [warpAfterCrop] at h
  split at h
  · cases h
  · split at h
    · cases h
    · rename_i inner' hm
      simp only [Except.ok.injEq, Option.some.injEq, Prod.mk.injEq] at h
      obtain ⟨rfl, rfl⟩ := h
      obtain ⟨g1, g2, g3, g4, g5⟩ := innerSlice_good s.dsize tf htf y0 y1 x0 x1
      refine ⟨?_, wf_mkCrop hs hc hm, g1, _, _, _, _, mkCrop_ints hm⟩
      rw [mkCrop_ints hm]
      generalize innerSlice s.dsize tf y0 y1 x0 x1 = r at *
      obtain ⟨⟨ly, hy', lx, hx'⟩, tf'⟩ := r
      refine ⟨?_, ?_⟩
      · rw [channels_crop, channels_warp, channels_crop]
        exact (selNames_congr rfl c).symm
      · rw [den_crop, selDen_map (s := s) _ (den_warp s tf d a) c hc, den_warp, den_crop, List.map_map,
          List.map_map]
        refine forall₂_map_self fun ch hch => ?_
        simp only [Function.comp, map_eq_via ch]
        rw [map_via _ _ (by simp) htf, map_via _ _ g1 (by simp)]
        refine via_le (by rw [Affine.det_mul]; simpa using htf) fun q hq hR => ?_
        have hin := selDen_in hs c ch hch q hq
        have hR1 := hR.1
        rw [Affine.app_mul] at hR1
        obtain ⟨c1, c2, c3, c4⟩ := g5 q hin hR1
        obtain ⟨nx1, nx2⟩ := norm_axis s.dsize.1 lx hx' q.1 g3 hin.1 hin.2.1 c1 c2
        obtain ⟨ny1, ny2⟩ := norm_axis s.dsize.2 ly hy' q.2 g2 hin.2.2.1 hin.2.2.2 c3 c4
        simp only at g4 ⊢
        rw [nx1] at nx2 ⊢
        rw [ny1] at ny2 ⊢
        refine ⟨g4, hR.1, ?_⟩
        rw [← g4, Affine.app_mul, Affine.inv_app_app _ g1, in_crop]
        exact ⟨c1, nx2, c3, ny2⟩

/-! #### moving a crop after an overview -/

theorem cropOv_axis (sf : ℚ) (hsf : 0 < sf) (x0 x1 : Int) (hx : 0 ≤ x0) (q : ℚ) (h1 : (x0 : ℚ) < q)
    (h2 : q < x1) : ((max 0 ⌊sf * x0⌋ : Int) : ℚ) < sf * q ∧ sf * q < (max 0 ⌈sf * x1⌉ : Int) := by
  have hx' : (0 : ℚ) ≤ x0 := by exact_mod_cast hx
  have e1 : sf * x0 < sf * q := mul_lt_mul_of_pos_left h1 hsf
  have e2 : sf * q < sf * x1 := mul_lt_mul_of_pos_left h2 hsf
  have := Int.floor_le (sf * x0)
  have := Int.le_ceil (sf * x1)
  push_cast
  refine ⟨max_lt (by nlinarith) (by linarith), lt_max_of_lt_right (by linarith)⟩

/-- `_opt_crop_after_overview`. -/
theorem sim_cropAfterOverview (H : Heur) {s r : Node} (hs : WF s) {y0 y1 x0 x1 : Int}
    (hy : 0 ≤ y0) (hx : 0 ≤ x0) {c : Option (List Nat)} (hc : IdxOk (nchan s) c) (k : Int)
    (hH : let ox : ℚ := (max 0 ⌊((2 : ℚ) ^ k)⁻¹ * x0⌋ : Int) - ((2 : ℚ) ^ k)⁻¹ * x0
      let oy : ℚ := (max 0 ⌊((2 : ℚ) ^ k)⁻¹ * y0⌋ : Int) - ((2 : ℚ) ^ k)⁻¹ * y0
      H.closeOff ox oy = true → ox = 0 ∧ oy = 0)
    (d : Int × Int) (h : cropAfterOverview H s y0 y1 x0 x1 c k = .ok r) :
    Sim (.overview (.crop s y0 y1 x0 x1 c) k d) r ∧ WF r := by
  simp only [cropAfterOverview] at h
  split at h
  · cases h
  · rename_i cr hm
    have hk := det_ovScale k
    have hsf := two_pow_pos k
    have hwf : WF cr := wf_mkCrop (s := mkOverview s k) hs hc hm
    have key : ∀ ox oy : ℚ, ox = (max 0 ⌊((2 : ℚ) ^ k)⁻¹ * x0⌋ : Int) - ((2 : ℚ) ^ k)⁻¹ * x0 →
        oy = (max 0 ⌊((2 : ℚ) ^ k)⁻¹ * y0⌋ : Int) - ((2 : ℚ) ^ k)⁻¹ * y0 →
        Sim (.overview (.crop s y0 y1 x0 x1 c) k d) (mkWarp cr (.trans ox oy) none .default) := by
      intro ox oy hox hoy
      rw [mkCrop_ints hm]
      refine ⟨?_, ?_⟩
      · simp only [mkWarp, channels_warp, channels_overview, channels_crop]
        exact selNames_congr (by rw [mkOverview, channels_overview]) c
      · rw [mkWarp, den_overview, den_crop, den_warp, den_crop,
          selDen_map (s := s) (s' := mkOverview s k) _ (den_overview s k _) c hc]
        simp only [List.map_map]
        refine forall₂_map_self fun ch hch => ?_
        simp only [Function.comp, map_eq_via ch]
        rw [map_via _ _ hk (by simp), map_via _ _ (by simp) hk,
          map_via _ _ (by simp) (by rw [Affine.det_mul]; simpa using hk)]
        refine via_le (by rw [Affine.det_mul]; simpa using hk) fun q hq hR => ?_
        have hin := selDen_in hs c ch hch q hq
        obtain ⟨hR1, hR2⟩ := hR
        rw [Affine.app_mul, Affine.inv_app_app _ hk, in_crop] at hR2
        obtain ⟨o1, o2, o3, o4⟩ := hR2
        have hov := in_mkOverview k s q hin
        have ax := cropOv_axis _ hsf x0 x1 hx q.1 o1 o2
        have ay := cropOv_axis _ hsf y0 y1 hy q.2 o3 o4
        obtain ⟨v1, v2, v3, v4⟩ := hov
        rw [ovScale, Affine.app_scale] at v1 v2 v3 v4
        obtain ⟨nx1, nx2⟩ := norm_axis _ _ _ _ (le_max_left _ _) v1 v2 ax.1 ax.2
        obtain ⟨ny1, ny2⟩ := norm_axis _ _ _ _ (le_max_left _ _) v3 v4 ay.1 ay.2
        rw [nx1] at nx2 ⊢
        rw [ny1] at ny2 ⊢
        generalize (max 0 ⌊((2 : ℚ) ^ k)⁻¹ * x0⌋ : Int) = lx at *
        generalize (max 0 ⌊((2 : ℚ) ^ k)⁻¹ * y0⌋ : Int) = ly at *
        have eT : Affine.trans ox oy * (Affine.trans (-(lx : ℚ)) (-(ly : ℚ)) * ovScale k) =
            ovScale k * Affine.trans (-(x0 : ℚ)) (-(y0 : ℚ)) := by
          ext <;> simp only [Affine.mul_def, Affine.mul, Affine.trans, ovScale, Affine.scale, hox, hoy] <;>
            ring
        have hin1 : In ((max lx (normBound (mkOverview s k).dsize.1 (max 0 ⌈((2 : ℚ) ^ k)⁻¹ * x1⌉))) - lx,
            (max ly (normBound (mkOverview s k).dsize.2 (max 0 ⌈((2 : ℚ) ^ k)⁻¹ * y1⌉))) - ly)
            ((Affine.trans (-(lx : ℚ)) (-(ly : ℚ))).app ((ovScale k).app q)) := by
          rw [in_crop, ovScale, Affine.app_scale]
          exact ⟨ax.1, nx2, ay.1, ny2⟩
        refine ⟨eT, ?_, ?_⟩
        · have h2 := app_lt_auto (Affine.trans ox oy) (by simp) _ _ hin1
          rw [← Affine.app_mul, ← Affine.app_mul, Affine.mul_assoc', eT] at h2
          exact ⟨hR1.1, h2.1, hR1.2.2.1, h2.2⟩
        · rw [← eT, Affine.app_mul, Affine.inv_app_app _ (by simp), Affine.app_mul]
          refine ⟨hin1, ?_⟩
          rw [Affine.inv_app_app _ (by simp)]
          exact in_mkOverview k s q hin
    split at h
    · rename_i hoff
      simp only [Except.ok.injEq] at h
      subst h
      obtain ⟨e1, e2⟩ := hH hoff
      have := key 0 0 e1.symm e2.symm
      refine ⟨this.trans ?_, hwf⟩
      have e : Affine.trans 0 0 = Affine.id := rfl
      rw [mkWarp, e]
      exact sim_idWarp _ _ _
    · simp only [Except.ok.injEq] at h
      subst h
      refine ⟨key _ _ rfl rfl, hwf, by simp⟩

end Tree
end Verif
