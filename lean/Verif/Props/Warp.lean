/-
C29, C30: overviews of overviews and warps of warps.
-/
import Verif.SharpRules
import Verif.KeepRules
import Verif.Built

namespace Verif
namespace Props

open Tree Tree.Node Helpers

/-! ### C29: overview sizes compose -/

/-- `s.get_overview(kn) ... .get_overview(k1)`, the last call first in the list. -/
def levels (s : Node) : List Nat → Node
  | [] => s
  | k :: ks => mkOverview (levels s ks) k

/-- The size of an overview is the smallest one that covers the image: `d` with
`w ≤ 2 ** k * d < w + 2 ** k` on each axis. -/
theorem C29_size (s : Node) (k : Nat) :
    s.dsize.1 ≤ 2 ^ k * (mkOverview s k).dsize.1 ∧
    2 ^ k * (mkOverview s k).dsize.1 < s.dsize.1 + 2 ^ k ∧
    s.dsize.2 ≤ 2 ^ k * (mkOverview s k).dsize.2 ∧
    2 ^ k * (mkOverview s k).dsize.2 < s.dsize.2 + 2 ^ k := by
  have key : ∀ w : Int, w ≤ 2 ^ k * ovSize k w ∧ 2 ^ k * ovSize k w < w + 2 ^ k := by
    intro w
    have h2 : (0 : ℚ) < 2 ^ k := by positivity
    have h1 := Int.le_ceil (((2 : ℚ) ^ k)⁻¹ * w)
    have h3 := Int.ceil_lt_add_one (((2 : ℚ) ^ k)⁻¹ * w)
    have e : ovSize (k : Int) w = ⌈((2 : ℚ) ^ k)⁻¹ * w⌉ := by simp [ovSize]
    rw [e]
    have e2 : (2 : ℚ) ^ k * (((2 : ℚ) ^ k)⁻¹ * w) = w := by
      field_simp
    have g1 := mul_le_mul_of_nonneg_left h1 h2.le
    have g2 := mul_lt_mul_of_pos_left h3 h2
    rw [e2] at g1
    rw [mul_add, e2, mul_one] at g2
    constructor
    · exact_mod_cast g1
    · exact_mod_cast g2
  exact ⟨(key _).1, (key _).2, (key _).1, (key _).2⟩

/-- Overviews of overviews have the size of the overview with the sum of the levels, for every image. -/
theorem C29_sizes_compose (s : Node) (a b : Nat) :
    (mkOverview (mkOverview s a) b).dsize = (mkOverview s ((a + b : Nat) : Int)).dsize := by
  simp only [mkOverview, Node.dsize]
  rw [ovSize_ovSize _ _ _ (by omega), ovSize_ovSize _ _ _ (by omega)]
  push_cast
  rfl

theorem levels_size (s : Node) (ks : List Nat) :
    (levels s ks).dsize = (mkOverview s (ks.sum : Int)).dsize := by
  induction ks with
  | nil => simp [levels, mkOverview, Node.dsize, ovSize_zero]
  | cons k ks ih =>
    have e : (levels s (k :: ks)).dsize = (mkOverview (mkOverview s (ks.sum : Int)) (k : Int)).dsize := by
      simp only [levels, mkOverview, Node.dsize] at ih ⊢
      rw [ih]
    rw [e, C29_sizes_compose, List.sum_cons, Nat.add_comm]

/-- The number of overviews goes down by the levels used. -/
theorem C29_count (s : Node) (n : Int) (h : s.numOverviews = .ok (some n)) (ks : List Nat) :
    (levels s ks).numOverviews = .ok (some (n - ks.sum)) := by
  induction ks with
  | nil => simpa [levels] using h
  | cons k ks ih =>
    simp only [levels, mkOverview, numOverviews, ih, List.sum_cons]
    congr 2
    push_cast
    ring

/-- Optimizing any chain of overviews of an image gives one overview with the sum of the levels (and the
image itself if the sum is zero). -/
theorem C29_optimize (H : Heur) (l : Leaf) (ks : List Nat) (fuel : Nat) (hf : ks.length < fuel) :
    opt H fuel (levels (.leaf l) ks) =
      .ok (if ks.sum = 0 then .leaf l else mkOverview (.leaf l) (ks.sum : Int)) := by
  induction ks generalizing fuel with
  | nil =>
    cases fuel with
    | zero => simp at hf
    | succ n => simp [levels, opt, optStep]
  | cons k ks ih =>
    cases fuel with
    | zero => simp at hf
    | succ n =>
      have ih := ih n (by simpa using hf)
      simp only [levels, mkOverview, opt, optStep, optOverview, ih]
      by_cases h0 : ks.sum = 0
      · simp only [h0, if_true, overviewRest, List.sum_cons, Nat.add_zero]
        by_cases hk : k = 0
        · simp [hk, finish, subOf]
        · have hs := levels_size (.leaf l) ks
          rw [h0] at hs
          simp only [mkOverview, Node.dsize, Nat.cast_zero, ovSize_zero] at hs
          have hk' : (k : Int) ≠ 0 := by omega
          rw [if_neg hk', if_neg hk]
          simp only [finish, subOf]
          have hs' : (levels (.leaf l) ks).dsize = l.dsize := hs
          rw [hs']
          rfl
      · rw [if_neg h0]
        have h1 : ¬ (k :: ks).sum = 0 := by simp [List.sum_cons, h0]
        have h2 : ¬ ((ks.sum : Int) + (k : Int) = 0) := by omega
        rw [if_neg h1]
        simp only [mkOverview, overviewRest, h2, if_false, finish, subOf, List.sum_cons]
        push_cast
        rw [add_comm (k : Int)]
        rfl

/-- A 7 by 10 image: overviews 1 and 2 have size 1 by 2, as overview 3. -/
example : (levels (.leaf ⟨1, (7, 10), 1, none, some 3, false⟩) [2, 1]).dsize = (1, 2) ∧
    (levels (.leaf ⟨1, (7, 10), 1, none, some 3, false⟩) [3]).dsize = (1, 2) ∧
    (levels (.leaf ⟨1, (7, 10), 1, none, some 3, false⟩) [2, 1]).numOverviews = .ok (some 0) := by
  decide +kernel

/-! ### C30: fusing warps composes their transforms -/

/-- One call of `warp`. -/
structure Call where
  tf : Affine
  d : Int × Int
  algo : Algo

/-- `s.warp(...)...`, the last call first in the list. -/
def warps (s : Node) : List Call → Node
  | [] => s
  | w :: ws => .warp (warps s ws) w.tf w.d w.algo

/-- The composition of the transforms. -/
def total : List Call → Affine
  | [] => .id
  | w :: ws => w.tf * total ws

/-- No canvas of the chain cuts the point off. -/
def Unclipped : List Call → ℚ × ℚ → Prop
  | [], _ => True
  | w :: ws, p => In w.d p ∧ Unclipped ws (w.tf.inv.app p)

/-- A leaf that has data and no overviews. -/
def Bare (l : Leaf) : Prop := l.nan = false ∧ (l.overviews = none ∨ l.overviews = some 0)

/-- The result of optimizing a chain of warps `ws` over a leaf: a single warp with the composed transform,
the size and the resampling parameters of the last call, or the image itself if the composition is the
identity and the size is that of the image. -/
def Fused (l : Leaf) (ws : List Call) (r : Node) : Prop :=
  (r = .leaf l ∧ total ws = .id ∧ (warps (.leaf l) ws).dsize = l.dsize) ∨
  ∃ w ∈ ws.head?, ∃ a, r = .warp (.leaf l) (total ws) w.d a ∧ a.interp = w.algo.interp ∧
    a.antialias = w.algo.antialias ∧ a.border = w.algo.border ∧ a.noopEps = w.algo.noopEps

theorem bare_rest (H : Heur) (rec : Node → Py Node) (l : Leaf) (hl : Bare l) (tf : Affine) (d : Int × Int)
    (a : Algo) : warpRest H rec (.leaf l) tf d a = .ok (.leaf l) ∧ H.negl a.noopEps tf = true ∧ d = l.dsize ∨
    warpRest H rec (.leaf l) tf d a = .ok (.warp (.leaf l) tf d a) := by
  unfold warpRest
  by_cases h : d = (Node.leaf l : Node).dsize ∧ H.negl a.noopEps tf = true
  · rw [if_pos h]; exact .inl ⟨rfl, h.2, h.1⟩
  · rw [if_neg h]
    right
    have hs : split H rec (.leaf l) tf d a = .ok none := by
      unfold split
      simp only [numOverviews]
      rcases hl.2 with e | e <;> rw [e] <;> simp
    simp only [hl.1, hs, absorb, look]
    simp only [Bool.false_eq_true, if_false]
    split <;> rfl

/-- Optimizing a chain of any number of warps of an image gives one warp with the composed transform. -/
theorem C30_optimize (H : Heur) (l : Leaf) (hl : Bare l) (ws : List Call) (hH : Sharp H (warps (.leaf l) ws)) (fuel : Nat)
    (hf : ws.length < fuel) : ∃ r, opt H fuel (warps (.leaf l) ws) = .ok r ∧ Fused l ws r := by
  induction ws generalizing fuel with
  | nil =>
    cases fuel with
    | zero => simp at hf
    | succ n => exact ⟨.leaf l, rfl, .inl ⟨rfl, rfl, rfl⟩⟩
  | cons w ws ih =>
    cases fuel with
    | zero => simp at hf
    | succ n =>
      obtain ⟨r, e, hr⟩ := ih (hH.sub rfl) n (by simpa using hf)
      simp only [warps, opt, optStep, optWarp, e]
      rcases hr with ⟨rfl, ht, _⟩ | ⟨v, _, a, rfl, _⟩
      · have et : total (w :: ws) = w.tf := by simp [total, ht]
        rcases bare_rest H (opt H n) l hl w.tf w.d w.algo with ⟨e1, e2, e3⟩ | e1
        · exact ⟨_, e1, .inl ⟨rfl, by rw [et]; exact hH.negl e2, e3⟩⟩
        · exact ⟨_, e1, .inr ⟨w, rfl, w.algo, by rw [et], rfl, rfl, rfl, rfl⟩⟩
      · rcases bare_rest H (opt H n) l hl (w.tf * total ws) w.d w.algo.common with ⟨e1, e2, e3⟩ | e1
        · exact ⟨_, e1, .inl ⟨rfl, hH.negl e2, e3⟩⟩
        · exact ⟨_, e1, .inr ⟨w, rfl, w.algo.common, rfl, rfl, rfl, rfl, rfl⟩⟩

theorem total_det (ws : List Call) (h : ∀ w ∈ ws, w.tf.det ≠ 0) : (total ws).det ≠ 0 := by
  induction ws with
  | nil => simp [total]
  | cons w ws ih =>
    simp only [total, Affine.det_mul]
    exact mul_ne_zero (h w (by simp)) (ih fun v hv => h v (by simp [hv]))

theorem den_warps (s : Node) (ws : List Call) (h : ∀ w ∈ ws, w.tf.det ≠ 0) :
    den (warps s ws) = (den s).map (Chan.via (total ws) (Unclipped ws)) := by
  induction ws with
  | nil =>
    simp only [warps, total]
    conv => lhs; rw [← List.map_id' (den s)]
    apply List.map_congr_left
    intro c _
    simp [Chan.via, Unclipped]
  | cons w ws ih =>
    have ih := ih fun v hv => h v (by simp [hv])
    simp only [warps, den_warp, ih, List.map_map]
    apply List.map_congr_left
    intro c _
    simp only [Function.comp]
    rw [map_via _ _ (h w (by simp)) (total_det ws fun v hv => h v (by simp [hv]))]
    rfl

/-- Every channel of the unoptimized chain shows the same value as the single warp at the points that no
canvas cuts off, and nothing at the others; for all images and dequantizations. -/
theorem C30_values {V : Type} (img : Nat → Nat → ℚ × ℚ → V) (deq : Quantization → V → V) (s : Node)
    (w : Call) (ws : List Call) (h : ∀ v ∈ w :: ws, v.tf.det ≠ 0) (a : Algo) (k : Nat) (hk : k < s.nchan)
    (p : ℚ × ℚ) :
    (Unclipped (w :: ws) p →
      ((den (warps s (w :: ws))).getD k Chan.none).value img deq p =
      ((den (.warp s (total (w :: ws)) w.d a)).getD k Chan.none).value img deq p) ∧
    (¬ Unclipped (w :: ws) p →
      ((den (warps s (w :: ws))).getD k Chan.none).value img deq p = none) := by
  have hk' : k < (den s).length := by rw [den_length]; exact hk
  rw [den_warps s _ h, den_warp, getD_map_chan hk', getD_map_chan hk']
  generalize (den s).getD k Chan.none = c
  constructor
  · intro hu
    unfold Chan.value
    have e : ((c.via (total (w :: ws)) (Unclipped (w :: ws))).dom p) ↔
        ((c.map (total (w :: ws)) w.d).dom p) := by
      simp only [Chan.via, Chan.map]
      exact and_congr_left fun _ => ⟨fun _ => hu.1, fun _ => hu⟩
    by_cases hd : (c.map (total (w :: ws)) w.d).dom p
    · rw [if_pos (e.2 hd), if_pos hd]; rfl
    · rw [if_neg (fun h' => hd (e.1 h')), if_neg hd]
  · intro hu
    unfold Chan.value
    rw [if_neg]
    exact fun h' => hu h'.1

/-- A 10 by 10 image moved right by 8, out of the canvas, and back by 8: the single warp shows the whole
image, the chain only its two left columns. -/
def thereAndBack : List Call :=
  [⟨.trans (-8) 0, (10, 10), .default⟩, ⟨.trans 8 0, (10, 10), .default⟩]

example : (∀ v ∈ thereAndBack, v.tf.det ≠ 0) ∧ Unclipped thereAndBack (1 / 2, 1 / 2) ∧
    ¬ Unclipped thereAndBack (5 / 2, 1 / 2) ∧ total thereAndBack = .id := by
  have e : total thereAndBack = .id := by
    ext <;> norm_num [thereAndBack, total, Affine.mul_def, Affine.mul, Affine.trans, Affine.id]
  refine ⟨by simp [thereAndBack], ?_, ?_, e⟩
  · norm_num [Unclipped, thereAndBack, In, Affine.inv_trans, Affine.app_trans]
  · norm_num [Unclipped, thereAndBack, In, Affine.inv_trans, Affine.app_trans]

example : Bare ⟨1, (10, 10), 1, none, none, false⟩ := ⟨rfl, .inl rfl⟩

end Props
end Verif
