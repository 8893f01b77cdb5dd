/-
C36 and others for images in which nothing is cut off before the last step: there `optimize` shows exactly the
points and pixels that were shown before.
-/
import Verif.Props.Early
import Verif.Props.Resize
import Verif.Props.Group
import Verif.Props.Check
import Verif.Props.Select

namespace Verif.Props

open Verif.Tree Verif.Helpers Verif.Tree.Node

variable {V : Type} {box : Nat → Int × Int}

/-- The sizes of the files. -/
def Sized (box : Nat → Int × Int) (l : Leaf) : Prop := l.nan = false → l.dsize = box l.id

/-- A channel shows every point of its file that is on the canvas. -/
def Chan.Full (box : Nat → Int × Int) (d : Int × Int) (c : Chan) : Prop :=
  ∀ p, In d p → In (box c.id) (c.tf.inv.app p) → c.dom p

theorem map_inv {c : Chan} {m : Affine} {d : Int × Int} (hm : m.det ≠ 0) (hc : c.tf.det ≠ 0) (p : ℚ × ℚ) :
    (c.map m d).tf.inv.app p = c.tf.inv.app (m.inv.app p) := by
  simp only [Chan.map]
  rw [Affine.inv_mul_rev _ _ hm hc, Affine.app_mul]

theorem mem_selDen {s : Node} {cs : Option (List Nat)} {c : Chan} (h : c ∈ selDen s cs) :
    c ∈ den s ∨ c = Chan.none := by
  cases cs with
  | none => exact .inl h
  | some cs =>
    simp only [selDen, pick, List.mem_map] at h
    obtain ⟨k, _, rfl⟩ := h
    rw [List.getD_eq_getElem?_getD]
    cases e : (den s)[k]? with
    | none => exact .inr rfl
    | some x => exact .inl (List.mem_of_getElem? e)

mutual
/-- What is shown is in the file. -/
theorem den_box : ∀ n : Node, WF n → Each (Sized box) n → ∀ c ∈ den n, ∀ p, c.dom p → In (box c.id) (c.tf.inv.app p)
  | .leaf l, _, hs, c, hc, p, hp => by
    simp only [den, List.mem_map] at hc
    obtain ⟨i, _, rfl⟩ := hc
    simp only [Chan.leaf, Affine.inv_id, Affine.app_id] at hp ⊢
    rw [← hs hp.1]
    exact hp.2
  | .concat ps d, h, hs, c, hc, p, hp => denL_box ps d h.2 hs c hc p hp
  | .warp s tf d _, h, hs, c, hc, p, hp => by
    simp only [den, List.mem_map] at hc
    obtain ⟨i, hi, rfl⟩ := hc
    rw [map_inv h.2 (den_det s h.1 i hi)]
    exact den_box s h.1 hs i hi _ hp.2
  | .crop s _ _ _ _ cs, h, hs, c, hc, p, hp => by
    rw [den_crop, List.mem_map] at hc
    obtain ⟨i, hi, rfl⟩ := hc
    rcases mem_selDen hi with hi | rfl
    · rw [map_inv (by simp) (den_det s h.1 i hi)]
      exact den_box s h.1 hs i hi _ hp.2
    · exact hp.2.elim
  | .overview s k _, h, hs, c, hc, p, hp => by
    simp only [den, List.mem_map] at hc
    obtain ⟨i, hi, rfl⟩ := hc
    rw [map_inv (det_ovScale k) (den_det s h i hi)]
    exact den_box s h hs i hi _ hp.2
  | .dequant s _ d, h, hs, c, hc, p, hp => by
    simp only [den, List.mem_map] at hc
    obtain ⟨i, hi, rfl⟩ := hc
    show In (box i.id) ((i.map .id d).tf.inv.app p)
    rw [map_inv (by simp) (den_det s h i hi)]
    exact den_box s h hs i hi _ hp.2
theorem denL_box : ∀ (ps : List Node) (d : Int × Int), WFL d ps → EachL (Sized box) ps → ∀ c ∈ denL ps, ∀ p,
    c.dom p → In (box c.id) (c.tf.inv.app p)
  | [], _, _, _, c, hc, _, _ => by simp [denL] at hc
  | q :: ps, d, h, hs, c, hc, p, hp => by
    simp only [denL, List.mem_append] at hc
    rcases hc with hc | hc
    · exact den_box q h.1 hs.1 c hc p hp
    · exact denL_box ps d h.2.2 hs.2 c hc p hp
end

mutual
/-- Nothing of any file is cut off: there are no crops and every canvas holds everything below it. -/
def Uncut : Node → Prop
  | .leaf _ => True
  | .concat ps _ => UncutL ps
  | .warp s tf d _ => Uncut s ∧ ∀ p, In s.dsize p → In d (tf.app p)
  | .crop _ _ _ _ _ _ => False
  | .overview s k d => Uncut s ∧ ∀ p, In s.dsize p → In d ((ovScale k).app p)
  | .dequant s _ _ => Uncut s
def UncutL : List Node → Prop
  | [] => True
  | p :: ps => Uncut p ∧ UncutL ps
end

mutual
/-- Nothing is cut off before the last warp: crops and channel selections are above all warps and overviews, and
every canvas but the last one holds everything below it. -/
def Entire : Node → Prop
  | .leaf _ => True
  | .concat ps _ => EntireL ps
  | .warp s _ _ _ => Uncut s
  | .crop s _ _ _ _ _ => Entire s
  | .overview s _ _ => Uncut s
  | .dequant s _ _ => Entire s
def EntireL : List Node → Prop
  | [] => True
  | p :: ps => Entire p ∧ EntireL ps
end

mutual
theorem uncut_dom : ∀ n : Node, WF n → Fit n → Each (Sized box) n → Uncut n → ∀ c ∈ den n, Visible c → ∀ p,
    In (box c.id) (c.tf.inv.app p) → c.dom p
  | .leaf l, _, _, hs, _, c, hc, hv, p, hp => by
    simp only [den, List.mem_map] at hc
    obtain ⟨i, _, rfl⟩ := hc
    obtain ⟨q, hq⟩ := hv
    simp only [Chan.leaf, Affine.inv_id, Affine.app_id] at hp hq ⊢
    rw [← hs hq.1] at hp
    exact ⟨hq.1, hp⟩
  | .concat ps d, h, hf, hs, hu, c, hc, hv, p, hp => uncutL_dom ps d h.2 hf.2 hs hu c hc hv p hp
  | .warp s tf d _, h, hf, hs, hu, c, hc, hv, p, hp => by
    simp only [den, List.mem_map] at hc
    obtain ⟨i, hi, rfl⟩ := hc
    rw [map_inv h.2 (den_det s h.1 i hi)] at hp
    obtain ⟨q, hq⟩ := hv
    have hd := uncut_dom s h.1 hf.2 hs hu.1 i hi ⟨_, hq.2⟩ _ hp
    have := hu.2 _ (den_in s h.1 i hi _ hd)
    rw [Affine.app_inv_app _ h.2] at this
    exact ⟨this, hd⟩
  | .crop s _ _ _ _ cs, _, _, _, hu, _, _, _, _, _ => hu.elim
  | .overview s k d, h, hf, hs, hu, c, hc, hv, p, hp => by
    simp only [den, List.mem_map] at hc
    obtain ⟨i, hi, rfl⟩ := hc
    rw [map_inv (det_ovScale k) (den_det s h i hi)] at hp
    obtain ⟨q, hq⟩ := hv
    have hd := uncut_dom s h hf.1 hs hu.1 i hi ⟨_, hq.2⟩ _ hp
    have := hu.2 _ (den_in s h i hi _ hd)
    rw [Affine.app_inv_app _ (det_ovScale k)] at this
    exact ⟨this, hd⟩
  | .dequant s _ d, h, hf, hs, hu, c, hc, hv, p, hp => by
    simp only [den, List.mem_map] at hc
    obtain ⟨i, hi, rfl⟩ := hc
    replace hp : In (box i.id) ((i.map .id d).tf.inv.app p) := hp
    rw [map_inv (by simp) (den_det s h i hi)] at hp
    obtain ⟨q, hq⟩ := hv
    have hd := uncut_dom s h hf.1 hs hu i hi ⟨_, hq.2⟩ _ hp
    have hin := den_in s h i hi _ hd
    rw [← hf.2] at hin
    refine ⟨?_, hd⟩
    simpa using hin
theorem uncutL_dom : ∀ (ps : List Node) (d : Int × Int), WFL d ps → FitL ps → EachL (Sized box) ps → UncutL ps →
    ∀ c ∈ denL ps, Visible c → ∀ p, In (box c.id) (c.tf.inv.app p) → c.dom p
  | [], _, _, _, _, _, c, hc, _, _, _ => by simp [denL] at hc
  | q :: ps, d, h, hf, hs, hu, c, hc, hv, p, hp => by
    simp only [denL, List.mem_append] at hc
    rcases hc with hc | hc
    · exact uncut_dom q h.1 hf.1 hs.1 hu.1 c hc hv p hp
    · exact uncutL_dom ps d h.2.2 hf.2 hs.2 hu.2 c hc hv p hp
end

mutual
theorem whole_full : ∀ n : Node, WF n → Fit n → Each (Sized box) n → Entire n → ∀ c ∈ den n, Visible c →
    Chan.Full box n.dsize c
  | .leaf l, h, hf, hs, _, c, hc, hv => fun p _ hp => uncut_dom (.leaf l) h hf hs trivial c hc hv p hp
  | .concat ps d, h, hf, hs, hu, c, hc, hv => wholeL_full ps d h.2 hf.2 hs hu c hc hv
  | .warp s tf d _, h, hf, hs, hu, c, hc, hv => fun p hd hp => by
    simp only [den, List.mem_map] at hc
    obtain ⟨i, hi, rfl⟩ := hc
    rw [map_inv h.2 (den_det s h.1 i hi)] at hp
    obtain ⟨q, hq⟩ := hv
    exact ⟨hd, uncut_dom s h.1 hf.2 hs hu i hi ⟨_, hq.2⟩ _ hp⟩
  | .crop s y0 y1 x0 x1 cs, h, hf, hs, hu, c, hc, hv => fun p hd hp => by
    rw [den_crop, List.mem_map] at hc
    obtain ⟨i, hi, rfl⟩ := hc
    obtain ⟨q, hq⟩ := hv
    rcases mem_selDen hi with hi | rfl
    · rw [map_inv (by simp) (den_det s h.1 i hi)] at hp
      refine ⟨hd, whole_full s h.1 hf.1 hs hu i hi ⟨_, hq.2⟩ _ ?_ hp⟩
      obtain ⟨d1, d2, d3, d4⟩ := hd
      obtain ⟨_, hy0, hx0, _⟩ := h
      obtain ⟨_, _, hy1, _, hx1⟩ := hf
      have e1 : (0 : ℚ) ≤ y0 := by exact_mod_cast hy0
      have e2 : (0 : ℚ) ≤ x0 := by exact_mod_cast hx0
      have e3 : (y1 : ℚ) ≤ s.dsize.2 := by exact_mod_cast hy1
      have e4 : (x1 : ℚ) ≤ s.dsize.1 := by exact_mod_cast hx1
      simp only [dsize] at d1 d2 d3 d4
      push_cast at d2 d4
      rw [Affine.inv_trans, Affine.app_trans]
      refine ⟨?_, ?_, ?_, ?_⟩ <;> simp only <;> linarith
    · exact hq.2.elim
  | .overview s k d, h, hf, hs, hu, c, hc, hv => fun p hd hp => by
    simp only [den, List.mem_map] at hc
    obtain ⟨i, hi, rfl⟩ := hc
    rw [map_inv (det_ovScale k) (den_det s h i hi)] at hp
    obtain ⟨q, hq⟩ := hv
    exact ⟨hd, uncut_dom s h hf.1 hs hu i hi ⟨_, hq.2⟩ _ hp⟩
  | .dequant s _ d, h, hf, hs, hu, c, hc, hv => fun p hd hp => by
    simp only [den, List.mem_map] at hc
    obtain ⟨i, hi, rfl⟩ := hc
    replace hp : In (box i.id) ((i.map .id d).tf.inv.app p) := hp
    rw [map_inv (by simp) (den_det s h i hi)] at hp
    obtain ⟨q, hq⟩ := hv
    refine ⟨hd, whole_full s h hf.1 hs hu i hi ⟨_, hq.2⟩ _ ?_ hp⟩
    rw [Affine.inv_id, Affine.app_id, ← hf.2]
    exact hd
theorem wholeL_full : ∀ (ps : List Node) (d : Int × Int), WFL d ps → FitL ps → EachL (Sized box) ps → EntireL ps →
    ∀ c ∈ denL ps, Visible c → Chan.Full box d c
  | [], _, _, _, _, _, c, hc, _ => by simp [denL] at hc
  | q :: ps, d, h, hf, hs, hu, c, hc, hv => by
    simp only [denL, List.mem_append] at hc
    rcases hc with hc | hc
    · rw [← h.2.1]; exact whole_full q h.1 hf.1 hs.1 hu.1 c hc hv
    · exact wholeL_full ps d h.2.2 hf.2 hs.2 hu.2 c hc hv
end

/-- Images in which nothing is cut off before the last step show every point of their files that is on the canvas. -/
theorem Entire.full {n : Node} (hb : Built n) (hs : Each (Sized box) n) (hw : Entire n) {c : Chan} (hc : c ∈ den n)
    (hv : Visible c) : Chan.Full box n.dsize c :=
  whole_full n hb.ok.1 hb.ok.2 hs hw c hc hv

/-- A channel that shows everything cannot show more. -/
theorem full_exact {n m : Node} (hd : m.dsize = n.dsize) (hm : WF m) (hsm : Each (Sized box) m) {c c' : Chan}
    (hc' : c' ∈ den m) (hle : c.Le c') (hv : Visible c) (hf : Chan.Full box n.dsize c) :
    c'.id = c.id ∧ c'.ch = c.ch ∧ c'.tf = c.tf ∧ c'.qs = c.qs ∧ ∀ p, c'.dom p ↔ c.dom p := by
  obtain ⟨p, hp⟩ := hv
  rcases hle.2 with h0 | ⟨e1, e2, e3, e4⟩
  · exact absurd hp (h0 p)
  · refine ⟨e1, e2, e3, e4, fun q => ⟨fun hq => ?_, hle.1 q⟩⟩
    have h1 := den_box m hm hsm c' hc' q hq
    rw [e1, e3] at h1
    exact hf q (hd ▸ den_in m hm c' hc' q hq) h1

theorem sized_stable (box : Nat → Int × Int) : Stable (Each (Sized box)) :=
  stable_each (Sized box) (fun _ _ _ h => by cases h)

/-- C36, points: a channel that shows every point of its file that is on the canvas (all channels do that if nothing
is cut off before the last step, `Entire.full`) shows exactly the same points of the same file afterwards, for all
warps.  Missing: with overviews the size may change (`C36_size_violated`), and images cut off earlier may show more
afterwards. -/
theorem C36_points_partial (H : Heur) {n : Node} (hH : Sharp H n) (hb : Built n) (ho : NoOv n)
    (hs : Each (Sized box) n) (fuel : Nat) {m : Node} (h : opt H fuel n = .ok m) (i : Nat) (c : Chan)
    (hc : (den n)[i]? = some c) (hv : Visible c) (hf : Chan.Full box n.dsize c) :
    ∃ c', (den m)[i]? = some c' ∧ c'.id = c.id ∧ c'.ch = c.ch ∧ c'.tf = c.tf ∧ c'.qs = c.qs ∧
      ∀ p, c'.dom p ↔ c.dom p := by
  have g := opt_good (deep := false) (sizeRules H) (by simp) fuel n m ⟨hb.ok.1, hb.ok.2, ho⟩ h
  have g1 := (hH.opt hb.ok.1 h).1
  have g2 := opt_good (deep := false) (keepRules H (nameRules H) (sized_stable box)) (by simp) fuel n m
    ⟨hb.ok.1, hs⟩ h
  obtain ⟨hi, e⟩ := List.getElem?_eq_some_iff.1 hc
  have hi' : i < (den m).length := by rw [← g1.den.length_eq]; exact hi
  have hle : ((den n)[i]).Le ((den m)[i]) := List.Forall₂.get g1.den hi hi'
  rw [e] at hle
  exact ⟨(den m)[i], List.getElem?_eq_getElem hi',
    full_exact g.rel.1 g.inv.wf g2.inv.2 (List.getElem_mem hi') hle hv hf⟩

/-- The sizes of the arrays. -/
def Env.sizes (E : Env V) (k : Nat) : Int × Int := ((E.img k).w, (E.img k).h)

theorem matches_sized {E : Env V} {l : Leaf} (h : E.Matches l) : Sized (Env.sizes E) l := fun hn => by
  obtain ⟨h1, h2, _⟩ := h hn
  exact Prod.ext h2.symm h1.symm

mutual
theorem each_imp {f g : Leaf → Prop} (h : ∀ l, f l → g l) : ∀ n : Node, Each f n → Each g n
  | .leaf l, hn => h l hn
  | .concat ps _, hn => eachL_imp h ps hn
  | .warp s _ _ _, hn => each_imp h s hn
  | .crop s _ _ _ _ _, hn => each_imp h s hn
  | .overview s _ _, hn => each_imp h s hn
  | .dequant s _ _, hn => each_imp h s hn
theorem eachL_imp {f g : Leaf → Prop} (h : ∀ l, f l → g l) : ∀ ps : List Node, EachL f ps → EachL g ps
  | [], _ => trivial
  | p :: ps, hn => ⟨each_imp h p hn.1, eachL_imp h ps hn.2⟩
end

/-- All channels show something, and every point of their files that is on the canvas. -/
def Shown (E : Env V) (n : Node) : Prop := ∀ c ∈ den n, Visible c ∧ Chan.Full (Env.sizes E) n.dsize c

/-- Arrays of images that show the same. -/
theorem shown_same {E : Env V} {n m : Node} (hd : m.dsize = n.dsize) (hm : WF m) (hsm : Each E.Matches m)
    (hs : Sim n m) {i j : Img V} (hi : Shows E n i) (hj : Shows E m j) (hf : Shown E n) : i.Same j := by
  obtain ⟨e1, e2, e3, _⟩ := shows_sim hd hs hi hj
  refine ⟨e1, e2, e3, fun y x k hy hx hk => ?_⟩
  have hkn : k < n.nchan := by rw [← hi.n]; exact hk
  have hkm : k < m.nchan := by rw [hs.nchan]; exact hkn
  rw [hi.px y x k hy hx hk, hj.px y x k (by omega) (by omega) (by omega)]
  obtain ⟨hv, hf⟩ := hf _ (getD_mem_den hkn)
  obtain ⟨f1, f2, f3, f4, f5⟩ := full_exact hd hm (each_imp (fun _ => matches_sized) m hsm) (getD_mem_den hkm)
    (forall₂_getD hs.den k) hv hf
  unfold Env.val Chan.value
  rw [f1, f2, f3, f4]
  by_cases hp : ((den n).getD k Chan.none).dom (ctr y x)
  · rw [if_pos hp, if_pos ((f5 _).2 hp)]
  · rw [if_neg hp, if_neg (fun h => hp ((f5 _).1 h))]

/-- C36, arrays with warps that mirror, turn by quarters or move by whole pixels: if all channels show something and
nothing is cut off before the last step, `finalize()`, which optimizes, and `finalize(optimize=False)` give the same
array.  Missing: other warps. -/
theorem C36_arrays_whole_partial (H : Heur) (E : Env V) (hE : E.Ok) {n : Node} (hH : Sharp H n) (hb : Built n)
    (ho : NoOv n) (hp : Pix n) (hm : Each E.Matches n) (hw : Shown E n) (fuel : Nat) {m : Node}
    (h : opt H fuel n = .ok m) : ∃ i j, fin E n = .ok i ∧ finalize H E fuel n = .ok j ∧ i.Same j := by
  obtain ⟨hwf, hfit⟩ := hb.ok
  have g := opt_good (deep := false) (pixRules H) (by simp) fuel n m ⟨⟨hwf, hfit, ho⟩, hp⟩ h
  have g1 := (hH.opt hwf h).1
  have g2 := opt_good (deep := false) (keepRules H (nameRules H) (stable_each E.Matches
    (fun _ _ _ h => by cases h))) (by simp) fuel n m ⟨hwf, hm⟩ h
  obtain ⟨i, ei, hi⟩ := fin_den hE n hwf hfit hp hm
  obtain ⟨j, ej, hj⟩ := fin_den hE m g.inv.1.wf g.inv.1.fit g.inv.2 g2.inv.2
  exact ⟨i, j, ei, by rw [finalize, h]; exact ej, shown_same g.rel.1 g.inv.1.wf g2.inv.2 g1 hi hj hw⟩

theorem same_carry {i j : Img V} (h : i.Same j) (m : Affine) (d : Int × Int) (v : V) :
    (i.carry m d v).Same (j.carry m d v) := by
  obtain ⟨h1, h2, h3, h4⟩ := h
  refine ⟨rfl, rfl, h3, fun y x k _ _ hk => ?_⟩
  simp only [Img.carry] at hk ⊢
  rw [← h1, ← h2]
  by_cases hc : 0 ≤ (m.inv.app (ctr y x)).2 ∧ (m.inv.app (ctr y x)).2 < (i.h : ℚ) ∧ 0 ≤ (m.inv.app (ctr y x)).1 ∧
      (m.inv.app (ctr y x)).1 < (i.w : ℚ)
  · rw [if_pos hc, if_pos hc]
    have e : ∀ (q : ℚ) (k : Nat), 0 ≤ q → q < (k : ℚ) → ⌊q⌋.toNat < k := fun q k h0 h1 => by
      have : ⌊q⌋ < (k : Int) := Int.floor_lt.2 (by exact_mod_cast h1)
      have : 0 ≤ ⌊q⌋ := Int.floor_nonneg.2 h0
      omega
    exact h4 _ _ _ (e _ _ hc.1 hc.2.1) (e _ _ hc.2.2.1 hc.2.2.2) hk
  · rw [if_neg hc, if_neg hc]

/-- An environment in which arrays are moved. -/
def turnEnv : Env (Nat × Nat × Nat) :=
  { Env.moved shapeEnv with resize := fun d i => i.carry .id d (9, 9, 9) }

theorem turnEnv_ok : turnEnv.Ok := ⟨fun _ _ _ _ _ _ => Img.Same.refl _, fun _ => rfl⟩

theorem turnEnv_reads : Env.Reads turnEnv := ⟨fun _ _ _ _ _ h => same_carry h .., fun _ _ _ h => same_carry h ..⟩

theorem turnEnv_shaped : Env.Shaped turnEnv := ⟨fun _ _ _ _ => rfl, fun _ _ => rfl, fun _ _ _ => rfl⟩

theorem turnEnv_matches : Each turnEnv.Matches turnTree := fun _ => ⟨rfl, rfl, rfl⟩

/-- Nothing is cut off before the crop. -/
theorem turn_entire : Entire turnTree := by
  refine ⟨trivial, fun p hp => ?_⟩
  obtain ⟨h1, h2, h3, h4⟩ := hp
  simp only [Node.dsize, rgbLeaf] at h2 h4
  norm_num at h2 h4
  refine ⟨?_, ?_, ?_, ?_⟩ <;> simp only [Affine.app] <;> norm_num <;> linarith

/-- The only channel of the image. -/
theorem turn_den : den turnTree = [(((Chan.leaf rgbLeaf 2).map ⟨-1, 0, 5, 0, 1, 0⟩ (5, 4)).map ⟨0, -1, 4, 1, 0, 0⟩
    (4, 5)).map (.trans (-(0 : Int)) (-(1 : Int))) (3, 3)] := rfl

theorem turn_shown : Shown turnEnv turnTree := by
  intro c hc
  have hv : Visible c := by
    rw [turn_den, List.mem_singleton] at hc
    subst hc
    refine ⟨(1 / 2, 1 / 2), ?_⟩
    simp only [Chan.map, Chan.leaf, In, rgbLeaf, Affine.inv, Affine.app, Affine.det, Affine.trans]
    norm_num
  exact ⟨hv, turn_entire.full turnTree_ok.1 (each_imp (fun _ => matches_sized) _ turnEnv_matches) hc hv⟩

/-- `turnTree` meets the conditions. -/
example : ∃ i j, fin turnEnv turnTree = .ok i ∧ finalize Heur.code turnEnv 40 turnTree = .ok j ∧ i.Same j := by
  obtain ⟨h1, h2, h3, h4, m, h5, _⟩ := turnTree_ok
  exact C36_arrays_whole_partial Heur.code turnEnv turnEnv_ok h4 h1 h2 h3 turnEnv_matches turn_shown 40 h5

/-- An image moved to the left and back: two columns are cut off. -/
def cutTree : Node :=
  mkWarp (mkWarp (.leaf rgbLeaf) (.trans (-2) 0) (some (5, 4)) .default) (.trans 2 0) (some (5, 4)) .default

/-- C36 fails for images that are cut off in the middle: the optimized image has data where the other has none. -/
theorem C36_cut_violated : Built cutTree ∧ Sharp Heur.code cutTree ∧ Pix cutTree ∧
    (∃ i, fin (Env.moved gridEnv) cutTree = .ok i ∧ i.px 3 1 0 = gridEnv.nan) ∧
    ∃ j, finalize Heur.code (Env.moved gridEnv) 40 cutTree = .ok j ∧ j.px 3 1 0 ≠ gridEnv.nan := by
  refine ⟨?_, sharp_code (.inl rfl) ⟨rfl, rfl, trivial⟩, ⟨?_, by decide, ?_, by decide, trivial⟩, ?_, ?_⟩
  · refine .warp _ _ (some (5, 4)) _ (.warp _ _ (some (5, 4)) _ (.leaf rgbLeaf ⟨?_, by intro h; cases h⟩
        ⟨by decide, by decide⟩) (by decide +kernel) ⟨by decide, by decide⟩) (by decide +kernel) ⟨by decide, by decide⟩
    intro l h; simp only [rgbLeaf, Option.some.injEq] at h; subst h; rfl
  · exact_mod_cast Turn.trans 2 0
  · exact_mod_cast Turn.trans (-2) 0
  · obtain ⟨i, h1, h2⟩ := holds_ok (x := fin (Env.moved gridEnv) cutTree)
      (f := fun i => decide (i.px 3 1 0 = gridEnv.nan)) (by decide +kernel)
    exact ⟨i, h1, of_decide_eq_true h2⟩
  · obtain ⟨i, h1, h2⟩ := holds_ok (x := finalize Heur.code (Env.moved gridEnv) 40 cutTree)
      (f := fun i => decide (i.px 3 1 0 ≠ gridEnv.nan)) (by decide +kernel)
    exact ⟨i, h1, of_decide_eq_true h2⟩

/-- C83, arrays: if all channels show something and nothing is cut off before the last step, optimizing intermediate
images does not change the array. -/
theorem C83_arrays_whole_partial (E : Env V) (hE : E.Ok) {H : Heur} {n m : Node} (hH : Sharp H n) (h : Early H n m)
    (hb : Built n) (ho : NoOv n) (hp : Pix n) (hm : Each E.Matches n) (hw : Shown E n) :
    ∃ i j, fin E n = .ok i ∧ fin E m = .ok j ∧ i.Same j := by
  obtain ⟨hwf, hfit⟩ := hb.ok
  obtain ⟨g1, g2⟩ := early_good (pixRules H) h ⟨⟨hwf, hfit, ho⟩, hp⟩
  have s2 := early_sim hH h hwf
  obtain ⟨l1, _⟩ := early_good (keepRules H (nameRules H) (stable_each E.Matches
    (fun _ _ _ h => by cases h))) h ⟨hwf, hm⟩
  obtain ⟨i, ei, hi⟩ := fin_den hE n hwf hfit hp hm
  obtain ⟨j, ej, hj⟩ := fin_den hE m g1.1.wf g1.1.fit g1.2 l1.2
  exact ⟨i, j, ei, ej, shown_same g2.1 g1.1.wf l1.2 s2 hi hj hw⟩

/-- `turnTree` optimized before it is used. -/
example : ∃ m i j, Early Heur.code turnTree m ∧ decide (tfsOf m = [⟨0, -1, 4, -1, 0, 4⟩]) ∧
    fin turnEnv turnTree = .ok i ∧ fin turnEnv m = .ok j ∧ i.Same j := by
  obtain ⟨h1, h2, h3, h4, m, h5, h6⟩ := turnTree_ok
  obtain ⟨i, j, h⟩ := C83_arrays_whole_partial turnEnv turnEnv_ok h4 (.opt 40 h5 (.refl m)) h1 h2 h3 turnEnv_matches
    turn_shown
  exact ⟨m, i, j, .opt 40 h5 (.refl m), h6, h⟩

/-- C51 for these images: evaluating in the middle of a chain of operations changes nothing. -/
theorem C51_middle_whole_partial (H : Heur) (E : Env V) (hE : E.Ok) (hR : Env.Reads E) {n : Node} (hH : Sharp H n)
    (hb : Built n) (ho : NoOv n) (hp : Pix n) (hm : Each E.Matches n) (hw : Shown E n) (fuel : Nat) {o : Node}
    (h : opt H fuel n = .ok o) (fresh : Nat) (ss : List Act) :
    ∃ m E', evaluate H E fuel n fresh = .ok (m, E') ∧ Follows E n E' m ss := by
  obtain ⟨i, j, h1, h2, h3⟩ := C36_arrays_whole_partial H E hE hH hb ho hp hm hw fuel h
  obtain ⟨i', e1, e2⟩ := fin_den hE n hb.ok.1 hb.ok.2 hp hm
  rw [h1] at e1
  cases e1
  exact C51_operations H E hR fuel n fresh i j h2 h1 h3 (by rw [← h3.n, e2.n]) ss

/-- `turnTree` evaluated, then moved by one and a half pixels. -/
example : ∃ m E', evaluate Heur.code turnEnv 40 turnTree 7 = .ok (m, E') ∧
    Follows turnEnv turnTree E' m [.warp (.trans (3 / 2) 0) none .default] := by
  obtain ⟨h1, h2, h3, h4, m, h5, _⟩ := turnTree_ok
  exact C51_middle_whole_partial Heur.code turnEnv turnEnv_ok turnEnv_reads h4 h1 h2 h3 turnEnv_matches turn_shown 40 h5
    7 _

/-- The operations of an image that moves whole pixels. -/
theorem pix_jobs : ∀ {js : List Job} {n m : Node}, runAll n js = .ok m → Pix m →
    Pix n ∧ (∀ tf d a, Job.warp tf d a ∈ js → a.interp ≠ .nearest) ∧ ∀ k, Job.overview k ∉ js
  | [], n, m, h, hp => by cases h; exact ⟨hp, by simp, by simp⟩
  | j :: js, n, m, h, hp => by
    simp only [runAll] at h
    cases hj : j.run n with
    | error e => rw [hj] at h; cases h
    | ok n' =>
      rw [hj] at h
      obtain ⟨h1, h2, h3⟩ := pix_jobs h hp
      have key : Pix n ∧ (∀ tf d a, j = Job.warp tf d a → a.interp ≠ .nearest) ∧ ∀ k, j ≠ Job.overview k := by
        cases j with
        | warp tf d a => cases hj; exact ⟨h1.2.2, by rintro _ _ _ ⟨⟩; exact h1.2.1, by simp⟩
        | crop sl =>
          simp only [Job.run] at hj
          obtain ⟨y0, y1, x0, x1, rfl⟩ := mkCrop_form hj
          exact ⟨h1, by simp, by simp⟩
        | padded y0 y1 x0 x1 pad =>
          refine ⟨?_, by simp, by simp⟩
          simp only [Job.run, paddedCrop] at hj
          cases e1 : embedSlice y0 y1 n.dsize.2 pad.1.1 pad.1.2 with
          | error e => rw [e1] at hj; cases hj
          | ok a =>
            cases e2 : embedSlice x0 x1 n.dsize.1 pad.2.1 pad.2.2 with
            | error e => rw [e1, e2] at hj; cases hj
            | ok b =>
              cases e3 : mkCrop n (ints a.1.1 a.1.2 b.1.1 b.1.2) none with
              | error e => rw [e1, e2] at hj; simp only [e3] at hj; cases hj
              | ok w =>
                rw [e1, e2] at hj
                simp only [e3] at hj
                obtain ⟨u0, u1, v0, v1, rfl⟩ := mkCrop_form e3
                split at hj
                · cases hj; exact h1.2.2
                · cases hj; exact h1
        | overview k => cases hj; exact h1.elim
        | dequant q => cases hj; exact ⟨h1, by simp, by simp⟩
      refine ⟨key.1, fun tf d a hm => ?_, fun k hm => ?_⟩
      · rcases List.mem_cons.1 hm with e | hm
        · exact key.2.1 tf d a e.symm
        · exact h2 tf d a hm
      · rcases List.mem_cons.1 hm with e | hm
        · exact key.2.2 k e.symm
        · exact h3 k hm

/-- C84 for these images: `finalize()` with its default, which optimizes, gives the same array whether channels are
selected before or after other operations.  Missing: other warps. -/
theorem C84_finalize_whole_partial (H : Heur) {E : Env V} (hO : E.Ok) (hS : Env.Shaped E) (hE : Env.Even E) {n : Node}
    (hb : Built n) {c : List Nat} (hc : ∀ i ∈ c, i < n.nchan) {js : List Job} {m m' t u : Node}
    (h1 : runAll n js = .ok m) (h2 : takeIdx m c = .ok u) (h3 : takeIdx n c = .ok t) (h4 : runAll t js = .ok m')
    (hbm : Built m) (ho : NoOv m) (hp : Pix m) (hm : Each E.Matches n) (hw : Shown E m) (hH : Sharp H m) {f f' : Nat}
    {o o' : Node} (ho1 : opt H f u = .ok o) (ho2 : opt H f' m' = .ok o') :
    ∃ a b, finalize H E f u = .ok a ∧ finalize H E f' m' = .ok b ∧ a.Same b := by
  have hcm : ∀ i ∈ c, i < m.nchan := fun i hi => by rw [(runAll_nchan h1).1]; exact hc i hi
  have hk := kept_take hbm hcm h2
  have hk' := kept_runAll (kept_take hb hc h3) h1 h4
  have hs := Stable.take (stable_each E.Matches (fun _ _ _ h => by cases h))
  have hmm := runAll_each h1 hm
  have hmu := takeIdx_stable hs m hbm.ok.1 hmm c u hcm h2
  have hmt := takeIdx_stable hs n hb.ok.1 hm c t hc h3
  obtain ⟨i, ei, _⟩ := fin_den hO m hbm.ok.1 hbm.ok.2 hp hmm
  have hden : den u = pick Chan.none (den m) c := (takeIdx_ok m hbm.ok.1 c u hcm h2).den
  have hwu : Shown E u := by
    intro x hx
    rw [hden] at hx
    obtain ⟨j, hj, rfl⟩ := List.mem_map.1 hx
    have := hw _ (getD_mem_den (hcm j hj))
    exact ⟨this.1, by rw [hk.dsize]; exact this.2⟩
  rcases C84_announced hb hc h3 js with ⟨e, g, _⟩ | ⟨w, w', g1, g2, g3⟩
  · rw [h1] at g; cases g
  rw [h1] at g1
  rw [h4] at g2
  cases g1
  cases g2
  obtain ⟨hd, -, -, hden', -⟩ := g3 u hbm h2
  have hwm : Shown E m' := fun x hx => by rw [hd]; exact hwu x (hden' ▸ hx)
  obtain ⟨a, b, ha, hb', s⟩ := C84_arrays hS hE hb hm hc (fun tf d a h h' => absurd h' ((pix_jobs h1 hp).2.1 tf d a h))
    (fun k h => absurd h ((pix_jobs h1 hp).2.2 k)) h1 hbm h2 h3 h4 ei
  obtain ⟨a1, a2, g1, g2, g3⟩ := C36_arrays_whole_partial H E hO (hk.sharp hH) (hk.built hbm) (hk.plain ho) (hk.pix hp)
    hmu hwu f ho1
  obtain ⟨b1, b2, k1, k2, k3⟩ := C36_arrays_whole_partial H E hO (hk'.sharp hH) (hk'.built hbm) (hk'.plain ho)
    (hk'.pix hp) (runAll_each h4 hmt) hwm f' ho2
  rw [ha] at g1
  rw [hb'] at k1
  cases g1
  cases k1
  exact ⟨a2, b2, g2, k2, same_trans (same_symm g3) (same_trans s k3)⟩

theorem copied_carry {k m : Nat} {i j : Img V} (h : Copied k m i j) (tf : Affine) (d : Int × Int) (v : V) :
    Copied k m (i.carry tf d v) (j.carry tf d v) := by
  refine ⟨rfl, rfl, h.out, h.inp, fun y x _ _ => ?_⟩
  simp only [Img.carry]
  rw [h.h, h.w]
  by_cases hc : 0 ≤ (tf.inv.app (ctr y x)).2 ∧ (tf.inv.app (ctr y x)).2 < (i.h : ℚ) ∧ 0 ≤ (tf.inv.app (ctr y x)).1 ∧
      (tf.inv.app (ctr y x)).1 < (i.w : ℚ)
  · rw [if_pos hc, if_pos hc]
    have e : ∀ (q : ℚ) (k : Nat), 0 ≤ q → q < (k : ℚ) → ⌊q⌋.toNat < k := fun q k h0 h1 => by
      have : ⌊q⌋ < (k : Int) := Int.floor_lt.2 (by exact_mod_cast h1)
      have : 0 ≤ ⌊q⌋ := Int.floor_nonneg.2 h0
      omega
    exact h.px _ _ (e _ _ hc.1 hc.2.1) (e _ _ hc.2.2.1 hc.2.2.2)
  · rw [if_neg hc, if_neg hc]

theorem turnEnv_even : Env.Even turnEnv :=
  ⟨fun _ _ _ _ _ _ _ h => copied_carry h .., fun _ _ _ _ _ h => copied_carry h ..⟩

/-- `turnTree` with all channels, and the operations it is made by. -/
def turnAll : Node :=
  .crop (mkWarp (mkWarp (.leaf rgbLeaf) ⟨-1, 0, 5, 0, 1, 0⟩ (some (5, 4)) .default) ⟨0, -1, 4, 1, 0, 0⟩ (some (4, 5))
    .default) 1 4 0 3 none

def turnJobs : List Job :=
  [.warp ⟨-1, 0, 5, 0, 1, 0⟩ (some (5, 4)) .default, .warp ⟨0, -1, 4, 1, 0, 0⟩ (some (4, 5)) .default,
    .crop ((some 1, some 4), (some 0, some 3))]

theorem turnAll_shown : Shown turnEnv turnAll := by
  intro c hc
  have hb : Built turnAll := (built_iff _).2
    ⟨⟨turnTree_ok.1.ok.1.1, turnTree_ok.1.ok.1.2.1, turnTree_ok.1.ok.1.2.2.1, trivial⟩, turnTree_ok.1.ok.2⟩
  have he : Entire turnAll := turn_entire
  have hv : Visible c := by
    have e : den turnAll = [0, 1, 2].map fun k => (((Chan.leaf rgbLeaf k).map ⟨-1, 0, 5, 0, 1, 0⟩ (5, 4)).map
      ⟨0, -1, 4, 1, 0, 0⟩ (4, 5)).map (.trans (-(0 : Int)) (-(1 : Int))) (3, 3) := rfl
    rw [e, List.mem_map] at hc
    obtain ⟨k, -, rfl⟩ := hc
    refine ⟨(1 / 2, 1 / 2), ?_⟩
    simp only [Chan.map, Chan.leaf, In, Affine.app, Affine.inv, Affine.trans, Affine.det, rgbLeaf]
    norm_num
  exact ⟨hv, he.full hb (each_imp (fun _ => matches_sized) _ turnEnv_matches) hc hv⟩

/-- Selecting two channels, in another order, before and after turning, with the default `finalize`. -/
example : ∃ u t m' : Node, takeIdx turnAll [2, 0] = .ok u ∧ takeIdx (.leaf rgbLeaf) [2, 0] = .ok t ∧
    runAll t turnJobs = .ok m' ∧ ∃ a b, finalize Heur.code turnEnv 40 u = .ok a ∧
      finalize Heur.code turnEnv 40 m' = .ok b ∧ a.Same b := by
  obtain ⟨u, h1, h2⟩ := holds_ok (x := takeIdx turnAll [2, 0]) (f := fun u => holds (takeIdx (.leaf rgbLeaf) [2, 0])
    fun t => holds (runAll t turnJobs) fun m' => holds (opt Heur.code 40 u) fun _ => holds (opt Heur.code 40 m')
      fun _ => true) (by decide +kernel)
  obtain ⟨t, h3, h4⟩ := holds_ok h2
  obtain ⟨m', h5, h6⟩ := holds_ok h4
  obtain ⟨o, h7, h8⟩ := holds_ok h6
  obtain ⟨o', h9, -⟩ := holds_ok h8
  have hl : ∀ i ∈ [2, 0], i < (Node.leaf rgbLeaf : Node).nchan := by decide
  refine ⟨u, t, m', h1, h3, h5, C84_finalize_whole_partial Heur.code turnEnv_ok turnEnv_shaped turnEnv_even ?_ hl
    (js := turnJobs) (m := turnAll) rfl h1 h3 h5 ?_ turnTree_ok.2.1 turnTree_ok.2.2.1 ?_ turnAll_shown
    (sharp_code turnTree_ok.2.1 ⟨rfl, rfl, trivial⟩) h7 h9⟩
  · exact (built_iff _).2 ⟨turnTree_ok.1.ok.1.1.1.1, turnTree_ok.1.ok.2.1.2.2⟩
  · exact (built_iff _).2 ⟨⟨turnTree_ok.1.ok.1.1, turnTree_ok.1.ok.1.2.1, turnTree_ok.1.ok.1.2.2.1, trivial⟩,
      turnTree_ok.1.ok.2⟩
  · exact turnEnv_matches

/-- C61 for these images: `image[key].finalize()` is `image.finalize()[key]`, if all channels of both show something. -/
theorem C61_finalize_whole_partial {E : Env V} (hE : E.Ok) (hS : Env.Shaped E) {n : Node} (hb : Built n) (ho : NoOv n)
    (hz : NoSlack n) (hf : Fair n) (hd : deqs n ≤ 1) (hp : Pix n) (hm : Each E.Matches n) (hw : Shown E n) {k : Index}
    (hk : Index.Ok n k) : ∃ t i F, getitem n k = .ok t ∧ (Shown E t → ∀ f, F ≤ f → finalize Heur.code E f n = .ok i ∧
      Agree (finalize Heur.code E f t) (npItem i k)) := by
  obtain ⟨sl, c, ek, hc, hce, enp⟩ : ∃ sl c, getitem n k = crop n (some sl) c true true (.int 0) false ∧
      IdxOk n.nchan c ∧ c ≠ some [] ∧ ∀ i : Img V, npItem i k = (i.slice sl.1 sl.2).select c := by
    cases k with
    | two sl => exact ⟨sl, none, rfl, trivial, by simp, fun _ => rfl⟩
    | three sl c => exact ⟨sl, some c, rfl, hk.2, by simp [hk.1], fun _ => rfl⟩
    | single => exact hk.elim
    | more => exact hk.elim
  have em : crop n (some sl) c true true (.int 0) false = mkCrop n (some sl) c := by simp [Tree.crop, Pad.truthy]
  obtain ⟨t, et⟩ : ∃ t, mkCrop n (some sl) c = .ok t := mkCrop_total' hb.ok.1 hc _
  obtain ⟨y0, y1, x0, x1, rfl⟩ := mkCrop_form et
  have hbt : Built (.crop n y0 y1 x0 x1 c) := .crop n _ (some sl) c hb hc et
  obtain ⟨m, F, h⟩ := C55_no_exception_partial hb ho hf hd
  obtain ⟨m', F', h'⟩ := C55_no_exception_partial hbt ho ⟨hf, hce⟩ hd
  obtain ⟨i0, i, e0, e1, s1⟩ := C36_arrays_whole_partial Heur.code E hE (sharp_code ho hz) hb ho hp hm hw F
    (h F (le_refl _))
  refine ⟨.crop n y0 y1 x0 x1 c, i, max F F', by rw [ek, em, et], fun hwt f hf => ?_⟩
  have hst : Sharp Heur.code (.crop n y0 y1 x0 x1 c) := sharp_code (n := .crop n y0 y1 x0 x1 c) ho hz
  obtain ⟨j0, j, e2, e3, s2⟩ := C36_arrays_whole_partial Heur.code E hE hst hbt ho hp hm hwt F' (h' F' (le_refl _))
  have ha := C45_announced_shape hS hb hm e0
  have hag := C24_crop_is_numpy_slice E n i0 e0 ha sl c
  rw [em, et] at hag
  simp only [pixels, e2] at hag
  refine ⟨?_, ?_⟩
  · rw [← e1, finalize, finalize, h f (le_trans (le_max_left _ _) hf), h F (le_refl _)]
  · have e4 : finalize Heur.code E f (.crop n y0 y1 x0 x1 c) = .ok j := by
      rw [← e3, finalize, finalize, h' f (le_trans (le_max_right _ _) hf), h' F' (le_refl _)]
    rw [e4, enp]
    have hss := same_select (same_slice s1 sl.1 sl.2) c
    cases e5 : (i0.slice sl.1 sl.2).select c with
    | error e => rw [e5] at hag; exact hag.elim
    | ok a =>
      rw [e5] at hag hss
      cases e6 : (i.slice sl.1 sl.2).select c with
      | error e => rw [e6] at hss; exact hss.elim
      | ok b =>
        rw [e6] at hss
        exact same_trans (same_symm s2) (same_trans hag hss)

/-- Rows from the second on of the turned image. -/
example : ∃ t i F, getitem turnTree (.two ((some 1, none), (none, none))) = .ok t ∧ t.dsize = (3, 2) ∧ ∀ f, F ≤ f →
    finalize Heur.code turnEnv f turnTree = .ok i ∧ Agree (finalize Heur.code turnEnv f t)
      (npItem i (.two ((some 1, none), (none, none)))) := by
  obtain ⟨h1, h2, h3, h4, _⟩ := turnTree_ok
  obtain ⟨t, i, F, e, h⟩ := C61_finalize_whole_partial turnEnv_ok turnEnv_shaped h1 h2 ⟨rfl, rfl, trivial⟩
    ⟨.inr rfl, by simp⟩ (by decide) h3 turnEnv_matches turn_shown (k := .two ((some 1, none), (none, none))) trivial
  have e' : getitem turnTree (.two ((some 1, none), (none, none))) = .ok (.crop turnTree 1 3 0 3 none) := rfl
  rw [e'] at e
  cases e
  refine ⟨_, i, F, e', rfl, h fun c hc => ?_⟩
  have hv : Visible c := by
    have e2 : den (.crop turnTree 1 3 0 3 none) = (den turnTree).map
        (·.map (.trans (-(0 : Int)) (-(1 : Int))) (3, 2)) := rfl
    rw [e2, turn_den, List.map_singleton, List.mem_singleton] at hc
    subst hc
    refine ⟨(1 / 2, 1 / 2), ?_⟩
    simp only [Chan.map, Chan.leaf, In, rgbLeaf, Affine.inv, Affine.app, Affine.det, Affine.trans]
    norm_num
  have hb : Built (.crop turnTree 1 3 0 3 none) :=
    .crop turnTree _ (some ((some 1, none), (none, none))) none h1 trivial rfl
  exact ⟨hv, Entire.full (n := .crop turnTree 1 3 0 3 none) hb (each_imp (fun _ => matches_sized) _ turnEnv_matches)
    turn_entire hc hv⟩

/-! #### groups -/

theorem pixl_append (ps qs : List Node) : PixL (ps ++ qs) ↔ PixL ps ∧ PixL qs := by
  simp only [PixL_iff, List.mem_append, or_imp, forall_and]

theorem noovl_append (ps qs : List Node) : NoOvL (ps ++ qs) ↔ NoOvL ps ∧ NoOvL qs := by
  simp only [NoOvL_iff, List.mem_append, or_imp, forall_and]

theorem noslackl_append (ps qs : List Node) : NoSlackL (ps ++ qs) ↔ NoSlackL ps ∧ NoSlackL qs := by
  simp only [NoSlackL_iff, List.mem_append, or_imp, forall_and]

mutual
theorem ungroup_pix : ∀ n : Node, Pix n → Pix (ungroup n)
  | .leaf _, _ => trivial
  | .concat ps _, h => ungroupL_pix ps h
  | .warp s _ _ _, h => ⟨h.1, h.2.1, ungroup_pix s h.2.2⟩
  | .crop s _ _ _ _ _, h => ungroup_pix s h
  | .overview _ _ _, h => h.elim
  | .dequant s _ _, h => ungroup_pix s h
theorem ungroupL_pix : ∀ ps : List Node, PixL ps → PixL (ungroupL ps)
  | [], _ => trivial
  | p :: ps, h => by
    rw [ungroupL, pixl_append]
    refine ⟨?_, ungroupL_pix ps h.2⟩
    have := ungroup_pix p h.1
    cases e : ungroup p <;> rw [e] at this <;> first | exact this | exact ⟨this, trivial⟩
end

mutual
theorem ungroup_noov : ∀ n : Node, NoOv n → NoOv (ungroup n)
  | .leaf _, h => h
  | .concat ps _, h => ungroupL_noov ps h
  | .warp s _ _ _, h => ungroup_noov s h
  | .crop s _ _ _ _ _, h => ungroup_noov s h
  | .overview _ _ _, h => h.elim
  | .dequant s _ _, h => ungroup_noov s h
theorem ungroupL_noov : ∀ ps : List Node, NoOvL ps → NoOvL (ungroupL ps)
  | [], _ => trivial
  | p :: ps, h => by
    rw [ungroupL, noovl_append]
    refine ⟨?_, ungroupL_noov ps h.2⟩
    have := ungroup_noov p h.1
    cases e : ungroup p <;> rw [e] at this <;> first | exact this | exact ⟨this, trivial⟩
end

mutual
theorem ungroup_noslack : ∀ n : Node, NoSlack n → NoSlack (ungroup n)
  | .leaf _, _ => trivial
  | .concat ps _, h => ungroupL_noslack ps h
  | .warp s _ _ _, h => ⟨h.1, ungroup_noslack s h.2⟩
  | .crop s _ _ _ _ _, h => ungroup_noslack s h
  | .overview s _ _, h => ungroup_noslack s h
  | .dequant s _ _, h => ungroup_noslack s h
theorem ungroupL_noslack : ∀ ps : List Node, NoSlackL ps → NoSlackL (ungroupL ps)
  | [], _ => trivial
  | p :: ps, h => by
    rw [ungroupL, noslackl_append]
    refine ⟨?_, ungroupL_noslack ps h.2⟩
    have := ungroup_noslack p h.1
    cases e : ungroup p <;> rw [e] at this <;> first | exact this | exact ⟨this, trivial⟩
end

/-- C82, arrays of `finalize()`, which optimizes, for images of which nothing is cut off before the last step: the
same with and without groups. -/
theorem C82_optimized_whole_partial (H : Heur) {E : Env V} (hE : E.Ok) (hG : Groupless E) {n : Node} (hH : Sharp H n)
    (hb : Built n) (ho : NoOv n) (hp : Pix n) (hm : Each E.Matches n) (hw : Shown E n) {fuel fuel' : Nat} {m m' : Node}
    (h : opt H fuel n = .ok m) (h' : opt H fuel' (ungroup n) = .ok m') :
    ∃ a b, finalize H E fuel n = .ok a ∧ finalize H E fuel' (ungroup n) = .ok b ∧ a.Same b := by
  obtain ⟨i, a, hi, ha, s1⟩ := C36_arrays_whole_partial H E hE hH hb ho hp hm hw fuel h
  have hH' : Sharp H (ungroup n) := hH.imp id fun h => ⟨h.1, ungroup_noov n h.2.1, ungroup_noslack n h.2.2⟩
  have hw' : Shown E (ungroup n) := by
    intro c hc
    rw [ungroup_den] at hc
    rw [ungroup_dsize]
    exact hw c hc
  obtain ⟨j, b, hj, hb', s2⟩ := C36_arrays_whole_partial H E hE hH' (ungroup_built hb) (ungroup_noov n ho)
    (ungroup_pix n hp) ((ungroup_each n).2 hm) hw' fuel' h'
  rw [(ungroup_fin hG n hb.ok.1 i).2 hi] at hj
  cases hj
  refine ⟨a, b, ha, hb', s1.h.symm.trans s2.h, s1.w.symm.trans s2.w, s1.n.symm.trans s2.n, ?_⟩
  intro y x k hy hx hk
  rw [← s1.px y x k (by rw [s1.h]; exact hy) (by rw [s1.w]; exact hx) (by rw [s1.n]; exact hk),
    s2.px y x k (by rw [s1.h]; exact hy) (by rw [s1.w]; exact hx) (by rw [s1.n]; exact hk)]

/-- The turned image in a group in a group. -/
example : ∃ a b, finalize Heur.code turnEnv 40 (.concat [.concat [turnTree, turnTree] (3, 3), turnTree] (3, 3)) = .ok a ∧
    finalize Heur.code turnEnv 40 (.concat [turnTree, turnTree, turnTree] (3, 3)) = .ok b ∧ a.Same b := by
  obtain ⟨h1, h2, h3, h4, _⟩ := turnTree_ok
  let n : Node := .concat [.concat [turnTree, turnTree] (3, 3), turnTree] (3, 3)
  have hb : Built n := by
    refine .concat [.concat [turnTree, turnTree] (3, 3), turnTree] _ ?_ rfl
    intro p hp
    simp only [List.mem_cons, List.not_mem_nil, or_false] at hp
    rcases hp with rfl | rfl
    · refine .concat [turnTree, turnTree] _ ?_ rfl
      intro p hp
      simp only [List.mem_cons, List.not_mem_nil, or_false] at hp
      rcases hp with rfl | rfl <;> exact h1
    · exact h1
  have ho : NoOv n := ⟨⟨h2, h2, trivial⟩, h2, trivial⟩
  have hz : NoSlack turnTree := ⟨rfl, rfl, trivial⟩
  obtain ⟨m, e, _⟩ := holds_ok (x := opt Heur.code 40 n) (f := fun _ => true) (by decide +kernel)
  obtain ⟨m', e', _⟩ := holds_ok (x := opt Heur.code 40 (ungroup n)) (f := fun _ => true) (by decide +kernel)
  refine C82_optimized_whole_partial Heur.code turnEnv_ok (fun _ _ _ => rfl)
    (sharp_code ho ⟨⟨hz, hz, trivial⟩, hz, trivial⟩) hb ho ⟨⟨h3, h3, trivial⟩, h3, trivial⟩
    ⟨⟨turnEnv_matches, turnEnv_matches, trivial⟩, turnEnv_matches, trivial⟩ ?_ e e'
  intro c hc
  simp only [n, den, denL, List.append_nil, List.mem_append, or_self] at hc
  exact turn_shown c hc

end Verif.Props
