/-
Trees of crops, channel selections, dequantizations and concats over leaves and overviews: every rewrite
is exact, pixel by pixel.
-/
import Verif.SizeRules

namespace Verif
namespace Tree

open Helpers Node

mutual
/-- No warps, no crops and no negative overview levels. -/
def Simple : Node → Prop
  | .leaf _ => True
  | .concat ps _ => SimpleL ps
  | .warp _ _ _ _ => False
  | .crop _ _ _ _ _ _ => False
  | .overview s k _ => 0 ≤ k ∧ Simple s
  | .dequant s _ _ => Simple s
def SimpleL : List Node → Prop
  | [] => True
  | p :: ps => Simple p ∧ SimpleL ps
end

mutual
/-- No warps, no crops below overviews and no negative overview levels. -/
def NoWarp : Node → Prop
  | .leaf _ => True
  | .concat ps _ => NoWarpL ps
  | .warp _ _ _ _ => False
  | .crop s _ _ _ _ _ => NoWarp s
  | .overview s k _ => 0 ≤ k ∧ Simple s
  | .dequant s _ _ => NoWarp s
def NoWarpL : List Node → Prop
  | [] => True
  | p :: ps => NoWarp p ∧ NoWarpL ps
end

theorem SimpleL_iff (ps : List Node) : SimpleL ps ↔ ∀ p ∈ ps, Simple p := by
  induction ps with
  | nil => simp [SimpleL]
  | cons p ps ih => simp [SimpleL, ih]

theorem NoWarpL_iff (ps : List Node) : NoWarpL ps ↔ ∀ p ∈ ps, NoWarp p := by
  induction ps with
  | nil => simp [NoWarpL]
  | cons p ps ih => simp [NoWarpL, ih]

mutual
theorem Simple.noWarp : ∀ {n : Node}, Simple n → NoWarp n
  | .leaf _, _ => trivial
  | .concat ps d, h => by rw [NoWarp]; rw [Simple] at h; exact Simple.noWarpL h
  | .warp _ _ _ _, h => h.elim
  | .crop _ _ _ _ _ _, h => h.elim
  | .overview s _ _, h => h
  | .dequant s _ _, h => by rw [NoWarp]; rw [Simple] at h; exact Simple.noWarp h
theorem Simple.noWarpL : ∀ {ps : List Node}, SimpleL ps → NoWarpL ps
  | [], _ => trivial
  | p :: ps, h => by rw [SimpleL] at h; rw [NoWarpL]; exact ⟨Simple.noWarp h.1, Simple.noWarpL h.2⟩
end

/-- The trees considered here. -/
structure Crisp (n : Node) : Prop where
  wf : WF n
  fit : Fit n
  noWarp : NoWarp n

/-- Both trees have the same size and channels and show the same. -/
structure Same (n n' : Node) : Prop where
  dsize : n'.dsize = n.dsize
  fwd : Sim n n'
  bwd : Sim n' n
  simple : Simple n → Simple n'

theorem Sim.of_eq {n n' : Node} (h1 : n'.channels = n.channels) (h2 : Tree.den n' = Tree.den n) : Sim n n' :=
  ⟨h1, by rw [h2]; exact forall₂_le_refl _⟩

theorem Same.of_eq {n n' : Node} (h0 : n'.dsize = n.dsize) (h1 : n'.channels = n.channels)
    (h2 : den n' = den n) (h3 : Simple n → Simple n') : Same n n' :=
  ⟨h0, .of_eq h1 h2, .of_eq h1.symm h2.symm, h3⟩

theorem Same.refl (n : Node) : Same n n := ⟨rfl, .refl _, .refl _, fun h => h⟩

theorem Same.trans {a b c : Node} (h1 : Same a b) (h2 : Same b c) : Same a c :=
  ⟨h2.dsize.trans h1.dsize, h1.fwd.trans h2.fwd, h2.bwd.trans h1.bwd, fun h => h2.simple (h1.simple h)⟩

/-- Views that agree on the points of a channel are equal. -/
theorem via_eq {c : Chan} {T T' : Affine} {R R' : ℚ × ℚ → Prop} (hT : T.det ≠ 0) (hTT : T' = T)
    (h : ∀ q, c.dom q → (R (T.app q) ↔ R' (T.app q))) : c.via T R = c.via T' R' := by
  subst hTT
  simp only [Chan.via, Chan.mk.injEq, true_and]
  funext p
  apply propext
  constructor
  · rintro ⟨h1, h2⟩
    refine ⟨?_, h2⟩
    have := (h _ h2).1
    rw [Affine.app_inv_app T' hT] at this
    exact this h1
  · rintro ⟨h1, h2⟩
    refine ⟨?_, h2⟩
    have := (h _ h2).2
    rw [Affine.app_inv_app T' hT] at this
    exact this h1

theorem crisp_sub {n x : Node} (hn : Crisp n) (h : subOf n = .ok (some x)) : Crisp x := by
  have hf := hn.fit
  have hw := hn.noWarp
  refine ⟨wf_sub hn.wf h, ?_, ?_⟩
  · cases n with
    | leaf l => simp [subOf] at h
    | concat _ _ => simp [subOf] at h
    | warp s _ _ _ => cases h; exact hf.2
    | crop s _ _ _ _ _ => cases h; exact hf.1
    | overview s _ _ => cases h; exact hf.1
    | dequant s _ _ => cases h; exact hf.1
  · cases n with
    | leaf l => simp [subOf] at h
    | concat _ _ => simp [subOf] at h
    | warp s _ _ _ => exact hw.elim
    | crop s _ _ _ _ _ => cases h; exact hw
    | overview s _ _ => cases h; exact Simple.noWarp hw.2
    | dequant s _ _ => cases h; exact hw

theorem noWarp_take : TakeStable NoWarp where
  parts := fun h p hp => (NoWarpL_iff _).1 h p hp
  concat := by
    intro ps qs d c _ hq hc
    obtain ⟨d', rfl, _, _⟩ := mkConcat_ok hc
    exact (NoWarpL_iff _).2 fun q hq' => (hq q hq').1
  nan := fun _ => trivial
  crop := by
    intro p idxs t _ hp _ h
    rw [mkCrop_none_form h]; exact hp

theorem denL_map (f : Chan → Chan) {g : Node → Py Node} {ps qs : List Node}
    (hm : List.Forall₂ (fun p q => g p = .ok q) ps qs)
    (h : ∀ p ∈ ps, ∀ q, g p = .ok q → den q = (den p).map f) : denL qs = (denL ps).map f := by
  induction hm with
  | nil => rfl
  | cons hq _ ih =>
    simp only [denL, List.map_append]
    rw [h _ (by simp) _ hq, ih fun p hp => h p (by simp [hp])]

/-- Moving an operation into a concat is exact. -/
theorem same_push {n c : Node} {ps : List Node} {d : Int × Int} (hn : Crisp n)
    (hsub : subOf n = .ok (some (.concat ps d))) (hsel : ¬ selects n)
    (h : pushUnder n ps = .ok (some c)) : Crisp c ∧ Same n c := by
  obtain ⟨w1, w2⟩ := sim_push hn.wf hsub hsel h
  obtain ⟨qs, rfl, hne, hnn, hm, hps, hqs⟩ := push_size hn.wf hn.fit hsub h
  have hcw := crisp_sub hn hsub
  -- one part
  have part : ∃ f : Chan → Chan, den n = (denL ps).map f ∧ ∀ p ∈ ps, ∀ q, reapply n p = .ok q →
      den q = (den p).map f ∧ NoWarp q ∧ (Simple n → Simple q) := by
    have hw := hn.noWarp
    have hpw : ∀ p ∈ ps, NoWarp p := (NoWarpL_iff _).1 hcw.noWarp
    cases n with
    | leaf l => simp [subOf] at hsub
    | concat _ _ => simp [subOf] at hsub
    | warp s tf dw a => exact hw.elim
    | overview s k dw =>
      cases hsub
      refine ⟨Chan.map (ovScale k) dw, by simp only [den], ?_⟩
      intro p hp q hq
      have hsp : Simple p := (SimpleL_iff _).1 (by rw [NoWarp, Simple] at hw; exact hw.2) p hp
      simp only [reapply, Except.ok.injEq] at hq
      subst hq
      refine ⟨?_, ⟨hw.1, hsp⟩, fun _ => ⟨hw.1, hsp⟩⟩
      rw [mkOverview, den_overview]
      have e : dw = (ovSize k p.dsize.1, ovSize k p.dsize.2) := by
        rw [hn.fit.2, (hps p hp).1]; rfl
      rw [e]
    | dequant s qz dw =>
      cases hsub
      refine ⟨fun c => (c.map .id dw).deq qz, by simp only [den], ?_⟩
      intro p hp q hq
      simp only [reapply, Except.ok.injEq] at hq
      subst hq
      refine ⟨?_, hpw p hp, fun h => (SimpleL_iff _).1 (by rw [Simple, Simple] at h; exact h) p hp⟩
      rw [mkDequant, den_dequant]
      have e : dw = p.dsize := by rw [hn.fit.2, (hps p hp).1]; rfl
      rw [e]
    | crop s y0 y1 x0 x1 ci =>
      cases ci with
      | some c => exact absurd trivial hsel
      | none =>
        cases hsub
        refine ⟨Chan.map (.trans (-x0) (-y0)) (x1 - x0, y1 - y0), by
          rw [den_crop]; simp only [selDen, den], ?_⟩
        intro p hp q hq
        simp only [reapply] at hq
        obtain ⟨_, f1, f2, f3, f4⟩ := hn.fit
        simp only [dsize] at f2 f4
        have p1 := (hps p hp).1
        have e' := mkCrop_fit hq hn.wf.2.1 hn.wf.2.2.1 f1 (by rw [p1]; exact f2) f3 (by rw [p1]; exact f4)
        subst e'
        exact ⟨by rw [den_crop]; rfl, hpw p hp, fun h => h.elim⟩
  obtain ⟨f, hden, hp⟩ := part
  have hmem : ∀ q ∈ qs, NoWarp q ∧ (Simple n → Simple q) := by
    intro q hq
    obtain ⟨p, hpm, e⟩ := forall₂_mem_right hm hq
    exact (hp p hpm q e).2
  refine ⟨⟨w1, ⟨hnn, (FitL_iff _).2 fun q hq => (hqs q hq).1⟩, (NoWarpL_iff _).2 fun q hq => (hmem q hq).1⟩, ?_⟩
  refine Same.of_eq rfl w2.channels ?_ fun h => (SimpleL_iff _).2 fun q hq => (hmem q hq).2 h
  rw [hden, show den (.concat qs n.dsize) = denL qs from by rw [den]]
  exact denL_map f hm fun p hpm q hq => (hp p hpm q hq).1

theorem ovSize_ovSize (a b w : Int) (hb : 0 ≤ b) : ovSize b (ovSize a w) = ovSize (a + b) w := by
  obtain ⟨n, rfl⟩ := Int.eq_ofNat_of_zero_le hb
  unfold ovSize
  have h2 : (0 : ℚ) < (2 : ℚ) ^ (n : Int) := zpow_pos (by norm_num) _
  have e : ((2 : ℚ) ^ (a + (n : Int)))⁻¹ * w = ((2 : ℚ) ^ (n : Int))⁻¹ * (((2 : ℚ) ^ a)⁻¹ * w) := by
    rw [zpow_add₀ (by norm_num), mul_inv]; ring
  rw [e]
  generalize ((2 : ℚ) ^ a)⁻¹ * w = y
  have hN : ((2 : ℚ) ^ (n : Int)) = ((2 ^ n : Int) : ℚ) := by push_cast; simp
  rw [hN] at h2 ⊢
  have hNp : (0 : Int) < 2 ^ n := by positivity
  generalize (2 : Int) ^ n = N at *
  apply le_antisymm
  · rw [Int.ceil_le, inv_mul_le_iff₀ h2]
    have h3 : y ≤ ((N * ⌈((N : Int) : ℚ)⁻¹ * y⌉ : Int) : ℚ) := by
      push_cast
      rw [← inv_mul_le_iff₀ h2]
      exact Int.le_ceil _
    have := Int.ceil_le.2 h3
    exact_mod_cast this
  · apply Int.ceil_le_ceil
    exact mul_le_mul_of_nonneg_left (Int.le_ceil _) (inv_nonneg.2 h2.le)

theorem ovSize_zero (w : Int) : ovSize 0 w = w := by simp [ovSize]

theorem map_id_in {s : Node} (hs : WF s) {c : Chan} (hc : c ∈ den s) : c.map .id s.dsize = c := by
  rw [map_eq_via]
  conv => rhs; rw [self_via c]
  refine via_eq (by simp) rfl fun q hq => ⟨fun _ => trivial, fun _ => ?_⟩
  rw [Affine.app_id]
  exact den_in s hs c hc q hq

/-- Crops of crops show what the crop that replaces them shows. -/
theorem den_fuseCrops {s : Node} {iy0 iy1 ix0 ix1 y0 y1 x0 x1 : Int} {ic c nc : Option (List Nat)}
    (hw : WF (.crop (.crop s iy0 iy1 ix0 ix1 ic) y0 y1 x0 x1 c))
    (hf : Fit (.crop (.crop s iy0 iy1 ix0 ix1 ic) y0 y1 x0 x1 c)) (hnc : fuseChans ic c = .ok nc) :
    den (.crop s (iy0 + y0) (iy0 + y1) (ix0 + x0) (ix0 + x1) nc) =
      den (.crop (.crop s iy0 iy1 ix0 ix1 ic) y0 y1 x0 x1 c) := by
  obtain ⟨⟨_, f1, f2, f3, f4⟩, f5, f6, f7, f8⟩ := hf
  simp only [dsize] at f6 f8
  obtain ⟨_, _, k3⟩ := fuseChans_ok hnc hw.1.2.2.2 (by simpa [nchan] using hw.2.2.2)
  rw [den_crop, den_crop, k3, List.map_map]
  apply List.map_congr_left
  intro ch hch
  simp only [Function.comp]
  rw [map_eq_via ch, map_eq_via ch, map_via _ _ (by simp) (by simp)]
  have et : Affine.trans (-x0) (-y0) * Affine.trans (-ix0) (-iy0) =
      Affine.trans (-((ix0 + x0 : Int) : ℚ)) (-((iy0 + y0 : Int) : ℚ)) := by
    rw [Affine.trans_mul]
    push_cast
    congr 1 <;> ring
  refine via_eq (by simp) et ?_
  intro q hq
  rw [in_crop, ← et, Affine.app_mul, Affine.inv_app_app _ (by simp)]
  have hio : In (x1 - x0, y1 - y0) ((Affine.trans (-x0) (-y0)).app
      ((Affine.trans (-ix0) (-iy0)).app q)) ↔
      ((ix0 + x0 : Int) : ℚ) < q.1 ∧ q.1 < ((ix0 + x1 : Int) : ℚ) ∧
      ((iy0 + y0 : Int) : ℚ) < q.2 ∧ q.2 < ((iy0 + y1 : Int) : ℚ) := by
    rw [in_crop]
    simp only [Affine.app_trans]
    push_cast
    constructor
    · rintro ⟨a, b, c, d⟩; exact ⟨by linarith, by linarith, by linarith, by linarith⟩
    · rintro ⟨a, b, c, d⟩; exact ⟨by linarith, by linarith, by linarith, by linarith⟩
  rw [hio, in_crop]
  constructor
  · intro hh
    refine ⟨hh, ?_⟩
    have a1 : (ix0 : ℚ) ≤ ((ix0 + x0 : Int) : ℚ) := by exact_mod_cast (by have := hw.2.2.1; omega)
    have a2 : ((ix0 + x1 : Int) : ℚ) ≤ ix1 := by exact_mod_cast (by omega)
    have a3 : (iy0 : ℚ) ≤ ((iy0 + y0 : Int) : ℚ) := by exact_mod_cast (by have := hw.2.1; omega)
    have a4 : ((iy0 + y1 : Int) : ℚ) ≤ iy1 := by exact_mod_cast (by omega)
    exact ⟨by linarith [hh.1], by linarith [hh.2.1], by linarith [hh.2.2.1], by linarith [hh.2.2.2]⟩
  · exact fun hh => hh.1

theorem den_dequantCrop {s : Node} {q : Quantization} {d : Int × Int} {y0 y1 x0 x1 : Int} {c : Option (List Nat)}
    (h : WF (.crop (.dequant s q d) y0 y1 x0 x1 c)) (fd : d = s.dsize) :
    den (mkDequant (.crop s y0 y1 x0 x1 c) q) = den (.crop (.dequant s q d) y0 y1 x0 x1 c) := by
  have hc : IdxOk (nchan s) c := by simpa [nchan] using h.2.2.2
  rw [mkDequant, den_dequant, den_crop, den_crop, selDen_map (s := s) _ (den_dequant s q d) c hc,
    List.map_map, List.map_map]
  apply List.map_congr_left
  intro ch hch
  simp only [Function.comp]
  rw [map_eq_via ch, map_eq_via ch, map_via _ _ (by simp) (by simp), deq_via, deq_via,
    map_via _ _ (by simp) (by simp), Affine.id_mul, Affine.mul_id]
  refine via_eq (by simp) rfl ?_
  intro p hp
  have hin := selDen_in h.1 c
  have hps : In s.dsize p := selDen_in (s := s) h.1 c ch hch p hp
  rw [Affine.inv_app_app _ (by simp), Affine.inv_id, Affine.app_id, fd]
  simp only [Node.dsize]
  exact ⟨fun hh => ⟨hh.1, hps⟩, fun hh => ⟨hh.1, hh.1⟩⟩

theorem den_dequantOverview {s : Node} {q : Quantization} {dq d : Int × Int} {k : Int} (h : WF s)
    (e1 : dq = s.dsize) : den (mkDequant (.overview s k d) q) = den (.overview (.dequant s q dq) k d) := by
  rw [mkDequant, den_dequant, den_overview, den_overview, den_dequant, List.map_map, List.map_map]
  apply List.map_congr_left
  intro c hc
  simp only [Function.comp]
  rw [map_eq_via c, map_eq_via c, map_via _ _ (by simp) (det_ovScale k), deq_via, deq_via,
    map_via _ _ (det_ovScale k) (by simp), Affine.id_mul, Affine.mul_id]
  refine via_eq (det_ovScale k) rfl fun p hp => ?_
  rw [Affine.inv_app_app _ (det_ovScale k), Affine.inv_id, Affine.app_id, e1]
  simp only [Node.dsize]
  exact ⟨fun hh => ⟨hh.1, den_in s h c hc p hp⟩, fun hh => ⟨hh.1, hh.1⟩⟩

theorem den_ov0 {s : Node} (h : WF s) : den (.overview s 0 s.dsize) = den s := by
  symm
  rw [den_overview, ovScale_zero]
  conv => lhs; rw [← List.map_id (den s)]
  exact List.map_congr_left fun c hc => (map_id_in (s := s) h hc).symm

theorem den_fuseOv {s : Node} {k1 k : Int} {d1 d : Int × Int} (h : WF s) (e1 : d1 = (mkOverview s k1).dsize)
    (ed : d = (mkOverview s (k1 + k)).dsize) : den (mkOverview s (k1 + k)) = den (.overview (.overview s k1 d1) k d) := by
  have hin := fun x => in_mkOverview (k1 + k) s x
  have hin1 := fun x => in_mkOverview k1 s x
  have e : den (mkOverview s (k1 + k)) = (den s).map (Chan.map (ovScale (k1 + k)) d) := by
    rw [mkOverview, den_overview, ed]; rfl
  rw [e, den_overview, den_overview, List.map_map]
  apply List.map_congr_left
  intro c hc
  simp only [Function.comp]
  rw [map_eq_via c, map_eq_via c, map_via _ _ (det_ovScale k) (det_ovScale k1), ovScale_add]
  refine via_eq (det_ovScale _) rfl fun p hp => ?_
  refine ⟨fun hh => ⟨hh, ?_⟩, fun hh => hh.1⟩
  rw [← ovScale_add, Affine.app_mul, Affine.inv_app_app _ (det_ovScale k), e1]
  exact hin1 p (den_in s h c hc p hp)

theorem exactRules (H : Heur) : Rules H Crisp Same where
  refl := Same.refl
  trans := Same.trans
  sub := crisp_sub
  parts := fun h p hp => ⟨((WFL_iff _ _).1 h.wf.2 p hp).1, (FitL_iff _).1 h.fit.2 p hp,
    (NoWarpL_iff _).1 h.noWarp p hp⟩
  same := fun h p hp => ((WFL_iff _ _).1 h.wf.2 p hp).2
  nan := fun h hn => (h.wf.2 hn).2
  cong := by
    intro n x x' hn hx hx' hs
    obtain ⟨f1, f2⟩ := fit_setSub hn.fit hx hx'.fit hs.dsize
    obtain ⟨w1, w2⟩ := (simRules Heur.exact Heur.exact_exact).cong hn.wf hx hx'.wf hs.fwd
    have hw := hn.noWarp
    cases n with
    | leaf l => simp [subOf] at hx
    | concat _ _ => simp [subOf] at hx
    | warp s tf d a => exact hw.elim
    | crop s y0 y1 x0 x1 c =>
      cases hx
      exact ⟨⟨w1, f1, hx'.noWarp⟩, f2, w2, hs.bwd.crop _ _ _ _ _, fun h => h.elim⟩
    | overview s k d =>
      cases hx
      exact ⟨⟨w1, f1, hw.1, hs.simple hw.2⟩, f2, w2, hs.bwd.overview _ _, fun h => ⟨h.1, hs.simple h.2⟩⟩
    | dequant s q d =>
      cases hx
      exact ⟨⟨w1, f1, hx'.noWarp⟩, f2, w2, hs.bwd.dequant _ _, fun h => hs.simple h⟩
  concat := by
    intro ps d qs c hn hf hc
    obtain ⟨w1, w2⟩ := (simRules Heur.exact Heur.exact_exact).concat hn.wf (hf.imp fun _ _ h => ⟨h.1.wf, h.2.fwd⟩) hc
    obtain ⟨d', rfl, hne, hd'⟩ := mkConcat_ok hc
    have hq : ∀ q ∈ qs, Crisp q ∧ q.dsize = d ∧ (Simple (.concat ps d) → Simple q) := by
      intro q hq
      obtain ⟨p, hp, h⟩ := forall₂_mem_right (forall₂_imp_left hf
        (S := fun p q => Crisp q ∧ q.dsize = d ∧ (Simple (.concat ps d) → Simple q))
        fun p hp q h => ⟨h.1, h.2.dsize.trans ((WFL_iff _ _).1 hn.wf.2 p hp).2,
          fun hs => h.2.simple ((SimpleL_iff _).1 (by rw [Simple] at hs; exact hs) p hp)⟩) hq
      exact h
    obtain ⟨q, hq1⟩ := List.exists_mem_of_ne_nil _ hne
    have e : d' = d := (hd' q hq1).symm.trans (hq q hq1).2.1
    subst e
    refine ⟨⟨w1, ⟨hn.fit.1, (FitL_iff _).2 fun q h => (hq q h).1.fit⟩,
      (NoWarpL_iff _).2 fun q h => (hq q h).1.noWarp⟩, rfl, w2, ?_, fun hs =>
        (SimpleL_iff _).2 fun q h => (hq q h).2.2 hs⟩
    apply Sim.concat
    exact List.Forall₂.flip (hf.imp fun _ _ h => h.2.bwd)
  push := same_push
  fuseWarps := fun h => h.noWarp.elim
  idWarp := fun h => h.noWarp.elim
  nanWarp := fun h => h.noWarp.elim
  splitWarp := fun h => h.noWarp.elim
  splitOv := fun h => h.noWarp.elim
  splitCrop := fun h => h.noWarp.elim
  absorb := fun h => h.noWarp.elim
  nanCrop := by
    intro l y0 y1 x0 x1 c r h hn hr
    obtain ⟨w1, w2⟩ := (simRules Heur.exact Heur.exact_exact).nanCrop h.wf hn hr
    obtain ⟨f0, f1, f2, f3, f4⟩ := h.fit
    obtain ⟨names, rfl⟩ := nanCrop_size f0 h.wf.2.1 h.wf.2.2.1 f1 f2 f3 f4 hr
    refine ⟨⟨w1, ⟨by simp only; omega, by simp only; omega⟩, trivial⟩, rfl, w2, ⟨w2.channels.symm, ?_⟩,
      fun h => h.elim⟩
    apply forall₂_nan
    · exact w2.den.length_eq.symm
    · intro c hc p hp
      simp only [nanLeaf, den, List.mem_map] at hc
      obtain ⟨i, _, rfl⟩ := hc
      have := hp.1
      simp at this
  fuseCrops := by
    intro s iy0 iy1 ix0 ix1 ic y0 y1 x0 x1 c r h hr
    obtain ⟨w1, w2⟩ := (simRules Heur.exact Heur.exact_exact).fuseCrops h.wf hr
    obtain ⟨nc, hnc, rfl, f⟩ := fuseCrops_fit h.wf h.fit hr
    refine ⟨⟨w1, f, h.noWarp⟩, Same.of_eq ?_ w2.channels ?_ fun h => h.elim⟩
    · simp only [dsize, Prod.mk.injEq]
      exact ⟨by ring, by ring⟩
    · exact den_fuseCrops h.wf h.fit hnc
  warpAfterCrop := fun h => h.noWarp.elim
  dequantCrop := by
    intro s q d y0 y1 x0 x1 c h
    obtain ⟨w1, w2⟩ := (simRules Heur.exact Heur.exact_exact).dequantCrop h.wf
    obtain ⟨⟨fs, fd⟩, f1, f2, f3, f4⟩ := h.fit
    simp only [Node.dsize] at f2 f4
    rw [fd] at f2 f4
    refine ⟨⟨w1, ⟨⟨fs, f1, f2, f3, f4⟩, rfl⟩, h.noWarp⟩, Same.of_eq rfl w2.channels ?_ fun h => h.elim⟩
    exact den_dequantCrop h.wf fd
  take := by
    intro ps d y0 y1 x0 x1 c t h ht
    have hT := takeIdx_ok _ h.wf.1 c t h.wf.2.2.2 ht
    refine ⟨⟨hT.wf, takeIdx_stable fit_take _ h.wf.1 h.fit.1 c t h.wf.2.2.2 ht,
      takeIdx_stable noWarp_take _ h.wf.1 h.noWarp c t h.wf.2.2.2 ht⟩, ?_⟩
    intro t' cr ht' hs hcr
    obtain ⟨f0, f1, f2, f3, f4⟩ := h.fit
    have ed : t'.dsize = d := hs.dsize.trans hT.dsize
    simp only [dsize] at f2 f4
    have e := mkCrop_fit hcr h.wf.2.1 h.wf.2.2.1 f1 (by rw [ed]; exact f2) f3 (by rw [ed]; exact f4)
    subst e
    have k0 : Same (.crop (.concat ps d) y0 y1 x0 x1 (some c)) (.crop t y0 y1 x0 x1 none) := by
      refine Same.of_eq rfl ?_ ?_ fun h => h.elim
      · rw [channels_crop, channels_crop]; simp only [selNames, hT.channels]
      · rw [den_crop, den_crop]; simp only [selDen, hT.den]
    refine ⟨⟨⟨ht'.wf, h.wf.2.1, h.wf.2.2.1, trivial⟩, ⟨ht'.fit, f1, by rw [ed]; exact f2, f3, by
      rw [ed]; exact f4⟩, ht'.noWarp⟩, k0.trans ⟨rfl, hs.fwd.crop _ _ _ _ _, hs.bwd.crop _ _ _ _ _,
        fun h => h.elim⟩⟩
  renorm := by
    intro ps d y0 y1 x0 x1 cr h hcr
    obtain ⟨f0, f1, f2, f3, f4⟩ := h.fit
    have e := mkCrop_fit hcr h.wf.2.1 h.wf.2.2.1 f1 f2 f3 f4
    subst e
    exact ⟨h, .refl _⟩
  cropAfterOverview := fun h => h.noWarp.2.elim
  warpAfterOverview := fun h => h.noWarp.2.elim
  dequantOverview := by
    intro s q dq k d h
    obtain ⟨w1, w2⟩ := (simRules Heur.exact Heur.exact_exact).dequantOverview h.wf
    have e1 : dq = s.dsize := h.fit.1.2
    have e2 := h.fit.2
    refine ⟨⟨w1, ⟨⟨h.fit.1.1, ?_⟩, rfl⟩, h.noWarp⟩, Same.of_eq rfl w2.channels ?_ fun h => h⟩
    · rw [e2, mkOverview, mkOverview]
      simp only [Node.dsize, e1]
    · exact den_dequantOverview (s := s) h.wf e1
  ov0 := by
    intro s d h
    have e : d = s.dsize := by
      rw [h.fit.2]
      simp only [mkOverview, Node.dsize, ovSize_zero]
    subst e
    refine Same.of_eq rfl (by rw [channels_overview]) ?_ fun h => h.2
    exact (den_ov0 (s := s) h.wf).symm
  fuseOv := by
    intro s k1 d1 k d h
    obtain ⟨w1, w2⟩ := (simRules Heur.exact Heur.exact_exact).fuseOv h.wf
    obtain ⟨⟨fs, e1⟩, e2⟩ := h.fit
    obtain ⟨hk, hk1, hsim⟩ := h.noWarp
    have ed : d = (mkOverview s (k1 + k)).dsize := by
      rw [e2, e1]
      simp only [mkOverview, Node.dsize]
      rw [ovSize_ovSize _ _ _ hk, ovSize_ovSize _ _ _ hk]
    refine ⟨⟨w1, ⟨fs, rfl⟩, by omega, hsim⟩, Same.of_eq ed.symm w2.channels ?_ fun h => ⟨by omega, h.2.2⟩⟩
    exact den_fuseOv (s := s) h.wf e1 ed
  dequantWarp := fun h => h.noWarp.elim

end Tree
end Verif
