/-
C36 for crops below overviews that start and end on pixels of the overviews: nothing is shown after `optimize` that
was not shown before.
-/
import Verif.Props.Aligned
import Verif.Heap

namespace Verif
namespace Props

open Tree Tree.Node Helpers

/-! ### Crops that end on pixels of the overviews -/

mutual
/-- Every crop ends at a multiple of `2 ** j`, where `j` is the number of overviews taken after it, of which `L` are
outside of this tree, or at the border of the image. -/
def Snug (L : Nat) : Node → Prop
  | .leaf _ => True
  | .concat ps _ => SnugL L ps
  | .warp s _ _ _ => Snug L s
  | .crop s _ y1 _ x1 _ => ((2 ^ L ∣ y1 ∨ y1 = s.dsize.2) ∧ (2 ^ L ∣ x1 ∨ x1 = s.dsize.1)) ∧ Snug L s
  | .overview s k _ => Snug (L + k.toNat) s
  | .dequant s _ _ => Snug L s
def SnugL (L : Nat) : List Node → Prop
  | [] => True
  | p :: ps => Snug L p ∧ SnugL L ps
end

theorem snugL_iff {L : Nat} (ps : List Node) : SnugL L ps ↔ ∀ p ∈ ps, Snug L p := by
  induction ps with
  | nil => simp [SnugL]
  | cons p ps ih => simp [SnugL, ih]

mutual
theorem Snug.mono {K L : Nat} (hKL : K ≤ L) : ∀ {n : Node}, Snug L n → Snug K n
  | .leaf _, _ => trivial
  | .concat ps d, h => by rw [Snug] at h ⊢; exact Snug.monoL hKL h
  | .warp s _ _ _, h => by rw [Snug] at h ⊢; exact Snug.mono hKL h
  | .crop s _ _ _ _ _, h => by
    rw [Snug] at h ⊢
    exact ⟨⟨h.1.1.imp_left (pow_dvd_pow 2 hKL).trans, h.1.2.imp_left (pow_dvd_pow 2 hKL).trans⟩, Snug.mono hKL h.2⟩
  | .overview s k _, h => by
    rw [Snug] at h ⊢
    exact Snug.mono (Nat.add_le_add_right hKL _) h
  | .dequant s _ _, h => by rw [Snug] at h ⊢; exact Snug.mono hKL h
theorem Snug.monoL {K L : Nat} (hKL : K ≤ L) : ∀ {ps : List Node}, SnugL L ps → SnugL K ps
  | [], _ => trivial
  | p :: ps, h => by rw [SnugL] at h ⊢; exact ⟨Snug.mono hKL h.1, Snug.monoL hKL h.2⟩
end

/-- The trees considered here. -/
structure SnugTree (n : Node) : Prop extends PacedTree n where
  ends : Snug 0 n

/-- Both show the same, and crops stay where they may be. -/
structure KeepsSnug (n n' : Node) : Prop extends KeepsPaced n n' where
  bwd : Sim n' n
  ends : ∀ L, Paced L n → Snug L n → Snug L n'

theorem KeepsSnug.refl (n : Node) : KeepsSnug n n := ⟨.refl _, .refl _, fun _ _ h => h⟩

theorem KeepsSnug.trans {a b c : Node} (h1 : KeepsSnug a b) (h2 : KeepsSnug b c) : KeepsSnug a c :=
  ⟨h1.toKeepsPaced.trans h2.toKeepsPaced, h2.bwd.trans h1.bwd,
    fun L h h' => h2.ends L (h1.steps L h) (h1.ends L h h')⟩

theorem snug_sub {n x : Node} (hn : SnugTree n) (h : subOf n = .ok (some x)) : SnugTree x := by
  have hw := hn.ends
  refine ⟨paced_sub hn.toPacedTree h, ?_⟩
  cases n with
  | leaf l => simp [subOf] at h
  | concat _ _ => simp [subOf] at h
  | warp s _ _ _ => cases h; exact hw
  | crop s _ _ _ _ _ => cases h; exact hw.2
  | overview s _ _ => cases h; exact Snug.mono (Nat.zero_le _) hw
  | dequant s _ _ => cases h; exact hw

/-- Selections take whole images. -/
theorem snug_take (L : Nat) : TakeStable (Snug L) where
  parts := fun h p hp => (snugL_iff _).1 h p hp
  concat := by
    intro ps qs d c _ hq hc
    obtain ⟨d', rfl, _, _⟩ := mkConcat_ok hc
    exact (snugL_iff _).2 fun q hq' => (hq q hq').1
  nan := fun _ => trivial
  crop := by
    intro p idxs t _ hp _ h
    rw [mkCrop_none_form h]; exact ⟨⟨.inr rfl, .inr rfl⟩, hp⟩

/-- Moving an operation into a concat is exact. -/
theorem snug_push {n c : Node} {ps : List Node} {d : Int × Int} (hn : SnugTree n)
    (hsub : subOf n = .ok (some (.concat ps d))) (hsel : ¬ selects n)
    (h : pushUnder n ps = .ok (some c)) : SnugTree c ∧ KeepsSnug n c := by
  obtain ⟨w1, w2⟩ := paced_push hn.toPacedTree hsub hsel h
  obtain ⟨qs, rfl, hne, hnn, hm, hps, hqs⟩ := push_size hn.wf hn.fit hsub h
  have part : ∃ f : Chan → Chan, den n = (denL ps).map f ∧ ∀ p ∈ ps, ∀ q, reapply n p = .ok q →
      den q = (den p).map f ∧ ∀ L, Snug L n → Snug L q := by
    have hw := hn.steps
    cases n with
    | leaf l => simp [subOf] at hsub
    | concat _ _ => simp [subOf] at hsub
    | warp s tf dw a => exact hw.elim
    | overview s k dw =>
      cases hsub
      refine ⟨Chan.map (ovScale k) dw, by simp only [den], ?_⟩
      intro p hp q hq
      simp only [reapply, Except.ok.injEq] at hq
      subst hq
      refine ⟨?_, fun L hL => (snugL_iff _).1 hL p hp⟩
      rw [mkOverview, den_overview]
      have e : dw = (ovSize k p.dsize.1, ovSize k p.dsize.2) := by
        rw [hn.fit.2, (hps p hp).1]; rfl
      rw [e]
    | dequant s qz dw =>
      cases hsub
      refine ⟨fun c => (c.map .id dw).deq qz, by simp only [den], ?_⟩
      intro p hp q hq
      simp only [reapply, Except.ok.injEq] at hq
      subst hq
      refine ⟨?_, fun L hL => (snugL_iff _).1 hL p hp⟩
      rw [mkDequant, den_dequant]
      have e : dw = p.dsize := by rw [hn.fit.2, (hps p hp).1]; rfl
      rw [e]
    | crop s y0 y1 x0 x1 ci =>
      cases ci with
      | some c => exact absurd trivial hsel
      | none =>
        cases hsub
        refine ⟨Chan.map (.trans (-x0) (-y0)) (x1 - x0, y1 - y0), by
          rw [den_crop]; simp only [selDen, den], ?_⟩
        intro p hp q hq
        simp only [reapply] at hq
        obtain ⟨_, f1, f2, f3, f4⟩ := hn.fit
        simp only [dsize] at f2 f4
        have p1 := (hps p hp).1
        have e' := mkCrop_fit hq hn.wf.2.1 hn.wf.2.2.1 f1 (by rw [p1]; exact f2) f3 (by rw [p1]; exact f4)
        subst e'
        refine ⟨by rw [den_crop]; rfl, fun L hL => ⟨?_, (snugL_iff _).1 hL.2 p hp⟩⟩
        have := hL.1
        simp only [dsize] at this
        rw [p1]; exact this
  obtain ⟨f, hden, hp⟩ := part
  have hmem : ∀ L, Snug L n → SnugL L qs := fun L hL => (snugL_iff _).2 fun q hq => by
    obtain ⟨p, hpm, e⟩ := forall₂_mem_right hm hq
    exact (hp p hpm q e).2 L hL
  refine ⟨⟨w1, hmem 0 hn.ends⟩, w2, .of_eq w2.fwd.channels.symm ?_, fun L _ hL => hmem L hL⟩
  rw [hden, show den (.concat qs n.dsize) = denL qs from by rw [den]]
  exact (denL_map f hm fun p hpm q hq => (hp p hpm q hq).1).symm

/-- The end of the crop that replaces a crop below an overview: it ends on a pixel of the overview or at the
border, too. -/
theorem snug_end {K : Nat} {z D : Int} (h0 : 0 ≤ z) (hD : z ≤ D) :
    normBound (ovSize K D) (max 0 ⌈((2 : ℚ) ^ (K : Int))⁻¹ * z⌉) = ovSize K z := by
  have e : max 0 ⌈((2 : ℚ) ^ (K : Int))⁻¹ * z⌉ = ovSize K z := by
    unfold ovSize
    refine max_eq_right (Int.ceil_nonneg ?_)
    exact mul_nonneg (inv_nonneg.2 (zpow_nonneg (by norm_num) _)) (by exact_mod_cast h0)
  have h1 : 0 ≤ ovSize K z := by rw [← e]; exact le_max_left _ _
  have h2 : ovSize (K : Int) z ≤ ovSize K D := by
    unfold ovSize
    apply Int.ceil_le_ceil
    apply mul_le_mul_of_nonneg_left _ (inv_nonneg.2 (zpow_nonneg (by norm_num) _))
    exact_mod_cast hD
  rw [e]
  exact normBound_id h1 h2

theorem ovSize_mul (K : Nat) (z : Int) : ovSize K (2 ^ K * z) = z := by
  unfold ovSize
  have : ((2 : ℚ) ^ (K : Int))⁻¹ * ((2 ^ K * z : Int) : ℚ) = z := by
    push_cast; rw [zpow_natCast]; field_simp
  rw [this, Int.ceil_intCast]

/-- What a crop below an overview shows is what the crop of the overview shows, if the crop starts and ends on pixels
of the overview. -/
theorem den_cropOverview {s r : Node} {K : Nat} {a b y1 x1 : Int} {c : Option (List Nat)} {d : Int × Int}
    (hs : WF s) (hc : IdxOk (nchan s) c) (ha : 0 ≤ a) (hb : 0 ≤ b)
    (f1 : 2 ^ K * a ≤ y1) (f2 : y1 ≤ s.dsize.2) (f3 : 2 ^ K * b ≤ x1) (f4 : x1 ≤ s.dsize.1)
    (hy : 2 ^ K ∣ y1 ∨ y1 = s.dsize.2) (hx : 2 ^ K ∣ x1 ∨ x1 = s.dsize.1)
    (hd : d = (ovSize K (x1 - 2 ^ K * b), ovSize K (y1 - 2 ^ K * a)))
    (hr : r = .crop (mkOverview s K) a (ovSize K y1) b (ovSize K x1) c) :
    den r = den (.overview (.crop s (2 ^ K * a) y1 (2 ^ K * b) x1 c) K d) := by
  subst hr hd
  have hk := det_ovScale (K : Int)
  rw [den_overview, den_crop, den_crop, selDen_map (s := s) (s' := mkOverview s K) _ (den_overview s K _) c hc,
    List.map_map, List.map_map]
  apply List.map_congr_left
  intro ch hch
  simp only [Function.comp]
  rw [map_eq_via ch, map_eq_via ch, map_via _ _ hk (by simp), map_via _ _ (by simp) hk]
  have hp : (0 : ℚ) < 2 ^ K := by positivity
  have eT : ovScale (K : Int) * Affine.trans (-((2 ^ K * b : Int) : ℚ)) (-((2 ^ K * a : Int) : ℚ)) =
      Affine.trans (-(b : ℚ)) (-(a : ℚ)) * ovScale (K : Int) := by
    ext <;> simp only [Affine.mul_def, Affine.mul, Affine.trans, ovScale, Affine.scale, zpow_natCast] <;>
      push_cast <;> field_simp <;> ring
  refine via_eq (by rw [Affine.det_mul]; simpa using hk) eT fun q hq => ?_
  have hin := selDen_in hs c ch hch q hq
  rw [Affine.app_mul, Affine.inv_app_app _ (by simp), ← Affine.app_mul, ← eT, Affine.app_mul,
    Affine.inv_app_app _ hk, in_crop]
  have hov := in_mkOverview K s q hin
  have sz : ∀ z u : Int, ovSize K (u - 2 ^ K * z) = ovSize K u - z := by
    intro z u
    unfold ovSize
    have : ((2 : ℚ) ^ (K : Int))⁻¹ * ((u - 2 ^ K * z : Int) : ℚ) = ((2 : ℚ) ^ (K : Int))⁻¹ * u - z := by
      push_cast; rw [zpow_natCast]; field_simp
    rw [this, Int.ceil_sub_intCast]
  rw [sz, sz]
  -- one axis
  have ax : ∀ (z u D : Int) (t : ℚ), (2 ^ K ∣ u ∨ u = D) → t < D → 0 < ((2 : ℚ) ^ K)⁻¹ * (t + -((2 ^ K * z : Int) : ℚ)) →
      ((2 : ℚ) ^ K)⁻¹ * (t + -((2 ^ K * z : Int) : ℚ)) < ((ovSize K u - z : Int) : ℚ) →
      ((2 ^ K * z : Int) : ℚ) < t ∧ t < u := by
    intro z u D t hu htD h1 h2
    refine ⟨by linarith [pos_of_mul_pos_right h1 (inv_nonneg.2 hp.le)], ?_⟩
    rcases hu with ⟨v, rfl⟩ | rfl
    · rw [ovSize_mul, inv_mul_lt_iff₀ hp] at h2
      push_cast at h2 ⊢
      linarith
    · exact htD
  refine ⟨fun hh => ⟨hh.1, ?_⟩, fun hh => ⟨hh.1, hov⟩⟩
  obtain ⟨g1, g2, g3, g4⟩ := hh.1
  simp only [ovScale, Affine.app_scale, Affine.app_trans, zpow_natCast] at g1 g2 g3 g4
  obtain ⟨x2, x3⟩ := ax b x1 _ q.1 hx hin.2.1 g1 g2
  obtain ⟨y2, y3⟩ := ax a y1 _ q.2 hy hin.2.2.2 g3 g4
  exact ⟨x2, x3, y2, y3⟩

theorem snugRules (H : Heur) (hH : H.closeOff 0 0 = true) : Rules H SnugTree KeepsSnug where
  refl := KeepsSnug.refl
  trans := KeepsSnug.trans
  sub := snug_sub
  parts := fun h p hp => ⟨(pacedRules H hH).parts h.toPacedTree p hp, (snugL_iff _).1 h.ends p hp⟩
  same := fun h p hp => ((WFL_iff _ _).1 h.wf.2 p hp).2
  nan := fun h hn => (h.wf.2 hn).2
  cong := by
    intro n x x' hn hx hx' hs
    obtain ⟨w1, w2⟩ := (pacedRules H hH).cong hn.toPacedTree hx hx'.toPacedTree hs.toKeepsPaced
    have hw : ∀ L, Paced L n → Snug L n → Snug L (setSub n x') := by
      intro L hL hL'
      cases n with
      | leaf l => simp [subOf] at hx
      | concat _ _ => simp [subOf] at hx
      | warp s tf d a => exact hL.elim
      | crop s y0 y1 x0 x1 c =>
        cases hx
        exact ⟨by rw [hs.dsize]; exact hL'.1, hs.ends L hL.2 hL'.2⟩
      | overview s k d => cases hx; exact hs.ends _ hL.2 hL'
      | dequant s q d => cases hx; exact hs.ends L hL hL'
    refine ⟨⟨w1, hw 0 hn.steps hn.ends⟩, w2, ?_, hw⟩
    have hst := hn.steps
    cases n with
    | leaf l => simp [subOf] at hx
    | concat _ _ => simp [subOf] at hx
    | warp s tf d a => exact hst.elim
    | crop s y0 y1 x0 x1 c => cases hx; exact hs.bwd.crop _ _ _ _ _
    | overview s k d => cases hx; exact hs.bwd.overview _ _
    | dequant s q d => cases hx; exact hs.bwd.dequant _ _
  concat := by
    intro ps d qs c hn hf hc
    obtain ⟨w1, w2⟩ := (pacedRules H hH).concat hn.toPacedTree
      (hf.imp fun _ _ h => ⟨h.1.toPacedTree, h.2.toKeepsPaced⟩) hc
    obtain ⟨d', rfl, hne, hd'⟩ := mkConcat_ok hc
    have hS : ∀ L, Paced L (.concat ps d) → Snug L (.concat ps d) → Snug L (.concat qs d') := by
      intro L hL hL'
      refine (snugL_iff _).2 fun q hq => ?_
      obtain ⟨p, hp, h⟩ := forall₂_mem_right (forall₂_imp_left hf (S := fun p q => Snug L q)
        fun p hp q h => h.2.ends L ((pacedL_iff _).1 hL p hp) ((snugL_iff _).1 hL' p hp)) hq
      exact h
    refine ⟨⟨w1, hS 0 hn.steps hn.ends⟩, w2, ?_, hS⟩
    apply Sim.concat
    exact List.Forall₂.flip (hf.imp fun _ _ h => h.2.bwd)
  push := snug_push
  fuseWarps := fun h => h.steps.elim
  idWarp := fun h => h.steps.elim
  nanWarp := fun h => h.steps.elim
  splitWarp := fun h => h.steps.elim
  splitOv := fun h => h.steps.elim
  splitCrop := fun h => h.steps.elim
  absorb := fun h => h.steps.elim
  nanCrop := by
    intro l y0 y1 x0 x1 c r h hn hr
    obtain ⟨w1, w2⟩ := (pacedRules H hH).nanCrop h.toPacedTree hn hr
    obtain ⟨f0, f1, f2, f3, f4⟩ := h.fit
    obtain ⟨names, rfl⟩ := nanCrop_size f0 h.wf.2.1 h.wf.2.2.1 f1 f2 f3 f4 hr
    refine ⟨⟨w1, trivial⟩, w2, ⟨w2.fwd.channels.symm, ?_⟩, fun _ _ _ => trivial⟩
    apply forall₂_nan
    · exact w2.fwd.den.length_eq.symm
    · intro c hc p hp
      simp only [nanLeaf, den, List.mem_map] at hc
      obtain ⟨i, _, rfl⟩ := hc
      have := hp.1
      simp at this
  fuseCrops := by
    intro s iy0 iy1 ix0 ix1 ic y0 y1 x0 x1 c r h hr
    obtain ⟨w1, w2⟩ := (pacedRules H hH).fuseCrops h.toPacedTree hr
    obtain ⟨nc, hnc, rfl, f⟩ := fuseCrops_fit h.wf h.fit hr
    obtain ⟨⟨_, f1, f2, f3, f4⟩, f5, f6, f7, f8⟩ := h.fit
    have hS : ∀ L, Paced L (.crop (.crop s iy0 iy1 ix0 ix1 ic) y0 y1 x0 x1 c) →
        Snug L (.crop (.crop s iy0 iy1 ix0 ix1 ic) y0 y1 x0 x1 c) →
        Snug L (.crop s (iy0 + y0) (iy0 + y1) (ix0 + x0) (ix0 + x1) nc) := by
      intro L hL hL'
      obtain ⟨⟨p1, p2⟩, ⟨q1, q2⟩, q3⟩ := hL'
      simp only [dsize] at p1 p2
      refine ⟨⟨?_, ?_⟩, q3⟩
      · rcases p1 with p1 | p1
        · exact .inl (dvd_add hL.2.1.1 p1)
        · rw [p1]; simpa using q1
      · rcases p2 with p2 | p2
        · exact .inl (dvd_add hL.2.1.2 p2)
        · rw [p2]; simpa using q2
    exact ⟨⟨w1, hS 0 h.steps h.ends⟩, w2, .of_eq w2.fwd.channels.symm (den_fuseCrops h.wf h.fit hnc).symm, hS⟩
  warpAfterCrop := fun h => h.steps.2.elim
  dequantCrop := by
    intro s q d y0 y1 x0 x1 c h
    obtain ⟨w1, w2⟩ := (pacedRules H hH).dequantCrop h.toPacedTree
    have fd := h.fit.1.2
    have hS : ∀ L, Snug L (.crop (.dequant s q d) y0 y1 x0 x1 c) → Snug L (mkDequant (.crop s y0 y1 x0 x1 c) q) := by
      intro L hL
      have := hL.1
      simp only [dsize, fd] at this
      exact ⟨this, hL.2⟩
    exact ⟨⟨w1, hS 0 h.ends⟩, w2, .of_eq w2.fwd.channels.symm (den_dequantCrop h.wf fd).symm, fun L _ => hS L⟩
  take := by
    intro ps d y0 y1 x0 x1 c t h ht
    have hT := takeIdx_ok _ h.wf.1 c t h.wf.2.2.2 ht
    obtain ⟨w1, w2⟩ := (pacedRules H hH).take h.toPacedTree ht
    have hS : ∀ L, Snug L (.concat ps d) → Snug L t := fun L hL =>
      takeIdx_stable (snug_take L) _ h.wf.1 hL c t h.wf.2.2.2 ht
    have hP : ∀ L, Paced L (.concat ps d) → Paced L t := fun L hL =>
      takeIdx_stable (paced_take L) _ h.wf.1 hL c t h.wf.2.2.2 ht
    refine ⟨⟨w1, hS 0 h.ends.2⟩, ?_⟩
    intro t' cr ht' hs hcr
    obtain ⟨v1, v2⟩ := w2 _ _ ht'.toPacedTree hs.toKeepsPaced hcr
    obtain ⟨f0, f1, f2, f3, f4⟩ := h.fit
    have ed : t'.dsize = d := hs.dsize.trans hT.dsize
    simp only [dsize] at f2 f4
    have e := mkCrop_fit hcr h.wf.2.1 h.wf.2.2.1 f1 (by rw [ed]; exact f2) f3 (by rw [ed]; exact f4)
    subst e
    have k0 : Sim (.crop t y0 y1 x0 x1 none) (.crop (.concat ps d) y0 y1 x0 x1 (some c)) := by
      refine Sim.of_eq ?_ ?_
      · rw [channels_crop, channels_crop]; simp only [selNames, hT.channels]
      · rw [den_crop, den_crop]; simp only [selDen, hT.den]
    have hS' : ∀ L, Paced L (.crop (.concat ps d) y0 y1 x0 x1 (some c)) →
        Snug L (.crop (.concat ps d) y0 y1 x0 x1 (some c)) → Snug L (.crop t' y0 y1 x0 x1 none) := by
      intro L hL hL'
      refine ⟨?_, hs.ends L (hP L hL.2) (hS L hL'.2)⟩
      have := hL'.1
      simp only [dsize] at this
      rw [ed]; exact this
    exact ⟨⟨v1, hS' 0 h.steps h.ends⟩, v2, (hs.bwd.crop _ _ _ _ _).trans k0, hS'⟩
  renorm := by
    intro ps d y0 y1 x0 x1 cr h hcr
    obtain ⟨f0, f1, f2, f3, f4⟩ := h.fit
    have e := mkCrop_fit hcr h.wf.2.1 h.wf.2.2.1 f1 f2 f3 f4
    subst e
    exact ⟨h, .refl _⟩
  cropAfterOverview := by
    intro s y0 y1 x0 x1 c k d r h hr
    obtain ⟨w1, w2⟩ := (pacedRules H hH).cropAfterOverview h.toPacedTree hr
    obtain ⟨⟨fs, f1, f2, f3, f4⟩, e2⟩ := h.fit
    have hk := h.steps.1
    obtain ⟨K, rfl⟩ := Int.eq_ofNat_of_zero_le hk
    have hst := h.steps.2.1
    have hen := h.ends.1
    simp only [Int.ofNat_eq_natCast, Int.toNat_natCast, Nat.zero_add] at hst hen
    obtain ⟨⟨a, rfl⟩, ⟨b, rfl⟩⟩ := hst
    have hp : (0 : Int) < 2 ^ K := by positivity
    have ha : 0 ≤ a := nonneg_of_mul_nonneg_right h.wf.2.1 hp
    have hb : 0 ≤ b := nonneg_of_mul_nonneg_right h.wf.2.2.1 hp
    obtain ⟨hm, hx⟩ := crop_overview_form H hH K ha hb hr
    have lo : ∀ D z u : Int, 0 ≤ z → 2 ^ K * z ≤ u → u ≤ D → z ≤ ovSize K u ∧ ovSize K u ≤ ovSize K D := by
      intro D z u hz hu hD
      have mono : ∀ v w : Int, v ≤ w → ovSize K v ≤ ovSize K w := by
        intro v w hvw
        unfold ovSize
        apply Int.ceil_le_ceil
        apply mul_le_mul_of_nonneg_left _ (inv_nonneg.2 (zpow_nonneg (by norm_num) _))
        exact_mod_cast hvw
      exact ⟨by have := mono _ _ hu; rwa [ovSize_mul] at this, mono _ _ hD⟩
    obtain ⟨ly, uy⟩ := lo _ _ _ ha f1 f2
    obtain ⟨lx, ux⟩ := lo _ _ _ hb f3 f4
    have y0' : 0 ≤ y1 := h.wf.2.1.trans f1
    have x0' : 0 ≤ x1 := h.wf.2.2.1.trans f3
    have er : r = .crop (mkOverview s (K : Int)) a (ovSize K y1) b (ovSize K x1) c := by
      rw [mkCrop_ints hm]
      have n1 := snug_end (K := K) y0' f2
      have n2 := snug_end (K := K) x0' f4
      have e1 : (mkOverview s (K : Int)).dsize.1 = ovSize K s.dsize.1 := rfl
      have e2 : (mkOverview s (K : Int)).dsize.2 = ovSize K s.dsize.2 := rfl
      rw [e1, e2, n1, n2, normBound_id ha (ly.trans uy), normBound_id hb (lx.trans ux), max_eq_right ly,
        max_eq_right lx]
    have hS : ∀ L, Paced L (.overview (.crop s (2 ^ K * a) y1 (2 ^ K * b) x1 c) (K : Int) d) →
        Snug L (.overview (.crop s (2 ^ K * a) y1 (2 ^ K * b) x1 c) (K : Int) d) → Snug L r := by
      intro L _ hL
      have hL2 : Snug (L + K) (.crop s (2 ^ K * a) y1 (2 ^ K * b) x1 c) := hL
      obtain ⟨⟨d1, d2⟩, d3⟩ := hL2
      have one : ∀ u D : Int, (2 ^ (L + K) ∣ u ∨ u = D) → (2 ^ L ∣ ovSize K u ∨ ovSize K u = ovSize K D) := by
        rintro u D (⟨v, rfl⟩ | rfl)
        · left
          rw [pow_add, mul_comm ((2 : Int) ^ L), mul_assoc, ovSize_mul]
          exact dvd_mul_right _ _
        · exact .inr rfl
      rw [er]
      exact ⟨⟨one _ _ d1, one _ _ d2⟩, d3⟩
    refine ⟨⟨w1, hS 0 h.steps h.ends⟩, w2, .of_eq w2.fwd.channels.symm ?_, hS⟩
    exact (den_cropOverview h.wf.1 h.wf.2.2.2 ha hb f1 f2 f3 f4 hen.1 hen.2 e2 er).symm
  warpAfterOverview := fun h => h.steps.2.elim
  dequantOverview := by
    intro s q dq k d h
    obtain ⟨w1, w2⟩ := (pacedRules H hH).dequantOverview h.toPacedTree
    exact ⟨⟨w1, h.ends⟩, w2, .of_eq w2.fwd.channels.symm (den_dequantOverview (s := s) h.wf h.fit.1.2).symm,
      fun _ _ h => h⟩
  ov0 := by
    intro s d h
    have w2 := (pacedRules H hH).ov0 h.toPacedTree
    refine ⟨w2, ?_, fun L _ hL => hL⟩
    have e := w2.dsize
    simp only [dsize] at e
    subst e
    exact .of_eq w2.fwd.channels.symm (den_ov0 (s := s) h.wf)
  fuseOv := by
    intro s k1 d1 k d h
    obtain ⟨w1, w2⟩ := (pacedRules H hH).fuseOv h.toPacedTree
    have hS : ∀ L, Paced L (.overview (.overview s k1 d1) k d) → Snug L (.overview (.overview s k1 d1) k d) →
        Snug L (mkOverview s (k1 + k)) := by
      intro L hL hL'
      obtain ⟨h1, h2, h3⟩ := hL
      have e : L + (k1 + k).toNat = L + k.toNat + k1.toNat := by omega
      show Snug (L + (k1 + k).toNat) s
      rw [e]; exact hL'
    exact ⟨⟨w1, hS 0 h.steps h.ends⟩, w2, .of_eq w2.fwd.channels.symm
      (den_fuseOv (s := s) h.wf h.fit.1.2 w2.dsize.symm).symm, hS⟩
  dequantWarp := fun h => h.steps.elim

mutual
theorem snug_simple : ∀ {n : Node} (L : Nat), Simple n → Snug L n
  | .leaf _, _, _ => trivial
  | .concat ps _, L, h => by rw [Simple] at h; rw [Snug]; exact snug_simpleL L h
  | .warp _ _ _ _, _, h => h.elim
  | .crop _ _ _ _ _ _, _, h => h.elim
  | .overview s _ _, L, h => by rw [Snug]; exact snug_simple _ h.2
  | .dequant s _ _, L, h => by rw [Simple] at h; rw [Snug]; exact snug_simple L h
theorem snug_simpleL : ∀ {ps : List Node} (L : Nat), SimpleL ps → SnugL L ps
  | [], _, _ => trivial
  | p :: ps, L, h => by rw [SimpleL] at h; rw [SnugL]; exact ⟨snug_simple L h.1, snug_simpleL L h.2⟩
end

mutual
/-- Crops above all overviews may end anywhere. -/
theorem snug_noWarp : ∀ {n : Node}, NoWarp n → Snug 0 n
  | .leaf _, _ => trivial
  | .concat ps _, h => by rw [NoWarp] at h; rw [Snug]; exact snug_noWarpL h
  | .warp _ _ _ _, h => h.elim
  | .crop s _ _ _ _ _, h => by
    rw [NoWarp] at h; rw [Snug]; exact ⟨⟨.inl (by simp), .inl (by simp)⟩, snug_noWarp h⟩
  | .overview s _ _, h => by rw [Snug]; exact snug_simple _ h.2
  | .dequant s _ _, h => by rw [NoWarp] at h; rw [Snug]; exact snug_noWarp h
theorem snug_noWarpL : ∀ {ps : List Node}, NoWarpL ps → SnugL 0 ps
  | [], _ => trivial
  | p :: ps, h => by rw [NoWarpL] at h; rw [SnugL]; exact ⟨snug_noWarp h.1, snug_noWarpL h.2⟩
end

/-- C36 with overviews of parts: if all crops start on pixels of the overviews taken after them (`Paced`) and end on
such pixels or at the border (`Snug`), then size, channels, sources and the points that are shown are exactly the
same.  `C36_no_warps_partial` is about images without crops below overviews, which are all such images (`paced_noWarp`,
`snug_noWarp`).  Missing: warps, and other crops (`C36_ends_violated`, `C36_size_violated`). -/
theorem C36_snug_partial (H : Heur) (hH : H.closeOff 0 0 = true) {n : Node} (hb : Built n) (hn : Paced 0 n)
    (he : Snug 0 n) (fuel : Nat) {m : Node} (h : opt H fuel n = .ok m) :
    m.dsize = n.dsize ∧ m.channels = n.channels ∧ m.nchan = n.nchan ∧
    ∀ {V : Type} (img : Nat → Nat → ℚ × ℚ → V) (deq : Quantization → V → V) (i : Nat) (p : ℚ × ℚ),
      ((den m).getD i Chan.none).value img deq p = ((den n).getD i Chan.none).value img deq p := by
  have g := opt_good (deep := false) (snugRules H hH) (by simp) fuel n m ⟨⟨hb.ok.1, hb.ok.2, hn⟩, he⟩ h
  refine ⟨g.rel.dsize, g.rel.fwd.channels, g.rel.fwd.nchan, ?_⟩
  intro V img deq i p
  have l1 := forall₂_getD g.rel.fwd.den i
  have l2 := forall₂_getD g.rel.bwd.den i
  cases hv : ((den n).getD i Chan.none).value img deq p with
  | some v => exact l1.value img deq p v hv
  | none =>
    cases hv' : ((den m).getD i Chan.none).value img deq p with
    | none => rfl
    | some v => rw [l2.value img deq p v hv'] at hv; cases hv

/-- The lower right of two pictures side by side, in the first overview, and the right of that in the first overview
again: all crops end at the border or at a multiple of 4. -/
def cornerView : Node :=
  mkOverview (.crop (mkOverview (.crop sideBySide 4 8 4 10 none) 1) 0 2 2 3 none) 1

theorem cornerView_ok : Built cornerView ∧ Paced 0 cornerView ∧ Snug 0 cornerView ∧ ¬ NoWarp cornerView ∧
    ∃ m, opt Heur.code 60 cornerView = .ok m ∧ m.dsize = (1, 1) ∧
      paths m = [[Step.concat, Step.dequant, Step.crop false, Step.overview], [Step.concat, Step.crop false, Step.overview]] := by
  have e4 : ovSize 1 4 = 2 := by decide +kernel
  have e6 : ovSize 1 6 = 3 := by decide +kernel
  have e : (mkOverview (.crop sideBySide 4 8 4 10 none) 1 : Node) =
      .overview (.crop sideBySide 4 8 4 10 none) 1 (3, 2) := by
    show (Node.overview _ 1 (ovSize 1 6, ovSize 1 4) : Node) = _
    rw [e4, e6]
  refine ⟨?_, ⟨by decide, ⟨⟨by decide, by decide⟩, by decide, ⟨⟨by decide, by decide⟩, trivial, trivial, trivial⟩⟩⟩,
    ⟨⟨.inl (by decide), .inr e6.symm⟩, ⟨.inl (by decide), .inr rfl⟩, trivial, trivial, trivial⟩, fun h => h.2.elim, ?_⟩
  · have h1 : Built sideBySide := by
      refine .concat [mkDequant (.leaf pyramid) ⟨0, 1, 0, 255, none⟩, .leaf { pyramid with id := 2 }] _ ?_ rfl
      intro p hp
      simp only [List.mem_cons, List.not_mem_nil, or_false] at hp
      rcases hp with rfl | rfl
      · exact .dequant _ _ pyramid_built
      · exact picture_built (some 3) 2
    have h2 : Built (.crop sideBySide 4 8 4 10 none) :=
      .crop sideBySide _ (some ((some 4, some 8), (some 4, none))) none h1 trivial rfl
    have h3 := Built.overview _ 1 h2
    refine .overview _ 1 ?_
    rw [e] at h3 ⊢
    exact .crop _ _ (some ((some 0, some 2), (some 2, some 3))) none h3 trivial rfl
  · obtain ⟨m, h1, h2⟩ := holds_ok (x := opt Heur.code 60 cornerView)
      (f := fun m => decide (m.dsize = (1, 1)) && decide (paths m =
        [[Step.concat, Step.dequant, Step.crop false, Step.overview], [Step.concat, Step.crop false, Step.overview]])) (by decide +kernel)
    simp only [Bool.and_eq_true, decide_eq_true_eq] at h2
    exact ⟨m, h1, h2.1, h2.2⟩

/-- The first overview of the first five rows of a picture of ten rows. -/
def oddEnd : Node := mkOverview (.crop (.leaf pyramid) 0 5 0 10 none) 1

/-- C36, ends of crops: the last row of an overview of an odd number of rows is only half covered by them; after
`optimize` its lower half shows the next row of the picture. -/
theorem C36_ends_violated : Built oddEnd ∧ Paced 0 oddEnd ∧ ∃ m, opt Heur.code 40 oddEnd = .ok m ∧ m.dsize = oddEnd.dsize ∧
    ∃ p, In oddEnd.dsize p ∧ ∀ {V : Type} (img : Nat → Nat → ℚ × ℚ → V) (deq : Quantization → V → V),
      ((den oddEnd).getD 0 Chan.none).value img deq p = none ∧
      ((den m).getD 0 Chan.none).value img deq p = some (img pyramid.id 0 (2, 11 / 2)) := by
  have hs : oddEnd = .overview (.crop (.leaf pyramid) 0 5 0 10 none) 1 (5, 3) := by decide +kernel
  obtain ⟨m, h1, h2⟩ := holds_ok (x := opt Heur.code 40 oddEnd)
    (f := fun m => decide (m = .crop (.overview (.leaf pyramid) 1 (5, 5)) 0 3 0 5 none)) (by decide +kernel)
  simp only [decide_eq_true_eq] at h2
  subst h2
  refine ⟨.overview _ 1 (.crop _ _ (some ((some 0, some 5), (none, none))) none pyramid_built trivial rfl),
    ⟨by decide, ⟨by decide, by decide⟩, trivial⟩, _, h1, by rw [hs]; rfl, (1, 11 / 4), ?_, ?_⟩
  · rw [hs]; norm_num [In, dsize]
  · intro V img deq
    rw [hs]
    constructor
    · have : ¬ ((den (.overview (.crop (.leaf pyramid) 0 5 0 10 none) 1 (5, 3) : Node)).getD 0 Chan.none).dom (1, 11 / 4) := by
        rw [den_overview, den_crop]
        rintro ⟨_, h, _⟩
        have := h.2.2.2
        norm_num [ovScale, Affine.inv, Affine.app, Affine.scale, Affine.det] at this
      unfold Chan.value
      rw [if_neg this]
    · have : ((den (.crop (.overview (.leaf pyramid) 1 (5, 5)) 0 3 0 5 none : Node)).getD 0 Chan.none).dom (1, 11 / 4) := by
        rw [den_crop, selDen, den_overview]
        refine ⟨?_, ?_, ?_, ?_⟩ <;> 
          norm_num [In, ovScale, Affine.inv, Affine.app, Affine.scale, Affine.trans, Affine.det, pyramid]
      unfold Chan.value
      rw [if_pos this, den_crop, selDen, den_overview]
      show some (img pyramid.id 0 ((Affine.trans (-((0 : Int) : ℚ)) (-((0 : Int) : ℚ)) * (ovScale 1 * Affine.id)).inv.app
        (1, 11 / 4))) = _
      congr 2
      ext <;> norm_num [Affine.inv, Affine.app, Affine.det, Affine.mul_def, Affine.mul, Affine.trans, Affine.scale, ovScale, Affine.id]

end Props
end Verif
