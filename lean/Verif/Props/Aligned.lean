/-
C36, C45, C62 and C91 for crops below overviews that start on pixels of the overviews: no rewrite changes a
size, so what is announced for them stays true when they are optimized.
-/
import Verif.ExactRules
import Verif.Props.Geometry
import Verif.Props.Check
import Verif.Props.Overviews
import Verif.Props.Rigid
import Verif.Props.Fix

namespace Verif
namespace Props

open Tree Tree.Node Helpers

/-! ### Crops that start on pixels of the overviews -/

mutual
/-- There are no warps, no negative overviews, and every crop starts at a multiple of `2 ** j`, where `j` is the
number of overviews taken after it, of which `L` are outside of this tree. -/
def Paced (L : Nat) : Node → Prop
  | .leaf _ => True
  | .concat ps _ => PacedL L ps
  | .warp _ _ _ _ => False
  | .crop s y0 _ x0 _ _ => (2 ^ L ∣ y0 ∧ 2 ^ L ∣ x0) ∧ Paced L s
  | .overview s k _ => 0 ≤ k ∧ Paced (L + k.toNat) s
  | .dequant s _ _ => Paced L s
def PacedL (L : Nat) : List Node → Prop
  | [] => True
  | p :: ps => Paced L p ∧ PacedL L ps
end

theorem pacedL_iff {L : Nat} (ps : List Node) : PacedL L ps ↔ ∀ p ∈ ps, Paced L p := by
  induction ps with
  | nil => simp [PacedL]
  | cons p ps ih => simp [PacedL, ih]

mutual
theorem Paced.mono {K L : Nat} (hKL : K ≤ L) : ∀ {n : Node}, Paced L n → Paced K n
  | .leaf _, _ => trivial
  | .concat ps d, h => by rw [Paced] at h ⊢; exact Paced.monoL hKL h
  | .warp _ _ _ _, h => h.elim
  | .crop s _ _ _ _ _, h => by
    rw [Paced] at h ⊢
    exact ⟨⟨(pow_dvd_pow 2 hKL).trans h.1.1, (pow_dvd_pow 2 hKL).trans h.1.2⟩, Paced.mono hKL h.2⟩
  | .overview s k _, h => by
    rw [Paced] at h ⊢
    exact ⟨h.1, Paced.mono (Nat.add_le_add_right hKL _) h.2⟩
  | .dequant s _ _, h => by rw [Paced] at h ⊢; exact Paced.mono hKL h
theorem Paced.monoL {K L : Nat} (hKL : K ≤ L) : ∀ {ps : List Node}, PacedL L ps → PacedL K ps
  | [], _ => trivial
  | p :: ps, h => by rw [PacedL] at h ⊢; exact ⟨Paced.mono hKL h.1, Paced.monoL hKL h.2⟩
end

mutual
theorem paced_simple : ∀ {n : Node} (L : Nat), Simple n → Paced L n
  | .leaf _, _, _ => trivial
  | .concat ps _, L, h => by rw [Simple] at h; rw [Paced]; exact paced_simpleL L h
  | .warp _ _ _ _, _, h => h.elim
  | .crop _ _ _ _ _ _, _, h => h.elim
  | .overview s _ _, L, h => ⟨h.1, paced_simple _ h.2⟩
  | .dequant s _ _, L, h => by rw [Simple] at h; rw [Paced]; exact paced_simple L h
theorem paced_simpleL : ∀ {ps : List Node} (L : Nat), SimpleL ps → PacedL L ps
  | [], _, _ => trivial
  | p :: ps, L, h => by rw [SimpleL] at h; rw [PacedL]; exact ⟨paced_simple L h.1, paced_simpleL L h.2⟩
end

mutual
/-- Crops above all overviews may start anywhere. -/
theorem paced_noWarp : ∀ {n : Node}, NoWarp n → Paced 0 n
  | .leaf _, _ => trivial
  | .concat ps _, h => by rw [NoWarp] at h; rw [Paced]; exact paced_noWarpL h
  | .warp _ _ _ _, h => h.elim
  | .crop s _ _ _ _ _, h => by
    rw [NoWarp] at h; rw [Paced]; exact ⟨⟨by simp, by simp⟩, paced_noWarp h⟩
  | .overview s _ _, h => ⟨h.1, paced_simple _ h.2⟩
  | .dequant s _ _, h => by rw [NoWarp] at h; rw [Paced]; exact paced_noWarp h
theorem paced_noWarpL : ∀ {ps : List Node}, NoWarpL ps → PacedL 0 ps
  | [], _ => trivial
  | p :: ps, h => by rw [NoWarpL] at h; rw [PacedL]; exact ⟨paced_noWarp h.1, paced_noWarpL h.2⟩
end

/-- The trees considered here. -/
structure PacedTree (n : Node) : Prop where
  wf : WF n
  fit : Fit n
  steps : Paced 0 n

/-- The size is kept, what is shown stays, and crops stay where they may be. -/
structure KeepsPaced (n n' : Node) : Prop where
  dsize : n'.dsize = n.dsize
  fwd : Sim n n'
  steps : ∀ L, Paced L n → Paced L n'

theorem KeepsPaced.refl (n : Node) : KeepsPaced n n := ⟨rfl, .refl _, fun _ h => h⟩

theorem KeepsPaced.trans {a b c : Node} (h1 : KeepsPaced a b) (h2 : KeepsPaced b c) : KeepsPaced a c :=
  ⟨h2.dsize.trans h1.dsize, h1.fwd.trans h2.fwd, fun L h => h2.steps L (h1.steps L h)⟩

theorem paced_sub {n x : Node} (hn : PacedTree n) (h : subOf n = .ok (some x)) : PacedTree x := by
  have hf := hn.fit
  have hw := hn.steps
  refine ⟨wf_sub hn.wf h, ?_, ?_⟩
  · cases n with
    | leaf l => simp [subOf] at h
    | concat _ _ => simp [subOf] at h
    | warp s _ _ _ => cases h; exact hf.2
    | crop s _ _ _ _ _ => cases h; exact hf.1
    | overview s _ _ => cases h; exact hf.1
    | dequant s _ _ => cases h; exact hf.1
  · cases n with
    | leaf l => simp [subOf] at h
    | concat _ _ => simp [subOf] at h
    | warp s _ _ _ => exact hw.elim
    | crop s _ _ _ _ _ => cases h; exact hw.2
    | overview s _ _ => cases h; exact hw.2.mono (Nat.zero_le _)
    | dequant s _ _ => cases h; exact hw

theorem paced_take (L : Nat) : TakeStable (Paced L) where
  parts := fun h p hp => (pacedL_iff _).1 h p hp
  concat := by
    intro ps qs d c _ hq hc
    obtain ⟨d', rfl, _, _⟩ := mkConcat_ok hc
    exact (pacedL_iff _).2 fun q hq' => (hq q hq').1
  nan := fun _ => trivial
  crop := by
    intro p idxs t _ hp _ h
    rw [mkCrop_none_form h]; exact ⟨⟨dvd_zero _, dvd_zero _⟩, hp⟩

theorem paced_push {n c : Node} {ps : List Node} {d : Int × Int} (hn : PacedTree n)
    (hsub : subOf n = .ok (some (.concat ps d))) (hsel : ¬ selects n)
    (h : pushUnder n ps = .ok (some c)) : PacedTree c ∧ KeepsPaced n c := by
  obtain ⟨w1, w2⟩ := sim_push hn.wf hsub hsel h
  obtain ⟨qs, rfl, hne, hnn, hm, hps, hqs⟩ := push_size hn.wf hn.fit hsub h
  have part : ∀ L, Paced L n → ∀ q ∈ qs, Paced L q := by
    intro L hL q hq
    obtain ⟨p, hp, e⟩ := forall₂_mem_right hm hq
    cases n with
    | leaf l => simp [subOf] at hsub
    | concat _ _ => simp [subOf] at hsub
    | warp s tf dw a => exact hL.elim
    | overview s k dw =>
      cases hsub
      simp only [reapply, Except.ok.injEq] at e
      subst e
      exact ⟨hL.1, (pacedL_iff _).1 hL.2 p hp⟩
    | dequant s qz dw =>
      cases hsub
      simp only [reapply, Except.ok.injEq] at e
      subst e
      exact (pacedL_iff _).1 hL p hp
    | crop s y0 y1 x0 x1 ci =>
      cases ci with
      | some c => exact absurd trivial hsel
      | none =>
        cases hsub
        simp only [reapply] at e
        obtain ⟨_, f1, f2, f3, f4⟩ := hn.fit
        simp only [dsize] at f2 f4
        have p1 := (hps p hp).1
        have e' := mkCrop_fit e hn.wf.2.1 hn.wf.2.2.1 f1 (by rw [p1]; exact f2) f3 (by rw [p1]; exact f4)
        subst e'
        exact ⟨hL.1, (pacedL_iff _).1 hL.2 p hp⟩
  exact ⟨⟨w1, ⟨hnn, (FitL_iff _).2 fun q hq => (hqs q hq).1⟩, (pacedL_iff _).2 (part 0 hn.steps)⟩, rfl, w2,
    fun L hL => (pacedL_iff _).2 (part L hL)⟩

/-- A crop below an overview that starts on a pixel of the overview becomes a crop of the overview, and no
warp is needed. -/
theorem crop_overview_form (H : Heur) (hH : H.closeOff 0 0 = true) {s r : Node} (k : Nat) {a b y1 x1 : Int}
    (ha : 0 ≤ a) (hb : 0 ≤ b) {c : Option (List Nat)}
    (h : cropAfterOverview H s (2 ^ k * a) y1 (2 ^ k * b) x1 c k = .ok r) :
    mkCrop (mkOverview s k) (ints a (max 0 ⌈((2 : ℚ) ^ (k : Int))⁻¹ * y1⌉) b
      (max 0 ⌈((2 : ℚ) ^ (k : Int))⁻¹ * x1⌉)) c = .ok r ∧
    cropAfterOverview Heur.exact s (2 ^ k * a) y1 (2 ^ k * b) x1 c k = .ok r := by
  have lo : ∀ z : Int, 0 ≤ z → max 0 ⌊((2 : ℚ) ^ (k : Int))⁻¹ * ((2 ^ k * z : Int) : ℚ)⌋ = z := by
    intro z hz
    have : ((2 : ℚ) ^ (k : Int))⁻¹ * ((2 ^ k * z : Int) : ℚ) = z := by
      push_cast; rw [zpow_natCast]; field_simp
    rw [this, Int.floor_intCast]; omega
  have off : ∀ z : Int, (z : ℚ) - ((2 : ℚ) ^ (k : Int))⁻¹ * ((2 ^ k * z : Int) : ℚ) = 0 := by
    intro z
    push_cast; rw [zpow_natCast]; field_simp; ring
  have hE : Heur.exact.closeOff 0 0 = true := by simp [Heur.exact]
  simp only [cropAfterOverview, lo a ha, lo b hb, off] at h ⊢
  split at h
  · cases h
  · rename_i cr hm
    rw [if_pos hH] at h
    cases h
    exact ⟨hm, by rw [if_pos hE]⟩

theorem pacedRules (H : Heur) (hH : H.closeOff 0 0 = true) : Rules H PacedTree KeepsPaced where
  refl := KeepsPaced.refl
  trans := KeepsPaced.trans
  sub := paced_sub
  parts := fun h p hp => ⟨((WFL_iff _ _).1 h.wf.2 p hp).1, (FitL_iff _).1 h.fit.2 p hp,
    (pacedL_iff _).1 h.steps p hp⟩
  same := fun h p hp => ((WFL_iff _ _).1 h.wf.2 p hp).2
  nan := fun h hn => (h.wf.2 hn).2
  cong := by
    intro n x x' hn hx hx' hs
    obtain ⟨f1, f2⟩ := fit_setSub hn.fit hx hx'.fit hs.dsize
    obtain ⟨w1, w2⟩ := (simRules Heur.exact Heur.exact_exact).cong hn.wf hx hx'.wf hs.fwd
    have hw : ∀ L, Paced L n → Paced L (setSub n x') := by
      intro L hL
      cases n with
      | leaf l => simp [subOf] at hx
      | concat _ _ => simp [subOf] at hx
      | warp s tf d a => exact hL.elim
      | crop s y0 y1 x0 x1 c => cases hx; exact ⟨hL.1, hs.steps L hL.2⟩
      | overview s k d => cases hx; exact ⟨hL.1, hs.steps _ hL.2⟩
      | dequant s q d => cases hx; exact hs.steps L hL
    exact ⟨⟨w1, f1, hw 0 hn.steps⟩, f2, w2, hw⟩
  concat := by
    intro ps d qs c hn hf hc
    obtain ⟨w1, w2⟩ := (simRules Heur.exact Heur.exact_exact).concat hn.wf (hf.imp fun _ _ h => ⟨h.1.wf, h.2.fwd⟩) hc
    obtain ⟨d', rfl, hne, hd'⟩ := mkConcat_ok hc
    have hq : ∀ q ∈ qs, Fit q ∧ q.dsize = d ∧ ∀ L, PacedL L ps → Paced L q := by
      intro q hq
      obtain ⟨p, hp, h⟩ := forall₂_mem_right (forall₂_imp_left hf
        (S := fun p q => Fit q ∧ q.dsize = d ∧ ∀ L, PacedL L ps → Paced L q)
        fun p hp q h => ⟨h.1.fit, h.2.dsize.trans ((WFL_iff _ _).1 hn.wf.2 p hp).2,
          fun L hL => h.2.steps L ((pacedL_iff _).1 hL p hp)⟩) hq
      exact h
    obtain ⟨q, hq1⟩ := List.exists_mem_of_ne_nil _ hne
    have e : d' = d := (hd' q hq1).symm.trans (hq q hq1).2.1
    subst e
    have hS : ∀ L, Paced L (.concat ps d') → Paced L (.concat qs d') := fun L hL =>
      (pacedL_iff _).2 fun q h => (hq q h).2.2 L hL
    exact ⟨⟨w1, ⟨hn.fit.1, (FitL_iff _).2 fun q h => (hq q h).1⟩, hS 0 hn.steps⟩, rfl, w2, hS⟩
  push := paced_push
  fuseWarps := fun h => h.steps.elim
  idWarp := fun h => h.steps.elim
  nanWarp := fun h => h.steps.elim
  splitWarp := fun h => h.steps.elim
  splitOv := fun h => h.steps.elim
  splitCrop := fun h => h.steps.elim
  absorb := fun h => h.steps.elim
  nanCrop := by
    intro l y0 y1 x0 x1 c r h hn hr
    obtain ⟨w1, w2⟩ := (simRules Heur.exact Heur.exact_exact).nanCrop h.wf hn hr
    obtain ⟨f0, f1, f2, f3, f4⟩ := h.fit
    obtain ⟨names, rfl⟩ := nanCrop_size f0 h.wf.2.1 h.wf.2.2.1 f1 f2 f3 f4 hr
    exact ⟨⟨w1, ⟨by simp only; omega, by simp only; omega⟩, trivial⟩, rfl, w2, fun _ _ => trivial⟩
  fuseCrops := by
    intro s iy0 iy1 ix0 ix1 ic y0 y1 x0 x1 c r h hr
    obtain ⟨w1, w2⟩ := (simRules Heur.exact Heur.exact_exact).fuseCrops h.wf hr
    obtain ⟨nc, hnc, rfl, f⟩ := fuseCrops_fit h.wf h.fit hr
    have hS : ∀ L, Paced L (.crop (.crop s iy0 iy1 ix0 ix1 ic) y0 y1 x0 x1 c) →
        Paced L (.crop s (iy0 + y0) (iy0 + y1) (ix0 + x0) (ix0 + x1) nc) := fun L hL =>
      ⟨⟨dvd_add hL.2.1.1 hL.1.1, dvd_add hL.2.1.2 hL.1.2⟩, hL.2.2⟩
    refine ⟨⟨w1, f, hS 0 h.steps⟩, ?_, w2, hS⟩
    simp only [dsize, Prod.mk.injEq]
    exact ⟨by ring, by ring⟩
  warpAfterCrop := fun h => h.steps.2.elim
  dequantCrop := by
    intro s q d y0 y1 x0 x1 c h
    obtain ⟨w1, w2⟩ := (simRules Heur.exact Heur.exact_exact).dequantCrop h.wf
    obtain ⟨⟨fs, fd⟩, f1, f2, f3, f4⟩ := h.fit
    simp only [Node.dsize] at f2 f4
    rw [fd] at f2 f4
    exact ⟨⟨w1, ⟨⟨fs, f1, f2, f3, f4⟩, rfl⟩, h.steps⟩, rfl, w2, fun _ h => h⟩
  take := by
    intro ps d y0 y1 x0 x1 c t h ht
    have hT := takeIdx_ok _ h.wf.1 c t h.wf.2.2.2 ht
    have hS : ∀ L, Paced L (.concat ps d) → Paced L t := fun L hL =>
      takeIdx_stable (paced_take L) _ h.wf.1 hL c t h.wf.2.2.2 ht
    refine ⟨⟨hT.wf, takeIdx_stable fit_take _ h.wf.1 h.fit.1 c t h.wf.2.2.2 ht, hS 0 h.steps.2⟩, ?_⟩
    intro t' cr ht' hs hcr
    obtain ⟨f0, f1, f2, f3, f4⟩ := h.fit
    have ed : t'.dsize = d := hs.dsize.trans hT.dsize
    simp only [dsize] at f2 f4
    have e := mkCrop_fit hcr h.wf.2.1 h.wf.2.2.1 f1 (by rw [ed]; exact f2) f3 (by rw [ed]; exact f4)
    subst e
    have k0 : Sim (.crop (.concat ps d) y0 y1 x0 x1 (some c)) (.crop t y0 y1 x0 x1 none) := by
      refine Sim.of_eq ?_ ?_
      · rw [channels_crop, channels_crop]; simp only [selNames, hT.channels]
      · rw [den_crop, den_crop]; simp only [selDen, hT.den]
    have hS' : ∀ L, Paced L (.crop (.concat ps d) y0 y1 x0 x1 (some c)) → Paced L (.crop t' y0 y1 x0 x1 none) :=
      fun L hL => ⟨hL.1, hs.steps L (hS L hL.2)⟩
    exact ⟨⟨⟨ht'.wf, h.wf.2.1, h.wf.2.2.1, trivial⟩, ⟨ht'.fit, f1, by rw [ed]; exact f2, f3, by
      rw [ed]; exact f4⟩, hS' 0 h.steps⟩, rfl, k0.trans (hs.fwd.crop _ _ _ _ _), hS'⟩
  renorm := by
    intro ps d y0 y1 x0 x1 cr h hcr
    obtain ⟨f0, f1, f2, f3, f4⟩ := h.fit
    have e := mkCrop_fit hcr h.wf.2.1 h.wf.2.2.1 f1 f2 f3 f4
    subst e
    exact ⟨h, .refl _⟩
  cropAfterOverview := by
    intro s y0 y1 x0 x1 c k d r h hr
    obtain ⟨⟨fs, f1, f2, f3, f4⟩, e2⟩ := h.fit
    have hk := h.steps.1
    obtain ⟨K, rfl⟩ := Int.eq_ofNat_of_zero_le hk
    have hst := h.steps.2.1
    simp only [Int.ofNat_eq_natCast, Int.toNat_natCast, Nat.zero_add] at hst
    obtain ⟨⟨a, rfl⟩, ⟨b, rfl⟩⟩ := hst
    have hp : (0 : Int) < 2 ^ K := by positivity
    have ha : 0 ≤ a := nonneg_of_mul_nonneg_right h.wf.2.1 hp
    have hb : 0 ≤ b := nonneg_of_mul_nonneg_right h.wf.2.2.1 hp
    obtain ⟨hm, hx⟩ := crop_overview_form H hH K ha hb hr
    obtain ⟨w1, w2⟩ := (simRules Heur.exact Heur.exact_exact).cropAfterOverview h.wf hx
    have hsz := C33_size_partial H K ha hb f1 f3 f2 f4 c hr
    have hwo : WF (mkOverview s (K : Int)) := h.wf.1
    have hfr : Fit r := fit_mkCrop (s := mkOverview s (K : Int)) ⟨fs, rfl⟩ hwo hm
    have le : ∀ D z u : Int, 0 ≤ z → 2 ^ K * z ≤ u → u ≤ D → normBound (ovSize K D) z = z := by
      intro D z u hz hu hD
      refine normBound_id hz ?_
      have h3 : ovSize (K : Int) (2 ^ K * z) = z := by
        unfold ovSize
        have : ((2 : ℚ) ^ (K : Int))⁻¹ * ((2 ^ K * z : Int) : ℚ) = z := by
          push_cast; rw [zpow_natCast]; field_simp
        rw [this, Int.ceil_intCast]
      have h4 : ovSize (K : Int) (2 ^ K * z) ≤ ovSize K D := by
        unfold ovSize
        apply Int.ceil_le_ceil
        apply mul_le_mul_of_nonneg_left _ (inv_nonneg.2 (zpow_nonneg (by norm_num) _))
        exact_mod_cast hu.trans hD
      omega
    have hS : ∀ L, Paced L (.overview (.crop s (2 ^ K * a) y1 (2 ^ K * b) x1 c) (K : Int) d) → Paced L r := by
      intro L hL
      rw [mkCrop_ints hm]
      have hL2 := hL.2
      simp only [Int.toNat_natCast] at hL2
      obtain ⟨⟨d1, d2⟩, d3⟩ := hL2
      rw [pow_add, mul_comm ((2 : Int) ^ L)] at d1 d2
      have hd1 := Int.dvd_of_mul_dvd_mul_left hp.ne' d1
      have hd2 := Int.dvd_of_mul_dvd_mul_left hp.ne' d2
      refine ⟨⟨?_, ?_⟩, hL.1, ?_⟩
      · show _ ∣ normBound (ovSize K s.dsize.2) a
        rw [le _ _ _ ha f1 f2]; exact hd1
      · show _ ∣ normBound (ovSize K s.dsize.1) b
        rw [le _ _ _ hb f3 f4]; exact hd2
      · simp only [Int.toNat_natCast]; exact d3
    exact ⟨⟨w1, hfr, hS 0 h.steps⟩, hsz.trans e2.symm, w2, hS⟩
  warpAfterOverview := fun h => h.steps.2.elim
  dequantOverview := by
    intro s q dq k d h
    obtain ⟨w1, w2⟩ := (simRules Heur.exact Heur.exact_exact).dequantOverview h.wf
    have e1 : dq = s.dsize := h.fit.1.2
    have e2 := h.fit.2
    refine ⟨⟨w1, ⟨⟨h.fit.1.1, ?_⟩, rfl⟩, h.steps⟩, rfl, w2, fun _ h => h⟩
    rw [e2, mkOverview, mkOverview]
    simp only [Node.dsize, e1]
  ov0 := by
    intro s d h
    have e : d = s.dsize := by
      rw [h.fit.2]
      simp only [mkOverview, Node.dsize, ovSize_zero]
    exact ⟨e.symm, (simRules Heur.exact Heur.exact_exact).ov0 h.wf, fun L hL => hL.2⟩
  fuseOv := by
    intro s k1 d1 k d h
    obtain ⟨w1, w2⟩ := (simRules Heur.exact Heur.exact_exact).fuseOv h.wf
    obtain ⟨⟨fs, e1⟩, e2⟩ := h.fit
    have hk := h.steps.1
    have ed : d = (mkOverview s (k1 + k)).dsize := by
      rw [e2, e1]
      simp only [mkOverview, Node.dsize]
      rw [ovSize_ovSize _ _ _ hk, ovSize_ovSize _ _ _ hk]
    have hS : ∀ L, Paced L (.overview (.overview s k1 d1) k d) → Paced L (mkOverview s (k1 + k)) := by
      intro L hL
      obtain ⟨h1, h2, h3⟩ := hL
      refine ⟨by omega, ?_⟩
      have : L + (k1 + k).toNat = L + k.toNat + k1.toNat := by omega
      rw [this]; exact h3
    exact ⟨⟨w1, ⟨fs, rfl⟩, hS 0 h.steps⟩, ed.symm, w2, hS⟩
  dequantWarp := fun h => h.steps.elim

/-- Nothing is left to do on the results. -/
theorem paced_fixed {H : Heur} : ∀ (f : Nat) (n : Node), WF n → Paced 0 n → NF H true n → deepness n ≤ f →
    opt H f n = .ok n := by
  intro f
  induction f with
  | zero => intro n _ _ _ h; cases n <;> simp [deepness] at h
  | succ f ih =>
    intro n hw hp hnf hf
    rw [opt]
    cases n with
    | leaf l => rfl
    | warp _ _ _ _ => exact hp.elim
    | concat ps d =>
      rw [NF] at hnf
      have hn := (NFL_iff _ _ _).1 (hnf rfl)
      have hw2 := (WFL_iff _ _).1 hw.2
      have e : mapAll (opt H f) ps = .ok ps := mapAll_id fun p hpm =>
        ih p (hw2 p hpm).1 ((pacedL_iff _).1 hp p hpm) (hn p hpm)
          ((deepness_le hpm).trans (by simp only [deepness] at hf; omega))
      simp only [optStep, optConcat, e]
      obtain ⟨p, qs, rfl⟩ := List.exists_cons_of_ne_nil hw.1
      rw [mkConcat_same (by simp) fun q hq => (hw2 q hq).2]
    | crop s y0 y1 x0 x1 c =>
      rw [NF] at hnf
      have e := ih s hw.1 hp.2 hnf.1 (by simp only [deepness] at hf; omega)
      simp only [optStep, optCrop, e]
      have hu := hnf.2
      cases s with
      | leaf l =>
        have hl : l.nan = false := hu
        simp only [hl, Bool.false_eq_true, if_false, cropRest, finishCrop, finish, subOf]
      | overview s' k d => 
        have hl := hnf.1
        rw [NF] at hl
        have hl := hl.2.2
        cases s' with
        | leaf l => simp only [cropRest, finishCrop, finish, subOf]
        | _ => exact hl.elim
      | warp _ _ _ _ => exact hp.2.elim
      | concat _ _ => exact hu.elim
      | crop _ _ _ _ _ _ => exact hu.elim
      | dequant _ _ _ => exact hu.elim
    | overview s k d =>
      rw [NF] at hnf
      have hl := hnf.2.2
      cases s with
      | leaf l =>
        have e := ih (.leaf l) hw trivial trivial (by simp only [deepness] at hf ⊢; omega)
        simp only [optStep, optOverview, e, overviewRest, if_neg hnf.2.1, finish, subOf]
      | _ => exact hl.elim
    | dequant s q d =>
      rw [NF] at hnf
      have e := ih s hw hp hnf.1 (by simp only [deepness] at hf; omega)
      simp only [optStep, optDequant, e]
      have hu := hnf.2
      cases s with
      | leaf l => rfl
      | crop x _ _ _ _ _ => rfl
      | overview _ _ _ => rfl
      | concat _ _ => exact hu.elim
      | warp _ _ _ _ => exact hu.elim
      | dequant _ _ _ => exact hu.elim

mutual
theorem paced_rigid : ∀ {n : Node} {L : Nat}, Paced L n → Rigid n
  | .leaf _, _, _ => trivial
  | .concat ps _, L, h => by rw [Paced] at h; rw [Rigid]; exact paced_rigidL h
  | .warp _ _ _ _, _, h => h.elim
  | .crop s _ _ _ _ _, L, h => by rw [Rigid]; exact paced_rigid (n := s) h.2
  | .overview s _ _, L, h => by rw [Rigid]; exact paced_rigid (n := s) h.2
  | .dequant s _ _, L, h => by rw [Paced] at h; rw [Rigid]; exact paced_rigid h
theorem paced_rigidL : ∀ {ps : List Node} {L : Nat}, PacedL L ps → RigidL ps
  | [], _, _ => trivial
  | p :: ps, L, h => by rw [PacedL] at h; rw [RigidL]; exact ⟨paced_rigid h.1, paced_rigidL h.2⟩
end

mutual
theorem paced_calm : ∀ (n : Node) {P : Nat}, Paced P n → ∀ K : Int,
    (∀ p ∈ depths n, ∃ o, p.1.overviews = some o ∧ p.2 + K ≤ o) → Tree.Calm True K K n
  | .leaf l, _, _, K, h => by
    obtain ⟨o, h1, h2⟩ := h (l, 0) (by rw [depths]; exact List.mem_singleton.2 rfl)
    rw [Tree.Calm]
    refine .inr (.inr ⟨trivial, fun o' ho' => ?_⟩)
    simp only at h1 h2
    rw [h1] at ho'; cases ho'
    simpa using h2
  | .concat ps _, _, hn, K, h => by
    rw [Paced] at hn; rw [depths] at h; rw [Tree.Calm]
    exact paced_calmL ps hn K h
  | .warp _ _ _ _, _, hn, _, _ => hn.elim
  | .crop s _ _ _ _ _, _, hn, K, h => by
    rw [depths] at h; rw [Tree.Calm]
    exact paced_calm s hn.2 K h
  | .dequant s _ _, _, hn, K, h => by
    rw [Paced] at hn; rw [depths] at h; rw [Tree.Calm]
    exact paced_calm s hn K h
  | .overview s k _, _, hn, K, h => by
    rw [depths] at h; rw [Tree.Calm]
    refine ⟨hn.1, paced_calm s hn.2 (K + k) fun p hp => ?_⟩
    obtain ⟨o, h1, h2⟩ := h (p.1, p.2 + k) (List.mem_map_of_mem hp)
    exact ⟨o, h1, by simp only at h2; omega⟩
theorem paced_calmL : ∀ (ps : List Node) {P : Nat}, PacedL P ps → ∀ K : Int,
    (∀ p ∈ depthsL ps, ∃ o, p.1.overviews = some o ∧ p.2 + K ≤ o) → Tree.CalmL True K K ps
  | [], _, _, _, _ => by rw [Tree.CalmL]; trivial
  | q :: ps, _, hn, K, h => by
    rw [PacedL] at hn; rw [depthsL] at h; rw [Tree.CalmL]
    exact ⟨paced_calm q hn.1 K fun p hp => h p (List.mem_append_left _ hp),
      paced_calmL ps hn.2 K fun p hp => h p (List.mem_append_right _ hp)⟩
end

theorem closeOff_zero : Heur.code.closeOff 0 0 = true := by decide +kernel

/-! ### What follows -/

/-- C36 with overviews of parts: if all crops start on pixels of the overviews taken after them (`Paced`), then
the size and the channels are kept, and everything that is shown before is shown afterwards, from the same place of
the same source.  Crops may end anywhere; more may be shown afterwards (`C36_ends_violated`, `C36_snug_partial`).  Without
warps no tolerance is involved, except that `0` has to be close
to `0`. -/
theorem C36_paced_partial (H : Heur) (hH : H.closeOff 0 0 = true) {n : Node} (hb : Built n) (hn : Paced 0 n)
    (fuel : Nat) {m : Node} (h : opt H fuel n = .ok m) :
    m.dsize = n.dsize ∧ m.channels = n.channels ∧ m.nchan = n.nchan ∧
    ∀ {V : Type} (img : Nat → Nat → ℚ × ℚ → V) (deq : Quantization → V → V) (i : Nat) (p : ℚ × ℚ) (v : V),
      ((den n).getD i Chan.none).value img deq p = some v → ((den m).getD i Chan.none).value img deq p = some v := by
  have g := opt_good (deep := false) (pacedRules H hH) (by simp) fuel n m ⟨hb.ok.1, hb.ok.2, hn⟩ h
  exact ⟨g.rel.dsize, g.rel.fwd.channels, g.rel.fwd.nchan, fun img deq i p v hv =>
    (forall₂_getD g.rel.fwd.den i).value img deq p v hv⟩

/-- C37 for the same images: `optimize` ends, and the result is in normal form, below concats, too. -/
theorem C37_paced_partial {n : Node} (hb : Built n) (hn : Paced 0 n) :
    ∃ r : Py Node, r ≠ .error .recursion ∧ (∃ F, ∀ f, F ≤ f → opt Heur.code f n = r) ∧
      ∀ m, r = .ok m → ∀ p ∈ paths m, Tidy p := by
  obtain ⟨r, ⟨hr, F, hF⟩, _⟩ := C37_rigid_terminates_partial hb (paced_rigid hn)
  refine ⟨r, hr, ⟨F, hF⟩, ?_⟩
  rintro m rfl p hp
  exact nf_tidy m (opt_good (pacedRules Heur.code closeOff_zero) (fun _ _ _ h => h.dsize) F n m ⟨hb.ok.1, hb.ok.2, hn⟩
    (hF F (le_refl _))).nf p hp

/-- C54 for the same images: optimizing the result changes nothing. -/
theorem C54_paced_partial (H : Heur) (hH : H.closeOff 0 0 = true) {n : Node} (hb : Built n) (hn : Paced 0 n)
    (fuel : Nat) {m : Node} (h : opt H fuel n = .ok m) : ∃ F, ∀ f, F ≤ f → opt H f m = .ok m := by
  have g := opt_good (deep := true) (pacedRules H hH) (fun _ _ _ h => h.dsize) fuel n m ⟨hb.ok.1, hb.ok.2, hn⟩ h
  exact ⟨deepness m, fun f hf => paced_fixed f m g.inv.wf g.inv.steps g.nf hf⟩

section
variable {V : Type} {E : Env V}

/-- C45 for the same images: the default `finalize()` gives an array of the announced shape. -/
theorem C45_paced_partial (H : Heur) (hH : H.closeOff 0 0 = true) (hE : Env.Shaped E) {n : Node} (hb : Built n)
    (hn : Paced 0 n) (hm : Each E.Matches n) (fuel : Nat) {i : Img V} (h : finalize H E fuel n = .ok i) :
    Announced n i := by
  obtain ⟨hw, hf⟩ := hb.ok
  unfold finalize at h
  split at h
  · cases h
  · rename_i m e
    have g := opt_good (deep := false) (pacedRules H hH) (by simp) fuel n m ⟨hw, hf, hn⟩ e
    have k := opt_good (deep := false) (keepRules H (nameRules H) (stable_each E.Matches (fun _ _ _ h => by cases h)))
      (by simp) fuel n m ⟨hw, hm⟩ e
    have := fin_shape hE m g.inv.wf g.inv.fit k.inv.2 i h
    exact ⟨by rw [this.h, g.rel.dsize], by rw [this.w, g.rel.dsize], by rw [this.n, g.rel.fwd.nchan],
      fun l hl => channels_length n l hw hl⟩

/-- C62 for the same images: the self-check finds nothing; if optimize raises an exception then it is passed on. -/
theorem C62_paced_partial (H : Heur) (hH : H.closeOff 0 0 = true) (hE : Env.Shaped E) {n : Node} (hb : Built n)
    (hn : Paced 0 n) (hm : Each E.Matches n) (hs : Smooth n) (fuel : Nat) {m : Node} (h : opt H fuel n = .ok m) :
    validate H E fuel n = .ok () := by
  obtain ⟨i, hi, ha⟩ := C45_finalize_succeeds hE hb hm hs
  have hsh := shape_of ha
  obtain ⟨h1, h2, h3, _⟩ := C36_paced_partial H hH hb hn fuel h
  have hsm : shape m = shape n := by unfold shape; rw [h3, h1]
  have image : validateImage H E fuel n = .ok () := by
    unfold validateImage; rw [h]; simp only [hi]; exact if_pos ⟨h2.symm, h3.symm, hsh, hsm⟩
  cases n with
  | concat ps d => exact C62_concat H hE hb hm hs fuel
  | leaf l => exact image
  | warp s tf d a => exact image
  | crop s y0 y1 x0 x1 c => exact image
  | overview s k d => exact image
  | dequant s q d => exact image

end

/-- C91 for the same images of several files: overviews are read from the files as long as the files have them. -/
theorem C91_paced_partial (H : Heur) (hH : H.Coded) (h0 : H.closeOff 0 0 = true) (G : Files) (fuel : Nat) {n : Node}
    (hb : Built n) (hn : Paced 0 n) (he : Each (Counted G) n) (hk : EnoughLeft n) (g : Int → Img Gdal.Val → Img Gdal.Val) :
    finalizeFiles H (Files.simulating G g) fuel n = finalizeFiles H G fuel n := by
  have hR : Rules H (fun n => (PacedTree n ∧ Tree.Tame n) ∧ Each (Counted G) n) (fun a b => KeepsPaced a b ∧ Tree.Keeps a b) := by
    refine keepRulesIn H (rules_and (pacedRules H h0) (tameRules H hH)) (firm_each _) ?_ ?_ ?_
    · intro ps d _ _ _ _ c t _ h ht
      exact takeIdx_each _ h c t ht
    · intro l _ _ _ _ hn h
      have : l.nan = false := (show Counted G l from h).1
      rw [hn] at this; cases this
    · intro l _ _ _ _ _ _ _ hn h _
      have : l.nan = false := (show Counted G l from h).1
      rw [hn] at this; cases this
  unfold finalizeFiles
  cases hm : opt H fuel n with
  | error e => rfl
  | ok m =>
    have hc : Tree.Calm True 0 0 n := paced_calm n hn 0 fun p hp => by simpa using hk p hp
    obtain ⟨⟨⟨_, ht⟩, hq⟩, _, hnf⟩ := opt_good (deep := true) hR (fun _ _ _ h => h.1.dsize) fuel n m
      ⟨⟨⟨hb.ok.1, hb.ok.2, hn⟩, hb.ok.1, hc⟩, he⟩ hm
    exact finalSee_stored g (nf_storedAll m hnf hq (le_refl 0) (le_refl 0) ht.2)

/-- Two pictures side by side, one of them dequantized. -/
def sideBySide : Node := .concat [mkDequant (.leaf pyramid) ⟨0, 1, 0, 255, none⟩, .leaf { pyramid with id := 2 }] (10, 10)

/-- The first overview of their pixels from row and column 4 on. -/
def lowerPart : Node := mkOverview (.crop sideBySide 4 9 4 10 none) 1

/-- The first overview of the pixels of that from column 2 on. -/
def lowerView : Node := mkOverview (.crop lowerPart 0 3 2 3 none) 1

theorem lowerView_built : Built lowerView := by
  have h1 : Built sideBySide := by
    refine .concat [mkDequant (.leaf pyramid) ⟨0, 1, 0, 255, none⟩, .leaf { pyramid with id := 2 }] _ ?_ rfl
    intro p hp
    simp only [List.mem_cons, List.not_mem_nil, or_false] at hp
    rcases hp with rfl | rfl
    · exact .dequant _ _ pyramid_built
    · exact picture_built (some 3) 2
  have h2 : Built (.crop sideBySide 4 9 4 10 none) :=
    .crop sideBySide _ (some ((some 4, some 9), (some 4, none))) none h1 trivial rfl
  have e : lowerPart = .overview (.crop sideBySide 4 9 4 10 none) 1 (3, 3) := by
    have e5 : ovSize 1 5 = 3 := by decide +kernel
    have e6 : ovSize 1 6 = 3 := by decide +kernel
    show (Node.overview _ 1 (ovSize 1 6, ovSize 1 5) : Node) = _
    rw [e5, e6]
  have h3 : Built lowerPart := .overview _ 1 h2
  refine .overview _ 1 ?_
  rw [e] at h3 ⊢
  exact .crop _ _ (some ((some 0, some 3), (some 2, some 3))) none h3 trivial rfl

theorem lowerView_paced : Paced 0 lowerView :=
  ⟨by decide, ⟨⟨by decide, by decide⟩, by decide, ⟨⟨by decide, by decide⟩, trivial, trivial, trivial⟩⟩⟩

example : Built lowerView ∧ Paced 0 lowerView ∧ ¬ NoWarp lowerView ∧ lowerView.dsize = (1, 2) ∧
    ∃ m, opt Heur.code 60 lowerView = .ok m ∧ m.dsize = (1, 2) ∧
      paths m = [[Step.concat, Step.dequant, Step.crop false, Step.overview], [Step.concat, Step.crop false, Step.overview]] := by
  refine ⟨lowerView_built, lowerView_paced, fun h => h.2.elim, by decide +kernel, ?_⟩
  obtain ⟨m, h1, h2⟩ := holds_ok (x := opt Heur.code 60 lowerView)
    (f := fun m => decide (m.dsize = (1, 2)) && decide (paths m =
      [[Step.concat, Step.dequant, Step.crop false, Step.overview], [Step.concat, Step.crop false, Step.overview]])) (by decide +kernel)
  simp only [Bool.and_eq_true, decide_eq_true_eq] at h2
  exact ⟨m, h1, h2.1, h2.2⟩

/-- The array has the announced shape, and the self-check finds nothing. -/
example (E : Env Nat) (hE : Env.Shaped E) (hm : Each E.Matches lowerView) (fuel : Nat) (i : Img Nat)
    (h : finalize Heur.code E fuel lowerView = .ok i) : Announced lowerView i :=
  C45_paced_partial Heur.code closeOff_zero hE lowerView_built lowerView_paced hm fuel h

/-- Parts of a file, next to each other. -/
def bandCorners : Node := .concat [.crop (.leaf bandPair) 2 4 0 2 none, mkDequant (.crop (.leaf bandPair) 0 2 2 4 none)
  ⟨0, 1, 0, 255, none⟩] (2, 2)

example : Built (mkOverview bandCorners 1) ∧ Paced 0 (mkOverview bandCorners 1) ∧
    Each (Counted (someFiles false)) (mkOverview bandCorners 1) ∧ EnoughLeft (mkOverview bandCorners 1) := by
  refine ⟨.overview _ 1 (.concat [.crop (.leaf bandPair) 2 4 0 2 none, mkDequant (.crop (.leaf bandPair) 0 2 2 4 none)
      ⟨0, 1, 0, 255, none⟩] _ (fun p hp => ?_) rfl), ⟨by decide, ⟨⟨by decide, by decide⟩, trivial⟩,
        ⟨⟨by decide, by decide⟩, trivial⟩, trivial⟩, ⟨bandPair_counted false, bandPair_counted false, trivial⟩, fun p hp => ?_⟩
  · simp only [List.mem_cons, List.not_mem_nil, or_false] at hp
    rcases hp with rfl | rfl
    · exact .crop _ _ (some ((some 2, some 4), (some 0, some 2))) none bandPair_built trivial rfl
    · exact .dequant _ _ (.crop _ _ (some ((some 0, some 2), (some 2, some 4))) none bandPair_built trivial rfl)
  · have : p = (bandPair, 1) := by simpa [bandCorners, mkOverview, mkDequant, depths, depthsL] using hp
    subst this
    exact ⟨1, rfl, le_refl _⟩

/-- The stored pixels of the overview are shown. -/
example : holds (finalizeFiles Heur.code (someFiles false) 20 (mkOverview bandCorners 1))
    (fun r => decide (r.2.h = 1 ∧ r.2.w = 1 ∧ r.2.n = 4 ∧ r.2.px 0 0 3 = .num 20)) = true := by decide +kernel

end Props
end Verif
