/-
C55, C45 and C62 with overviews: `optimize` and `finalize` raise no exception for images without warps whose crops start
on pixels of the overviews taken after them.
-/
import Verif.Props.Aligned

namespace Verif
namespace Props

open Tree Tree.Node Helpers

mutual
/-- No overview is the image itself. -/
def Coarse : Node → Prop
  | .leaf _ => True
  | .concat ps _ => CoarseL ps
  | .warp s _ _ _ => Coarse s
  | .crop s _ _ _ _ _ => Coarse s
  | .overview s k _ => k ≠ 0 ∧ Coarse s
  | .dequant s _ _ => Coarse s
def CoarseL : List Node → Prop
  | [] => True
  | p :: ps => Coarse p ∧ CoarseL ps
end

theorem coarseL_iff (ps : List Node) : CoarseL ps ↔ ∀ p ∈ ps, Coarse p := by
  induction ps with
  | nil => simp [CoarseL]
  | cons p ps ih => simp [CoarseL, ih]

/-- The trees considered here. -/
structure FairPaced (n : Node) : Prop extends PacedTree n where
  fair : Fair n
  coarse : Coarse n

/-- Not more dequantizations on a path. -/
structure KeepsFair (n n' : Node) : Prop extends KeepsPaced n n' where
  deq : deqs n' ≤ deqs n

theorem coarse_take : TakeStable Coarse where
  parts := fun h p hp => (coarseL_iff _).1 h p hp
  concat := by
    intro ps qs d c _ hq hc
    obtain ⟨d', rfl, _, _⟩ := mkConcat_ok hc
    exact (coarseL_iff _).2 fun q hq' => (hq q hq').1
  nan := fun _ => trivial
  crop := by
    intro p idxs t _ hp _ h
    rw [mkCrop_none_form h]; exact hp

theorem fairPacedRules (H : Heur) (hH : H.closeOff 0 0 = true) : Rules H FairPaced KeepsFair where
  refl := fun n => ⟨.refl n, le_refl _⟩
  trans := fun h1 h2 => ⟨h1.toKeepsPaced.trans h2.toKeepsPaced, h2.deq.trans h1.deq⟩
  sub := by
    intro n x hn hx
    have h1 := hn.fair
    have h2 := hn.coarse
    refine ⟨paced_sub hn.toPacedTree hx, ?_, ?_⟩
    · cases n with
      | leaf l => simp [subOf] at hx
      | concat _ _ => simp [subOf] at hx
      | warp s _ _ _ => cases hx; exact h1
      | crop s _ _ _ _ _ => cases hx; exact h1.1
      | overview s _ _ => cases hx; exact h1
      | dequant s _ _ => cases hx; exact h1
    · cases n with
      | leaf l => simp [subOf] at hx
      | concat _ _ => simp [subOf] at hx
      | warp s _ _ _ => cases hx; exact h2
      | crop s _ _ _ _ _ => cases hx; exact h2
      | overview s _ _ => cases hx; exact h2.2
      | dequant s _ _ => cases hx; exact h2
  parts := fun h p hp => ⟨(pacedRules H hH).parts h.toPacedTree p hp, (FairL_iff _).1 h.fair p hp,
    (coarseL_iff _).1 h.coarse p hp⟩
  same := fun h p hp => (pacedRules H hH).same h.toPacedTree p hp
  nan := fun h hn => (pacedRules H hH).nan h.toPacedTree hn
  cong := by
    intro n x x' hn hx hx' hs
    obtain ⟨w1, w2⟩ := (pacedRules H hH).cong hn.toPacedTree hx hx'.toPacedTree hs.toKeepsPaced
    have hf := hn.fair
    have hc := hn.coarse
    have hd := hs.deq
    cases n with
    | leaf l => simp [subOf] at hx
    | concat _ _ => simp [subOf] at hx
    | warp s _ _ _ => exact hn.steps.elim
    | crop s _ _ _ _ _ => cases hx; exact ⟨⟨w1, ⟨hx'.fair, hf.2⟩, hx'.coarse⟩, w2, hd⟩
    | overview s _ _ => cases hx; exact ⟨⟨w1, hx'.fair, hc.1, hx'.coarse⟩, w2, hd⟩
    | dequant s _ _ =>
      cases hx; exact ⟨⟨w1, hx'.fair, hx'.coarse⟩, w2, by simp only [setSub, deqs]; omega⟩
  concat := by
    intro ps d qs c hn hf hc
    obtain ⟨w1, w2⟩ := (pacedRules H hH).concat hn.toPacedTree
      (hf.imp fun _ _ h => ⟨h.1.toPacedTree, h.2.toKeepsPaced⟩) hc
    obtain ⟨d', rfl, _, _⟩ := mkConcat_ok hc
    refine ⟨⟨w1, (FairL_iff _).2 fun q hq => ?_, (coarseL_iff _).2 fun q hq => ?_⟩, w2, ?_⟩
    · obtain ⟨p, _, h⟩ := forall₂_mem_right hf hq
      exact h.1.fair
    · obtain ⟨p, _, h⟩ := forall₂_mem_right hf hq
      exact h.1.coarse
    · simp only [deqs]; exact deqsL_forall₂ (hf.imp fun _ _ h => h.2.deq)
  push := by
    intro n ps d c hn hsub hsel h
    obtain ⟨w1, w2⟩ := paced_push hn.toPacedTree hsub hsel h
    unfold pushUnder at h
    split at h
    · cases h
    · rename_i qs hqs
      split at h
      · rename_i c' hc'
        cases h
        obtain ⟨d', rfl, _, _⟩ := mkConcat_ok hc'
        have key : ∀ q ∈ qs, Fair q ∧ Coarse q ∧ deqs q ≤ deqs n := by
          intro q hq
          obtain ⟨p, hp, hh⟩ := forall₂_mem_right (forall₂_imp_left (mapAll_ok hqs)
            (S := fun p q => Fair q ∧ Coarse q ∧ deqs q ≤ deqs n) fun p hp q e => by
              have hnf := hn.fair
              have hnc := hn.coarse
              have hdm := deqs_mem hp
              cases n with
              | leaf l => simp [subOf] at hsub
              | concat _ _ => simp [subOf] at hsub
              | warp s tf dw a => exact hn.steps.elim
              | crop s y0 y1 x0 x1 ci =>
                cases hsub
                rw [reapply] at e
                rw [mkCrop_ints e]
                exact ⟨⟨(FairL_iff _).1 hnf.1 p hp, hnf.2⟩, (coarseL_iff _).1 hnc p hp, by
                  simpa only [deqs] using hdm⟩
              | overview s k dw =>
                cases hsub; cases e
                exact ⟨(FairL_iff _).1 hnf p hp, ⟨hnc.1, (coarseL_iff _).1 hnc.2 p hp⟩, by
                  simpa only [mkOverview, deqs] using hdm⟩
              | dequant s k dw =>
                cases hsub; cases e
                exact ⟨(FairL_iff _).1 hnf p hp, (coarseL_iff _).1 hnc p hp, by
                  simp only [mkDequant, deqs]; omega⟩) hq
          exact hh
        exact ⟨⟨w1, (FairL_iff _).2 fun q hq => (key q hq).1, (coarseL_iff _).2 fun q hq => (key q hq).2.1⟩, w2, by
          rw [deqs, deqsL_le]; exact fun q hq => (key q hq).2.2⟩
      · cases h
      · cases h
  fuseWarps := fun h => h.steps.elim
  idWarp := fun h => h.steps.elim
  nanWarp := fun h => h.steps.elim
  splitWarp := fun h => h.steps.elim
  splitOv := fun h => h.steps.elim
  splitCrop := fun h => h.steps.elim
  absorb := fun h => h.steps.elim
  nanCrop := by
    intro l y0 y1 x0 x1 c r h hn hr
    obtain ⟨w1, w2⟩ := (pacedRules H hH).nanCrop h.toPacedTree hn hr
    obtain ⟨f0, f1, f2, f3, f4⟩ := h.fit
    obtain ⟨names, rfl⟩ := nanCrop_size f0 h.wf.2.1 h.wf.2.2.1 f1 f2 f3 f4 hr
    exact ⟨⟨w1, .inl rfl, trivial⟩, w2, Nat.zero_le _⟩
  fuseCrops := by
    intro s iy0 iy1 ix0 ix1 ic y0 y1 x0 x1 c r h hr
    obtain ⟨w1, w2⟩ := (pacedRules H hH).fuseCrops h.toPacedTree hr
    obtain ⟨nc, hnc, rfl, _⟩ := fuseCrops_fit h.wf h.fit hr
    exact ⟨⟨w1, ⟨h.fair.1.1, fuseChans_fair hnc h.fair.1.2 h.fair.2⟩, h.coarse⟩, w2, le_refl _⟩
  warpAfterCrop := fun h => h.steps.2.elim
  dequantCrop := by
    intro s q d y0 y1 x0 x1 c h
    obtain ⟨w1, w2⟩ := (pacedRules H hH).dequantCrop h.toPacedTree
    exact ⟨⟨w1, h.fair, h.coarse⟩, w2, le_refl _⟩
  take := by
    intro ps d y0 y1 x0 x1 c t h ht
    obtain ⟨w1, w2⟩ := (pacedRules H hH).take h.toPacedTree ht
    have hc : c ≠ [] := fun e => h.fair.2 (by rw [e])
    have hf := takeIdx_fair (k := deqs (.concat ps d)) _ ⟨h.fair.1, le_refl _⟩ c t hc ht
    refine ⟨⟨w1, hf.1, takeIdx_stable coarse_take _ h.wf.1 h.coarse c t h.wf.2.2.2 ht⟩, fun t' cr ht' hs hcr => ?_⟩
    obtain ⟨v1, v2⟩ := w2 t' cr ht'.toPacedTree hs.toKeepsPaced hcr
    obtain ⟨_, _, _, _, rfl⟩ := mkCrop_form hcr
    exact ⟨⟨v1, ⟨ht'.fair, by simp⟩, ht'.coarse⟩, v2, hs.deq.trans hf.2⟩
  renorm := by
    intro ps d y0 y1 x0 x1 cr h hcr
    obtain ⟨w1, w2⟩ := (pacedRules H hH).renorm h.toPacedTree hcr
    obtain ⟨_, _, _, _, rfl⟩ := mkCrop_form hcr
    exact ⟨⟨w1, h.fair, h.coarse⟩, w2, le_refl _⟩
  cropAfterOverview := by
    intro s y0 y1 x0 x1 c k d r h hr
    obtain ⟨w1, w2⟩ := (pacedRules H hH).cropAfterOverview h.toPacedTree hr
    have hk := h.steps.1
    obtain ⟨K, rfl⟩ := Int.eq_ofNat_of_zero_le hk
    have hst := h.steps.2.1
    simp only [Int.ofNat_eq_natCast, Int.toNat_natCast, Nat.zero_add] at hst
    obtain ⟨⟨a, rfl⟩, ⟨b, rfl⟩⟩ := hst
    have hp : (0 : Int) < 2 ^ K := by positivity
    obtain ⟨hm, _⟩ := crop_overview_form H hH K (nonneg_of_mul_nonneg_right h.wf.2.1 hp)
      (nonneg_of_mul_nonneg_right h.wf.2.2.1 hp) hr
    obtain ⟨_, _, _, _, rfl⟩ := mkCrop_form hm
    exact ⟨⟨w1, h.fair, h.coarse⟩, w2, le_refl _⟩
  warpAfterOverview := fun h => h.steps.2.elim
  dequantOverview := by
    intro s q dq k d h
    obtain ⟨w1, w2⟩ := (pacedRules H hH).dequantOverview h.toPacedTree
    exact ⟨⟨w1, h.fair, h.coarse⟩, w2, le_refl _⟩
  ov0 := fun h => (h.coarse.1 rfl).elim
  fuseOv := by
    intro s k1 d1 k d h
    obtain ⟨w1, w2⟩ := (pacedRules H hH).fuseOv h.toPacedTree
    have h1 := h.steps.1
    have h2 := h.steps.2.1
    have h3 := h.coarse.1
    exact ⟨⟨w1, h.fair, by omega, h.coarse.2.2⟩, w2, le_refl _⟩
  dequantWarp := fun h => h.steps.elim

theorem fairPacedOrderly (H : Heur) (hH : H.closeOff 0 0 = true) : Orderly H FairPaced KeepsFair :=
  ⟨fairPacedRules H hH, fun h => h.wf, fun h => h.fit, fun h => h.fair, fun h => h.dsize, fun h => h.deq⟩

/-- The cases of overviews. -/
theorem optOverview_raises {H : Heur} (hH : H.closeOff 0 0 = true) {rec : Node → Py Node}
    (hg : RecOk H FairPaced KeepsFair true rec)
    (hs : ∀ x x', WF x → Solo x → rec x = .ok x' → Solo x')
    (he : ∀ x e, FairPaced x → deqs x ≤ 1 → rec x = .error e → e = .recursion)
    {s : Node} {k : Int} {d : Int × Int} (hn : FairPaced (.overview s k d)) (hd : deqs (.overview s k d) ≤ 1)
    {e : PyErr} (h : optOverview H rec s k d = .error e) : e = .recursion := by
  have hO := fairPacedOrderly H hH
  have hss : FairPaced s := hO.rules.sub hn rfl
  unfold optOverview at h
  split at h
  · rename_i hx
    cases h
    exact he s _ hss hd hx
  · rename_i s1 k1 d1 hx
    have g := hg _ _ hss hx
    obtain ⟨c1, c2⟩ := hO.rules.cong hn rfl g.inv g.rel
    simp only [setSub] at c1 c2
    obtain ⟨f1, f2⟩ := hO.rules.fuseOv c1
    have hnf := g.nf
    rw [NF] at hnf
    have hl := hnf.2.2
    cases s1 with
    | leaf l =>
      have hk : k1 + k ≠ 0 := f1.coarse.1
      simp only [overviewRest, if_neg hk, finish, subOf] at h
      cases h
    | _ => exact hl.elim
  · rename_i s' hno hx
    have g := hg _ _ hss hx
    obtain ⟨c1, c2⟩ := hO.rules.cong hn rfl g.inv g.rel
    simp only [setSub] at c1 c2
    have hd' := c2.deq.trans hd
    have hk : k ≠ 0 := hn.coarse.1
    unfold overviewRest at h
    rw [if_neg hk] at h
    cases s' with
    | overview _ _ _ => exact (hno _ _ _ rfl).elim
    | warp _ _ _ _ => exact c1.steps.2.elim
    | leaf l => simp [finish, subOf] at h
    | concat ps d' => exact finish_raises hO hg hs he c1 hd' (by simp) (by simp [selects]) h
    | crop x y0 y1 x0 x1 c =>
      simp only at h
      split at h
      · rename_i hz
        exfalso
        simp only [cropAfterOverview] at hz
        split at hz
        · rename_i hcr
          obtain ⟨t, htt⟩ := mkCrop_total' (s := mkOverview x k) c1.wf.1 (c := c) c1.wf.2.2.2
            (ints (max 0 ⌊((2 : ℚ) ^ k)⁻¹ * y0⌋) (max 0 ⌈((2 : ℚ) ^ k)⁻¹ * y1⌉) (max 0 ⌊((2 : ℚ) ^ k)⁻¹ * x0⌋)
              (max 0 ⌈((2 : ℚ) ^ k)⁻¹ * x1⌉))
          rw [htt] at hcr
          cases hcr
        · split at hz <;> cases hz
      · rename_i m hm
        obtain ⟨w1, w2⟩ := hO.rules.cropAfterOverview c1 hm
        have hsolo : Solo (.crop x y0 y1 x0 x1 c) := nf_solo _ g.nf (by simp)
        have hms : Solo m := by
          simp only [cropAfterOverview] at hm
          split at hm
          · cases hm
          · rename_i cr hcr
            obtain ⟨_, _, _, _, rfl⟩ := mkCrop_form hcr
            split at hm <;> cases hm <;> exact hsolo
        split at h
        · rename_i hrr
          cases h
          exact he _ _ w1 (w2.deq.trans hd') hrr
        · rename_i r hrr
          exact finish_nf_raises hO hg hs he (hg _ _ w1 hrr).nf (solo_not_concat (hs m r w1.wf hms hrr)) h
    | dequant x q dq =>
      simp only at h
      obtain ⟨w1, w2⟩ := hO.rules.dequantOverview c1
      have hsolo : Solo (.dequant x q dq) := nf_solo _ g.nf (by simp)
      split at h
      · rename_i hrr
        cases h
        exact he _ _ w1 (w2.deq.trans hd') hrr
      · rename_i r hrr
        exact finish_nf_raises hO hg hs he (hg _ _ w1 hrr).nf (solo_not_concat (hs _ r w1.wf hsolo hrr)) h

/-- The only exception is the one at the bound. -/
theorem paced_raises (H : Heur) (hH : H.closeOff 0 0 = true) (fuel : Nat) : ∀ (n : Node) (e : PyErr), FairPaced n →
    deqs n ≤ 1 → opt H fuel n = .error e → e = .recursion := by
  induction fuel with
  | zero => intro n e _ _ h; simp only [opt, Except.error.injEq] at h; exact h.symm
  | succ fuel ih =>
    intro n e hn hd h
    have hO := fairPacedOrderly H hH
    have hg : RecOk H FairPaced KeepsFair true (opt H fuel) := opt_good hO.rules (fun _ _ _ h => h.dsize) fuel
    have hs : ∀ x x', WF x → Solo x → opt H fuel x = .ok x' → Solo x' := fun x x' hw hx h =>
      (opt_good (deep := false) (keepRules H (nameRules H) stable_solo) (by simp) fuel x x' ⟨hw, hx⟩ h).inv.2
    rw [opt] at h
    cases n with
    | leaf l => simp [optStep] at h
    | concat ps d => exact optConcat_raises hO hg hs ih hn hd h
    | warp s tf d a => exact hn.steps.elim
    | crop s y0 y1 x0 x1 c => exact optCrop_raises hO hg hs ih hn hd h
    | overview s k d => exact optOverview_raises hH hg hs ih hn hd h
    | dequant s q d => exact optDequant_raises hO hg hs ih hn hd h

/-- C55 with overviews: no exception is raised for images without warps whose crops start on pixels of the overviews
taken after them (`Paced`), with codes for all channels, without empty selections (`Fair`), without overviews 0
(`Coarse`) and with at most one dequantization on each path.  How many overviews there are does not matter.
Missing: the other images, see `C55_no_exception_partial`. -/
theorem C55_paced_partial {n : Node} (hb : Built n) (hn : Paced 0 n) (hc : Coarse n) (hf : Fair n) (hd : deqs n ≤ 1) :
    ∃ m F, ∀ f, F ≤ f → opt Heur.code f n = .ok m := by
  obtain ⟨r, hr, ⟨F, hF⟩, _⟩ := C37_paced_partial hb hn
  cases r with
  | ok m => exact ⟨m, F, hF⟩
  | error e =>
    have := paced_raises Heur.code closeOff_zero F n e ⟨⟨hb.ok.1, hb.ok.2, hn⟩, hf, hc⟩ hd (hF F (le_refl _))
    exact absurd (by rw [this]) hr

mutual
theorem paced_smooth : ∀ {n : Node} {L : Nat}, Paced L n → Smooth n
  | .leaf _, _, _ => trivial
  | .concat ps _, L, h => by rw [Paced] at h; rw [Smooth]; exact paced_smoothL h
  | .warp _ _ _ _, _, h => h.elim
  | .crop s _ _ _ _ _, L, h => by rw [Smooth]; exact paced_smooth (n := s) h.2
  | .overview s _ _, L, h => by rw [Smooth]; exact paced_smooth (n := s) h.2
  | .dequant s _ _, L, h => by rw [Smooth]; exact paced_smooth (n := s) h
theorem paced_smoothL : ∀ {ps : List Node} {L : Nat}, PacedL L ps → SmoothL ps
  | [], _, _ => trivial
  | p :: ps, L, h => by rw [PacedL] at h; rw [SmoothL]; exact ⟨paced_smooth h.1, paced_smoothL h.2⟩
end

section
variable {V : Type} {E : Env V}

/-- C45 for the same images: the default `finalize()` raises no exception and gives an array of the announced shape. -/
theorem C45_finalize_paced_partial (hE : Env.Shaped E) {n : Node} (hb : Built n) (hn : Paced 0 n) (hc : Coarse n)
    (hf : Fair n) (hd : deqs n ≤ 1) (hm : Each E.Matches n) :
    ∃ i F, Announced n i ∧ ∀ f, F ≤ f → finalize Heur.code E f n = .ok i := by
  obtain ⟨m, F, h⟩ := C55_paced_partial hb hn hc hf hd
  obtain ⟨hw, hfit⟩ := hb.ok
  have e := h F (le_refl _)
  have g := opt_good (deep := false) (pacedRules Heur.code closeOff_zero) (by simp) F n m ⟨hw, hfit, hn⟩ e
  have k := opt_good (deep := false) (keepRules Heur.code (nameRules Heur.code)
    (stable_each E.Matches (fun _ _ _ h => by cases h))) (by simp) F n m ⟨hw, hm⟩ e
  obtain ⟨i, hi⟩ := fin_total hE m g.inv.wf g.inv.fit k.inv.2 (paced_smooth g.inv.steps)
  have hfin : ∀ f, F ≤ f → finalize Heur.code E f n = .ok i := fun f hf => by rw [finalize, h f hf]; exact hi
  exact ⟨i, F, C45_paced_partial Heur.code closeOff_zero hE hb hn hm F (hfin F (le_refl _)), hfin⟩

/-- C62 for the same images: the self-check passes. -/
theorem C62_passes_paced_partial (hE : Env.Shaped E) {n : Node} (hb : Built n) (hn : Paced 0 n) (hc : Coarse n)
    (hf : Fair n) (hd : deqs n ≤ 1) (hm : Each E.Matches n) :
    ∃ F, ∀ f, F ≤ f → validate Heur.code E f n = .ok () := by
  obtain ⟨m, F, h⟩ := C55_paced_partial hb hn hc hf hd
  exact ⟨F, fun f hle => C62_paced_partial Heur.code closeOff_zero hE hb hn hm (paced_smooth hn) f (h f hle)⟩

end

/-- The same with pictures of 10 by 10 pixels. -/
def squareEnv : Env (Nat × Nat × Nat) := { shapeEnv with img := fun _ => ⟨10, 10, 3, fun y x k => (y, x, k)⟩ }

theorem squareEnv_shaped : Env.Shaped squareEnv := ⟨fun _ _ _ _ => rfl, fun _ _ => rfl, fun _ _ _ => rfl⟩

theorem lowerView_fair : Coarse lowerView ∧ Fair lowerView ∧ deqs lowerView ≤ 1 ∧ Each squareEnv.Matches lowerView :=
  ⟨⟨by decide, by decide, trivial, trivial, trivial⟩,
    ⟨⟨⟨.inr rfl, .inr rfl, trivial⟩, by simp⟩, by simp⟩, by decide, ⟨fun _ => ⟨rfl, rfl, rfl⟩, fun _ => ⟨rfl, rfl, rfl⟩, trivial⟩⟩

example : ∃ m F, ∀ f, F ≤ f → opt Heur.code f lowerView = .ok m :=
  C55_paced_partial lowerView_built lowerView_paced lowerView_fair.1 lowerView_fair.2.1 lowerView_fair.2.2.1

example : ∃ i F, Announced lowerView i ∧ ∀ f, F ≤ f → finalize Heur.code squareEnv f lowerView = .ok i :=
  C45_finalize_paced_partial squareEnv_shaped lowerView_built lowerView_paced lowerView_fair.1 lowerView_fair.2.1
    lowerView_fair.2.2.1 lowerView_fair.2.2.2

example : ∃ F, ∀ f, F ≤ f → validate Heur.code squareEnv f lowerView = .ok () :=
  C62_passes_paced_partial squareEnv_shaped lowerView_built lowerView_paced lowerView_fair.1 lowerView_fair.2.1
    lowerView_fair.2.2.1 lowerView_fair.2.2.2

/-- Without `Coarse` it fails: see `C55_overview_of_concat_violated`, whose image is `Paced`. -/
example : Paced 0 firstView ∧ ¬ Coarse firstView := ⟨⟨by decide, trivial, trivial, trivial⟩, fun h => h.1 rfl⟩

end Props
end Verif
