/-
When `optimize` raises no exception.
-/
import Verif.Fix
import Verif.TakeTotal
import Verif.KeepRules
import Verif.NameRules

namespace Verif
namespace Tree

open Helpers Node

mutual
/-- Largest number of dequantizations on a path. -/
def deqs : Node → Nat
  | .leaf _ => 0
  | .concat ps _ => deqsL ps
  | .warp s _ _ _ => deqs s
  | .crop s _ _ _ _ _ => deqs s
  | .overview s _ _ => deqs s
  | .dequant s _ _ => deqs s + 1
def deqsL : List Node → Nat
  | [] => 0
  | p :: ps => max (deqs p) (deqsL ps)
end

mutual
/-- All channels have codes and no crop selects an empty list of channels. -/
def Fair : Node → Prop
  | .leaf l => l.nan = true ∨ l.names.isSome
  | .concat ps _ => FairL ps
  | .warp s _ _ _ => Fair s
  | .crop s _ _ _ _ c => Fair s ∧ c ≠ some []
  | .overview s _ _ => Fair s
  | .dequant s _ _ => Fair s
def FairL : List Node → Prop
  | [] => True
  | p :: ps => Fair p ∧ FairL ps
end

mutual
/-- No concats. -/
def Solo : Node → Prop
  | .leaf _ => True
  | .concat _ _ => False
  | .warp s _ _ _ => Solo s
  | .crop s _ _ _ _ _ => Solo s
  | .overview s _ _ => Solo s
  | .dequant s _ _ => Solo s
end

theorem FairL_iff (ps : List Node) : FairL ps ↔ ∀ p ∈ ps, Fair p := by
  induction ps with
  | nil => simp [FairL]
  | cons p ps ih => simp [FairL, ih]

theorem deqsL_le (ps : List Node) (k : Nat) : deqsL ps ≤ k ↔ ∀ p ∈ ps, deqs p ≤ k := by
  induction ps with
  | nil => simp [deqsL]
  | cons p ps ih => simp [deqsL, ih]

theorem deqs_mem {ps : List Node} {p : Node} (h : p ∈ ps) : deqs p ≤ deqsL ps := (deqsL_le ps _).1 (le_refl _) p h

theorem deqsL_forall₂ {ps qs : List Node} (h : List.Forall₂ (fun p q => deqs q ≤ deqs p) ps qs) :
    deqsL qs ≤ deqsL ps := by
  induction h with
  | nil => simp [deqsL]
  | cons h _ ih => simp only [deqsL]; exact max_le_max h ih

mutual
theorem fair_named : ∀ n : Node, WF n → Fair n → n.channels.isSome
  | .leaf l, hw, h => by
    rw [Fair] at h
    rw [channels]
    rcases h with h | h
    · exact (hw.2 h).1
    · exact h
  | .concat ps d, hw, h => by
    rw [channels]; exact fairL_named ps d hw.2 h
  | .warp s _ _ _, hw, h => by
    rw [channels]; exact fair_named s hw.1 h
  | .crop s _ _ _ _ c, hw, h => by
    have := fair_named s hw.1 h.1
    cases c with
    | none => rw [channels]; exact this
    | some c => rw [channels]; simpa using this
  | .overview s _ _, hw, h => by
    rw [channels]; exact fair_named s (by rw [WF] at hw; first | exact hw | exact hw.1) h
  | .dequant s _ _, hw, h => by
    rw [channels]; exact fair_named s (by rw [WF] at hw; first | exact hw | exact hw.1) h
theorem fairL_named : ∀ (ps : List Node) (d : Int × Int), WFL d ps → FairL ps → (channelsL ps).isSome
  | [], _, _, _ => rfl
  | p :: ps, d, hw, h => by
    rw [WFL] at hw
    obtain ⟨a, ha⟩ := Option.isSome_iff_exists.1 (fair_named p hw.1 h.1)
    obtain ⟨b, hb⟩ := Option.isSome_iff_exists.1 (fairL_named ps d hw.2.2 h.2)
    simp [channelsL, ha, hb]
end

/-! #### channel selection -/

/-- Fair images with at most `k` dequantizations on a path. -/
def FairTo (k : Nat) (n : Node) : Prop := Fair n ∧ deqs n ≤ k

theorem FairTo.parts {k : Nat} {ps : List Node} {d : Int × Int} (h : FairTo k (.concat ps d)) :
    ∀ p ∈ ps, FairTo k p := fun p hp =>
  ⟨(FairL_iff _).1 h.1 p hp, (deqsL_le _ _).1 (by have := h.2; rwa [deqs] at this) p hp⟩

theorem FairTo.concat {k : Nat} {ps : List Node} {d : Int × Int} (h : ∀ p ∈ ps, FairTo k p) :
    FairTo k (.concat ps d) :=
  ⟨(FairL_iff _).2 fun p hp => (h p hp).1, by rw [deqs]; exact (deqsL_le _ _).2 fun p hp => (h p hp).2⟩

theorem mkCrop_form {s r : Node} {sl : Option Space} {c : Option (List Nat)} (h : mkCrop s sl c = .ok r) :
    ∃ y0 y1 x0 x1, r = .crop s y0 y1 x0 x1 c := by
  unfold mkCrop at h
  split at h
  · cases h
  · split at h
    · cases h; exact ⟨_, _, _, _, rfl⟩
    · cases h; exact ⟨_, _, _, _, rfl⟩

theorem mkCrop_fair {k : Nat} {s r : Node} {sl : Option Space} {c : Option (List Nat)} (hs : FairTo k s)
    (hc : c ≠ some []) (h : mkCrop s sl c = .ok r) : FairTo k r := by
  obtain ⟨_, _, _, _, rfl⟩ := mkCrop_form h
  exact ⟨⟨hs.1, hc⟩, hs.2⟩

theorem concatTake_fair {k : Nat} {ps : List Node} {d : Int × Int} (hn : FairTo k (.concat ps d))
    (hT : ∀ p ∈ ps, ∀ idxs t, idxs ≠ [] → takeIdx p idxs = .ok t → FairTo k t)
    {reqs : List (Option Nat × Option Str)} {t : Node}
    (h : concatTake d (takers ps) reqs = .ok t) : FairTo k t := by
  unfold concatTake at h
  split at h
  · cases h
  · rename_i segs hsegs
    have r4 := accLoop_nonempty hsegs (by simp [accSegs])
    obtain ⟨_, r2, _⟩ := accLoop_ok hsegs (by simp [accSegs])
    split at h
    · cases h
    · rename_i comps hcomps
      obtain ⟨d', rfl, _, _⟩ := mkConcat_ok h
      refine FairTo.concat fun q hq => ?_
      obtain ⟨sg, hsg, hsub⟩ := forall₂_mem_right (mapAll_ok hcomps) hq
      unfold Seg.sub at hsub
      split at hsub
      · cases hsub
        exact ⟨.inl rfl, Nat.zero_le _⟩
      · rename_i o ho
        rw [takers_eq] at hsub
        simp only [List.getElem?_map] at hsub
        cases hp : ps[o]? with
        | none => rw [hp] at hsub; simp at hsub
        | some p =>
          rw [hp] at hsub
          simp only [Option.map_some] at hsub
          have hmem : p ∈ ps := List.mem_of_getElem? hp
          split at hsub
          · cases hsub
          · cases hsub; exact hn.parts _ hmem
          · rename_i idxs' hix
            have hix' := Seg.indexer_ok (r2 sg hsg) hix
            simp only [Option.getD_some] at hix'
            exact hT p hmem idxs' q (by rw [← hix']; exact r4 sg hsg) hsub

mutual
theorem takeIdx_fair {k : Nat} : ∀ n : Node, FairTo k n → ∀ idxs t, idxs ≠ [] → takeIdx n idxs = .ok t → FairTo k t
  | .leaf l, hn, idxs, t, hi, h => by rw [takeIdx] at h; exact mkCrop_fair hn (by simpa using hi) h
  | .warp s tf d a, hn, idxs, t, hi, h => by rw [takeIdx] at h; exact mkCrop_fair hn (by simpa using hi) h
  | .crop s y0 y1 x0 x1 c, hn, idxs, t, hi, h => by rw [takeIdx] at h; exact mkCrop_fair hn (by simpa using hi) h
  | .overview s _ d, hn, idxs, t, hi, h => by rw [takeIdx] at h; exact mkCrop_fair hn (by simpa using hi) h
  | .dequant s q d, hn, idxs, t, hi, h => by rw [takeIdx] at h; exact mkCrop_fair hn (by simpa using hi) h
  | .concat ps d, hn, idxs, t, hi, h => by
    rw [takeIdx] at h
    split at h
    · cases h
    · exact concatTake_fair hn (takeIdx_fairL ps hn.parts) h
theorem takeIdx_fairL {k : Nat} : ∀ ps : List Node, (∀ p ∈ ps, FairTo k p) → ∀ p ∈ ps, ∀ idxs t, idxs ≠ [] →
    takeIdx p idxs = .ok t → FairTo k t
  | [], _, p, hp, _, _, _, _ => by simp at hp
  | q :: qs, hq, p, hp, idxs, t, hi, ht => by
    rcases List.mem_cons.1 hp with e | hp
    · rw [e] at ht; exact takeIdx_fair q (hq q (by simp)) idxs t hi ht
    · exact takeIdx_fairL qs (fun p hp => hq p (by simp [hp])) p hp idxs t hi ht
end

/-! #### what `optimize` keeps -/

/-- Plain and fair. -/
structure Sane (n : Node) : Prop where
  plain : Plain n
  fair : Fair n

/-- Same size and number of channels, not more dequantizations on a path. -/
structure Drops (a b : Node) : Prop where
  dims : SameDims a b
  deq : deqs b ≤ deqs a

theorem takeList_total {i : List Nat} : ∀ o : List Nat, (∀ j ∈ o, j < i.length) → ∃ l, takeList i o = .ok l
  | [], _ => ⟨[], rfl⟩
  | a :: o, h => by
    obtain ⟨l, hl⟩ := takeList_total o fun j hj => h j (by simp [hj])
    have ha : a < i.length := h a (by simp)
    exact ⟨i[a] :: l, by simp [takeList, List.getElem?_eq_getElem ha, hl]⟩

theorem fuseChans_fair {ic c nc : Option (List Nat)} (h : fuseChans ic c = .ok nc) (hi : ic ≠ some [])
    (hc : c ≠ some []) : nc ≠ some [] := by
  cases c with
  | none =>
    cases ic with
    | none => cases h; simp
    | some i => cases h; exact hi
  | some o =>
    cases ic with
    | none => cases h; exact hc
    | some i =>
      simp only [fuseChans] at h
      split at h
      · cases h
      · rename_i l hl
        cases h
        cases o with
        | nil => exact absurd rfl hc
        | cons a o =>
          obtain ⟨rfl, _⟩ := takeList_ok hl
          simp [pick]

theorem saneRules (H : Heur) : Rules H Sane Drops where
  refl := fun n => ⟨⟨rfl, rfl⟩, le_refl _⟩
  trans := fun h1 h2 => ⟨⟨h2.dims.1.trans h1.dims.1, h2.dims.2.trans h1.dims.2⟩, h2.deq.trans h1.deq⟩
  sub := by
    intro n x hn hx
    refine ⟨plain_sub hn.plain hx, ?_⟩
    have := hn.fair
    cases n with
    | leaf l => simp [subOf] at hx
    | concat _ _ => simp [subOf] at hx
    | warp s _ _ _ => cases hx; exact this
    | crop s _ _ _ _ _ => cases hx; exact this.1
    | overview s _ _ => cases hx; exact this
    | dequant s _ _ => cases hx; exact this
  parts := fun h p hp => ⟨(sizeRules H).parts h.plain p hp, (FairL_iff _).1 h.fair p hp⟩
  same := fun h p hp => (sizeRules H).same h.plain p hp
  nan := fun h hn => (sizeRules H).nan h.plain hn
  cong := by
    intro n x x' hn hx hx' hs
    obtain ⟨w1, w2⟩ := (sizeRules H).cong hn.plain hx hx'.plain hs.dims
    have hf := hn.fair
    have hd := hs.deq
    refine ⟨⟨w1, ?_⟩, w2, ?_⟩
    · cases n with
      | leaf l => simp [subOf] at hx
      | concat _ _ => simp [subOf] at hx
      | warp s _ _ _ => exact hx'.fair
      | crop s _ _ _ _ _ => exact ⟨hx'.fair, hf.2⟩
      | overview s _ _ => exact hx'.fair
      | dequant s _ _ => exact hx'.fair
    · cases n with
      | leaf l => simp [subOf] at hx
      | concat _ _ => simp [subOf] at hx
      | warp s _ _ _ => cases hx; simpa only [setSub, deqs] using hd
      | crop s _ _ _ _ _ => cases hx; simpa only [setSub, deqs] using hd
      | overview s _ _ => cases hx; simpa only [setSub, deqs] using hd
      | dequant s _ _ => cases hx; simp only [setSub, deqs]; omega
  concat := by
    intro ps d qs c hn hf hc
    obtain ⟨w1, w2⟩ := (sizeRules H).concat hn.plain (hf.imp fun _ _ h => ⟨h.1.plain, h.2.dims⟩) hc
    obtain ⟨d', rfl, _, _⟩ := mkConcat_ok hc
    refine ⟨⟨w1, (FairL_iff _).2 fun q hq => ?_⟩, w2, ?_⟩
    · obtain ⟨p, _, h⟩ := forall₂_mem_right hf hq
      exact h.1.fair
    · simp only [deqs]; exact deqsL_forall₂ (hf.imp fun _ _ h => h.2.deq)
  push := by
    intro n ps d c hn hsub hsel h
    obtain ⟨w1, w2⟩ := (sizeRules H).push hn.plain hsub hsel h
    unfold pushUnder at h
    split at h
    · cases h
    · rename_i qs hqs
      split at h
      · rename_i c' hc'
        cases h
        obtain ⟨d', rfl, _, _⟩ := mkConcat_ok hc'
        have key : List.Forall₂ (fun p q => Fair q ∧ deqs q ≤ deqs (setSub n p)) ps qs := by
          refine forall₂_imp_left (mapAll_ok hqs) fun p hp q e => ?_
          have hnf := hn.fair
          cases n with
          | leaf l => simp [subOf] at hsub
          | concat _ _ => simp [subOf] at hsub
          | warp s tf dw a => cases hsub; cases e; exact ⟨(FairL_iff _).1 hnf p hp, le_refl _⟩
          | crop s y0 y1 x0 x1 ci =>
            cases hsub
            rw [reapply] at e
            rw [mkCrop_ints e]
            exact ⟨⟨(FairL_iff _).1 hnf.1 p hp, hnf.2⟩, le_refl _⟩
          | overview s k dw => cases hsub; cases e; exact ⟨(FairL_iff _).1 hnf p hp, le_refl _⟩
          | dequant s k dw => cases hsub; cases e; exact ⟨(FairL_iff _).1 hnf p hp, le_refl _⟩
        refine ⟨⟨w1, (FairL_iff _).2 fun q hq => ?_⟩, w2, ?_⟩
        · obtain ⟨p, _, h⟩ := forall₂_mem_right key hq
          exact h.1
        · rw [deqs, deqsL_le]
          intro q hq
          obtain ⟨p, hp, h⟩ := forall₂_mem_right (forall₂_imp_left key
            (S := fun p q => deqs q ≤ deqs n) fun p hp q h => h.2.trans (by
              have := deqs_mem hp
              cases n with
              | leaf l => simp [subOf] at hsub
              | concat _ _ => simp [subOf] at hsub
              | warp s tf dw a => cases hsub; simpa only [setSub, deqs] using this
              | crop s y0 y1 x0 x1 ci => cases hsub; simpa only [setSub, deqs] using this
              | overview s k dw => cases hsub; simpa only [setSub, deqs] using this
              | dequant s k dw => cases hsub; simp only [setSub, deqs]; omega)) hq
          exact h
      · cases h
      · cases h
  fuseWarps := by
    intro s t1 d1 a1 t2 d2 a2 h
    obtain ⟨w1, w2⟩ := (sizeRules H).fuseWarps h.plain
    exact ⟨⟨w1, h.fair⟩, w2, le_refl _⟩
  idWarp := fun h hd hn => ⟨(sizeRules H).idWarp h.plain hd hn, le_refl _⟩
  nanWarp := by
    intro l tf d a h hn
    obtain ⟨w1, w2⟩ := (sizeRules H).nanWarp h.plain hn
    exact ⟨⟨w1, .inl rfl⟩, w2, Nat.zero_le _⟩
  splitWarp := fun h hnum hne => absurd (numOverviews_noOv _ h.plain.noOv _ hnum) hne
  splitOv := fun h hnum hne => absurd (numOverviews_noOv _ h.plain.noOv _ hnum) hne
  splitCrop := fun h hnum hne => absurd (numOverviews_noOv _ h.plain.noOv _ hnum) hne
  absorb := by
    intro s tf d a num r h _ hr
    rw [absorb_noOv (s := s) h.plain.noOv] at hr
    cases hr
    exact ⟨h, ⟨rfl, rfl⟩, le_refl _⟩
  nanCrop := by
    intro l y0 y1 x0 x1 c r h hn hr
    obtain ⟨w1, w2⟩ := (sizeRules H).nanCrop h.plain hn hr
    have : ∃ k d names, r = nanLeaf k d names := by
      unfold nanCrop at hr
      split at hr
      · cases hr
      · split at hr
        · cases hr
        · split at hr
          · cases hr
          · cases hr; exact ⟨_, _, _, rfl⟩
    obtain ⟨_, d, names, rfl⟩ := this
    exact ⟨⟨w1, .inl rfl⟩, w2, Nat.zero_le _⟩
  fuseCrops := by
    intro s iy0 iy1 ix0 ix1 ic y0 y1 x0 x1 c r h hr
    obtain ⟨w1, w2⟩ := (sizeRules H).fuseCrops h.plain hr
    obtain ⟨nc, hnc, rfl, _⟩ := fuseCrops_fit h.plain.wf h.plain.fit hr
    exact ⟨⟨w1, h.fair.1.1, fuseChans_fair hnc h.fair.1.2 h.fair.2⟩, w2, le_refl _⟩
  warpAfterCrop := by
    intro s tf d a y0 y1 x0 x1 c inner tf' h hr
    obtain ⟨w1, w2⟩ := (sizeRules H).warpAfterCrop h.plain hr
    have : ∃ y0 y1 x0 x1, inner = .crop s y0 y1 x0 x1 c := by
      simp only [warpAfterCrop] at hr
      split at hr
      · cases hr
      · split at hr
        · cases hr
        · rename_i i hi
          simp only [Except.ok.injEq, Option.some.injEq, Prod.mk.injEq] at hr
          obtain ⟨rfl, _⟩ := hr
          exact mkCrop_form hi
    obtain ⟨_, _, _, _, rfl⟩ := this
    exact ⟨⟨w1, h.fair.1, h.fair.2⟩, w2, le_refl _⟩
  dequantCrop := by
    intro s q d y0 y1 x0 x1 c h
    obtain ⟨w1, w2⟩ := (sizeRules H).dequantCrop h.plain
    exact ⟨⟨w1, h.fair.1, h.fair.2⟩, w2, le_refl _⟩
  take := by
    intro ps d y0 y1 x0 x1 c t h ht
    obtain ⟨w1, w2⟩ := (sizeRules H).take h.plain ht
    have hc : c ≠ [] := fun e => h.fair.2 (by rw [e])
    have hf := takeIdx_fair (k := deqs (.concat ps d)) _ ⟨h.fair.1, le_refl _⟩ c t hc ht
    refine ⟨⟨w1, hf.1⟩, fun t' cr ht' hs hcr => ?_⟩
    obtain ⟨v1, v2⟩ := w2 t' cr ht'.plain hs.dims hcr
    obtain ⟨_, _, _, _, rfl⟩ := mkCrop_form hcr
    exact ⟨⟨v1, ht'.fair, by simp⟩, v2, hs.deq.trans hf.2⟩
  renorm := by
    intro ps d y0 y1 x0 x1 cr h hcr
    obtain ⟨w1, w2⟩ := (sizeRules H).renorm h.plain hcr
    obtain ⟨_, _, _, _, rfl⟩ := mkCrop_form hcr
    exact ⟨⟨w1, h.fair⟩, w2, le_refl _⟩
  cropAfterOverview := fun h => h.plain.noOv.elim
  warpAfterOverview := fun h => h.plain.noOv.elim
  dequantOverview := fun h => h.plain.noOv.elim
  ov0 := fun h => h.plain.noOv.elim
  fuseOv := fun h => h.plain.noOv.elim
  dequantWarp := by
    intro s tf dw a q d h
    obtain ⟨w1, w2⟩ := (sizeRules H).dequantWarp h.plain
    exact ⟨⟨w1, h.fair⟩, w2, le_refl _⟩

theorem stable_solo : Stable Solo where
  sub := by
    intro n x hn h
    cases n with
    | leaf l => simp [subOf] at h
    | concat _ _ => simp [subOf] at h
    | warp s _ _ _ => cases h; exact hn
    | crop s _ _ _ _ _ => cases h; exact hn
    | overview s _ _ => cases h; exact hn
    | dequant s _ _ => cases h; exact hn
  parts := fun h => h.elim
  concat := fun _ h => h.elim
  nan := fun _ _ => trivial
  nanLike := fun _ _ _ _ => trivial
  crop := fun _ _ _ _ _ h => h
  deq := fun _ _ h => h
  warp := fun _ _ _ h => h
  common := fun h => h
  ovOfWarp := fun _ _ h _ _ => h
  ov := fun _ _ _ h => h
  warpOfOv := fun _ _ _ h => h

theorem nf_solo {H : Heur} {deep : Bool} : ∀ n : Node, NF H deep n → (∀ ps d, n ≠ .concat ps d) → Solo n
  | .leaf l, _, _ => trivial
  | .concat ps d, _, h => absurd rfl (h ps d)
  | .warp s _ _ _, h, _ => by
    rw [NF] at h
    exact nf_solo s h.1 (by rintro ps d rfl; exact h.2.1)
  | .crop s _ _ _ _ _, h, _ => by
    rw [NF] at h
    exact nf_solo s h.1 (by rintro ps d rfl; exact h.2)
  | .overview s _ _, h, _ => by
    rw [NF] at h
    exact nf_solo s h.1 (by rintro ps d rfl; exact h.2.2)
  | .dequant s _ _, h, _ => by
    rw [NF] at h
    exact nf_solo s h.1 (by rintro ps d rfl; exact h.2)

theorem solo_not_concat {n : Node} (h : Solo n) (ps : List Node) (d : Int × Int) : n ≠ .concat ps d := by
  rintro rfl; exact h

/-! #### exceptions -/

/-- Crops with in-range channels raise nothing. -/
theorem mkCrop_total' {s : Node} (hs : WF s) {c : Option (List Nat)} (hc : IdxOk s.nchan c) (sl : Option Space) :
    ∃ t, mkCrop s sl c = .ok t := by
  cases c with
  | none =>
    unfold mkCrop chanCheck
    cases sl with
    | none => exact ⟨_, rfl⟩
    | some sl => exact ⟨_, rfl⟩
  | some c => exact mkCrop_total hs hc sl

theorem pushUnder_total {n : Node} {ps : List Node} {d : Int × Int} (hn : WF n)
    (hsub : subOf n = .ok (some (.concat ps d))) (hsel : ¬ selects n) : ∃ c, pushUnder n ps = .ok (some c) := by
  have hc : WF (.concat ps d) := wf_sub hn hsub
  have hre : ∀ p ∈ ps, ∃ q, reapply n p = .ok q := by
    intro p hp
    cases n with
    | leaf l => simp [subOf] at hsub
    | concat _ _ => simp [subOf] at hsub
    | warp s tf dw a => exact ⟨_, rfl⟩
    | crop s y0 y1 x0 x1 ci =>
      cases ci with
      | none =>
        unfold reapply
        exact mkCrop_total' ((WFL_iff _ _).1 hc.2 p hp).1 (c := none) True.intro _
      | some ci => exact (hsel trivial).elim
    | overview s k dw => exact ⟨_, rfl⟩
    | dequant s k dw => exact ⟨_, rfl⟩
  obtain ⟨qs, hqs⟩ := mapAll_total hre
  have hm := mapAll_ok hqs
  have hps := hc.1
  cases hm with
  | nil => exact absurd rfl hps
  | @cons p q ps' qs' hpq hm' =>
    have : ∀ q' ∈ q :: qs', q'.dsize = q.dsize := by
      intro q' hq'
      obtain ⟨p', hp', e⟩ := forall₂_mem_right (mapAll_ok hqs) hq'
      exact reapply_dsize ((WFL_iff _ _).1 hc.2 p (by simp)).2 hpq ((WFL_iff _ _).1 hc.2 p' hp').2 e
    refine ⟨.concat (q :: qs') q.dsize, ?_⟩
    unfold pushUnder
    rw [hqs]
    simp only [mkConcat_same (by simp) this]

/-- What is used of the images considered, and of what `optimize` keeps of them. -/
structure Orderly (H : Heur) (P : Node → Prop) (R : Node → Node → Prop) : Prop where
  rules : Rules H P R
  wf : ∀ {n}, P n → WF n
  fit : ∀ {n}, P n → Fit n
  fair : ∀ {n}, P n → Fair n
  dsize : ∀ {a b}, R a b → b.dsize = a.dsize
  deq : ∀ {a b}, R a b → deqs b ≤ deqs a

theorem saneOrderly (H : Heur) : Orderly H Sane Drops :=
  ⟨saneRules H, fun h => h.plain.wf, fun h => h.plain.fit, fun h => h.fair, fun h => h.dims.1, fun h => h.deq⟩

section
variable {H : Heur} {P : Node → Prop} {R : Node → Node → Prop} (hO : Orderly H P R) {rec : Node → Py Node}
  (hg : RecOk H P R true rec)
  (hs : ∀ x x', WF x → Solo x → rec x = .ok x' → Solo x')
  (he : ∀ x e, P x → deqs x ≤ 1 → rec x = .error e → e = .recursion)

include hO hg hs he

theorem finish_raises {n : Node} (hn : P n) (hd : deqs n ≤ 1) (hc : ∀ ps d, n ≠ .concat ps d)
    (hsel : ¬ selects n) {e : PyErr} (h : finish rec n = .error e) : e = .recursion := by
  unfold finish at h
  split at h
  · rename_i e' hsub
    cases n with
    | concat ps d => exact absurd rfl (hc ps d)
    | _ => cases hsub
  · rename_i ps d hsub
    obtain ⟨c, hp⟩ := pushUnder_total (hO.wf hn) hsub hsel
    rw [hp] at h
    simp only at h
    obtain ⟨p1, p2⟩ := hO.rules.push hn hsub hsel hp
    exact he c e p1 ((hO.deq p2).trans hd) h
  · cases h

/-- `finish` of a result. -/
theorem finish_nf_raises {n : Node} (hn : NF H true n) (hc : ∀ ps d, n ≠ .concat ps d)
    {e : PyErr} (h : finish rec n = .error e) : e = .recursion := by
  unfold finish at h
  split at h
  · rename_i e' hsub
    cases n with
    | concat ps d => exact absurd rfl (hc ps d)
    | _ => cases hsub
  · rename_i ps d hsub
    exact absurd hsub hn.sub_not_concat
  · cases h

theorem finishCrop_nf_raises {n : Node} (hn : NF H true n) (hc : ∀ ps d, n ≠ .concat ps d)
    {e : PyErr} (h : finishCrop rec n = .error e) : e = .recursion := by
  unfold finishCrop at h
  split at h
  · rw [NF] at hn
    exact absurd hn.2 (by simp [underCrop])
  · exact finish_nf_raises hO hg hs he hn hc h

theorem optConcat_raises {ps : List Node} {d : Int × Int} (hn : P (.concat ps d)) (hd : deqs (.concat ps d) ≤ 1)
    {e : PyErr} (h : optConcat rec ps d = .error e) : e = .recursion := by
  have hparts := hO.rules.parts hn
  have hdp : ∀ p ∈ ps, deqs p ≤ 1 := (deqsL_le _ _).1 (by rwa [deqs] at hd)
  unfold optConcat at h
  split at h
  · rename_i e' hm
    cases h
    have key : ∀ qs : List Node, (∀ p ∈ qs, P p ∧ deqs p ≤ 1) → mapAll rec qs = .error e → e = .recursion := by
      intro qs
      induction qs with
      | nil => intro _ h; simp [mapAll] at h
      | cons q qs ih =>
        intro hq h
        unfold mapAll at h
        split at h
        · rename_i hx
          cases h
          exact he q _ (hq q (by simp)).1 (hq q (by simp)).2 hx
        · split at h
          · rename_i hx
            cases h
            exact ih (fun p hp => hq p (by simp [hp])) hx
          · cases h
    exact key ps (fun p hp => ⟨hparts p hp, hdp p hp⟩) hm
  · rename_i qs hqs
    have hq : ∀ q ∈ qs, q.dsize = d := by
      intro q hq
      obtain ⟨p, hp, e⟩ := forall₂_mem_right (forall₂_imp_left (mapAll_ok hqs)
        (S := fun p q => q.dsize = d) fun p hp q hpq =>
          (hO.dsize (hg p q (hparts p hp) hpq).rel).trans (hO.rules.same hn p hp)) hq
      exact e
    have hne : qs ≠ [] := by
      rintro rfl
      have := mapAll_ok hqs
      cases this
      exact (hO.wf hn).1 rfl
    rw [mkConcat_same hne hq] at h
    cases h

theorem optDequant_raises {s : Node} {q : Quantization} {d : Int × Int} (hn : P (.dequant s q d))
    (hd : deqs (.dequant s q d) ≤ 1) {e : PyErr} (h : optDequant rec s q d = .error e) : e = .recursion := by
  have hss : P s := hO.rules.sub hn rfl
  have hds : deqs s = 0 := by rw [deqs] at hd; omega
  unfold optDequant at h
  split at h
  · rename_i hx
    cases h
    exact he s _ hss (by omega) hx
  · rename_i hx
    have := hO.deq (hg _ _ hss hx).rel
    rw [deqs] at this
    omega
  · rename_i x tf dw a hx
    have g := hg _ _ hss hx
    obtain ⟨c1, c2⟩ := hO.rules.cong hn rfl g.inv g.rel
    obtain ⟨w1, w2⟩ := hO.rules.dequantWarp c1
    have hw : deqs (.warp (mkDequant x q) tf dw a) ≤ 1 := ((hO.deq w2).trans (hO.deq c2)).trans hd
    have hsolo : Solo (.warp x tf dw a) := nf_solo _ g.nf (by simp)
    split at h
    · rename_i hrr
      cases h
      exact he _ _ w1 hw hrr
    · rename_i r hrr
      have g2 := hg _ _ w1 hrr
      have := hs (.warp (mkDequant x q) tf dw a) r (hO.wf w1) hsolo hrr
      exact finish_nf_raises hO hg hs he g2.nf (solo_not_concat this) h
  · rename_i s' hnd hnw hx
    have g := hg _ _ hss hx
    obtain ⟨c1, c2⟩ := hO.rules.cong hn rfl g.inv g.rel
    exact finish_raises hO hg hs he c1 ((hO.deq c2).trans hd) (by simp [setSub]) (by simp [setSub, selects]) h

theorem cropConcat_raises {ps : List Node} {d : Int × Int} {y0 y1 x0 x1 : Int} {c : Option (List Nat)}
    (hn : P (.crop (.concat ps d) y0 y1 x0 x1 c)) (hd : deqs (.crop (.concat ps d) y0 y1 x0 x1 c) ≤ 1)
    {e : PyErr} (h : cropConcat rec ps d y0 y1 x0 x1 c = .error e) : e = .recursion := by
  have hsub : P (.concat ps d) := hO.rules.sub hn rfl
  unfold cropConcat at h
  split at h
  · rename_i e' ht
    cases h
    cases c with
    | none => cases ht
    | some c =>
      simp only at ht
      have hc : c ≠ [] := fun e => (hO.fair hn).2 (by rw [e])
      obtain ⟨t, htt⟩ := takeIdx_total _ (hO.wf hsub) (fair_named _ (hO.wf hsub) (hO.fair hsub)) c hc
        (hO.wf hn).2.2.2
      rw [htt] at ht
      simp only at ht
      have hf := takeIdx_fair (k := 1) _ ⟨(hO.fair hsub), hd⟩ c t hc htt
      exact he t e (hO.rules.take hn htt).1 hf.2 ht
  · rename_i taken ht
    split at h
    · rename_i hcr
      unfold mkCrop chanCheck ints at hcr
      simp at hcr
    · rename_i cr hcr
      have key : P cr ∧ R (.crop (.concat ps d) y0 y1 x0 x1 c) cr := by
        cases c with
        | none =>
          cases ht
          exact hO.rules.renorm hn hcr
        | some c =>
          simp only at ht
          split at ht
          · cases ht
          · rename_i t htt
            obtain ⟨k1, k2⟩ := hO.rules.take hn htt
            have g := hg _ _ k1 ht
            exact k2 _ _ g.inv g.rel hcr
      obtain ⟨k1, k2⟩ := key
      have hform := mkCrop_ints hcr
      split at h
      · rename_i qs dq
        obtain ⟨p, hp⟩ := pushUnder_total (d := dq) (hO.wf k1) (by rw [hform]; rfl)
          (by rw [hform]; simp [selects])
        rw [hp] at h
        simp only at h
        obtain ⟨p1, p2⟩ := hO.rules.push (d := dq) k1 (by rw [hform]; rfl)
          (by rw [hform]; simp [selects]) hp
        exact he p e p1 ((hO.deq p2).trans ((hO.deq k2).trans hd)) h
      · exact he cr e k1 ((hO.deq k2).trans hd) h

theorem cropRest_raises {s : Node} {y0 y1 x0 x1 : Int} {c : Option (List Nat)}
    (hn : P (.crop s y0 y1 x0 x1 c)) (hd : deqs (.crop s y0 y1 x0 x1 c) ≤ 1) (hp : preCrop H true s)
    {e : PyErr} (h : cropRest rec s y0 y1 x0 x1 c = .error e) : e = .recursion := by
  unfold cropRest at h
  split at h
  · rename_i x tf dw a
    split at h
    · cases h
    · split at h
      · rename_i hz
        exfalso
        simp only [warpAfterCrop] at hz
        split at hz
        · cases hz
        · have hi : IdxOk x.nchan c := by
            have := (hO.wf hn).2.2.2
            simpa only [nchan] using this
          split at hz
          · rename_i hcr
            obtain ⟨t, htt⟩ := mkCrop_total' (hO.wf hn).1.1 hi
              (ints (innerSlice x.dsize tf y0 y1 x0 x1).1.1 (innerSlice x.dsize tf y0 y1 x0 x1).1.2.1
                (innerSlice x.dsize tf y0 y1 x0 x1).1.2.2.1 (innerSlice x.dsize tf y0 y1 x0 x1).1.2.2.2)
            rw [htt] at hcr
            cases hcr
          · cases hz
      · cases h
      · rename_i inner tf' hz
        obtain ⟨w1, w2⟩ := hO.rules.warpAfterCrop hn hz
        split at h
        · rename_i hrr
          cases h
          exact he _ _ w1 ((hO.deq w2).trans hd) hrr
        · rename_i r hrr
          have g := hg _ _ w1 hrr
          have hsolo : Solo (.warp x tf dw a) := nf_solo (deep := true) _ hp (by simp)
          have hin : Solo inner := stable_solo.warpAfterCrop (s := x) hsolo hz
          have := hs _ r (hO.wf w1) (show Solo (.warp inner tf' (x1 - x0, y1 - y0) a.common) from hin) hrr
          exact finishCrop_nf_raises hO hg hs he g.nf (solo_not_concat this) h
  · rename_i x q dq
    obtain ⟨w1, w2⟩ := hO.rules.dequantCrop hn
    split at h
    · rename_i hrr
      cases h
      exact he _ _ w1 ((hO.deq w2).trans hd) hrr
    · rename_i r hrr
      have g := hg _ _ w1 hrr
      have hsolo : Solo (.dequant x q dq) := nf_solo (deep := true) _ hp (by simp)
      have := hs _ r (hO.wf w1) (show Solo (mkDequant (.crop x y0 y1 x0 x1 c) q) from hsolo) hrr
      exact finishCrop_nf_raises hO hg hs he g.nf (solo_not_concat this) h
  · rename_i hnw hnd
    cases s with
    | concat ps d => exact cropConcat_raises hO hg hs he hn hd h
    | crop _ _ _ _ _ _ => exact hp.elim
    | warp _ _ _ _ => exact (hnw _ _ _ _ rfl).elim
    | dequant _ _ _ => exact (hnd _ _ _ rfl).elim
    | leaf l => simp [finishCrop, finish, subOf] at h
    | overview x k d => simp [finishCrop, finish, subOf] at h

theorem fuseCrops_total {s : Node} {iy0 iy1 ix0 ix1 y0 y1 x0 x1 : Int} {ic c : Option (List Nat)}
    (hn : WF (.crop (.crop s iy0 iy1 ix0 ix1 ic) y0 y1 x0 x1 c)) :
    ∃ r, fuseCrops s iy0 iy1 ix0 ix1 ic y0 y1 x0 x1 c = .ok r := by
  have hc : IdxOk (nchan (.crop s 0 0 0 0 ic)) c := by
    have := hn.2.2.2
    cases ic <;> simpa only [nchan] using this
  have hf : ∃ nc, fuseChans ic c = .ok nc := by
    cases c with
    | none => cases ic <;> exact ⟨_, rfl⟩
    | some o =>
      cases ic with
      | none => exact ⟨_, rfl⟩
      | some i =>
        obtain ⟨l, hl⟩ := takeList_total (i := i) o (by simpa only [IdxOk, nchan] using hc)
        exact ⟨some l, by simp only [fuseChans, hl]⟩
  obtain ⟨nc, hnc⟩ := hf
  obtain ⟨hi, _, _⟩ := fuseChans_ok (s := s) hnc hn.1.2.2.2 hc
  simp only [fuseCrops, hnc]
  exact mkCrop_total' hn.1.1 hi _

theorem optCrop_raises {s : Node} {y0 y1 x0 x1 : Int} {c : Option (List Nat)}
    (hn : P (.crop s y0 y1 x0 x1 c)) (hd : deqs (.crop s y0 y1 x0 x1 c) ≤ 1)
    {e : PyErr} (h : optCrop rec s y0 y1 x0 x1 c = .error e) : e = .recursion := by
  have hss : P s := hO.rules.sub hn rfl
  unfold optCrop at h
  split at h
  · rename_i hx
    cases h
    exact he s _ hss hd hx
  · rename_i s' hx
    have g := hg _ _ hss hx
    obtain ⟨c1, c2⟩ := hO.rules.cong hn rfl g.inv g.rel
    simp only [setSub] at c1 c2
    have hd' := (hO.deq c2).trans hd
    have hnf := g.nf
    cases s' with
    | crop s1 iy0 iy1 ix0 ix1 ic =>
      simp only at h
      obtain ⟨r, hf⟩ := fuseCrops_total hO hg hs he (hO.wf c1)
      obtain ⟨f1, f2⟩ := hO.rules.fuseCrops c1 hf
      obtain ⟨_, _, _, _, _, rfl⟩ := fuseCrops_form hf
      rw [hf] at h
      simp only at h
      rw [NF] at hnf
      split at h
      · rename_i l hl
        cases s1 with
        | leaf l' =>
          have : l'.nan = false := hnf.2
          simp only [this, Bool.false_eq_true, if_false] at hl
          cases hl
        | _ => cases hl
      · refine cropRest_raises hO hg hs he f1 ((hO.deq f2).trans hd') ?_ h
        cases s1 with
        | leaf l => exact hnf.2
        | concat _ _ => exact hnf.2.elim
        | crop _ _ _ _ _ _ => exact hnf.2.elim
        | warp _ _ _ _ => exact hnf.1
        | dequant _ _ _ => exact hnf.2.elim
        | overview _ _ _ => exact hnf.1
    | leaf l =>
      simp only at h
      split at h
      · rename_i l' hl
        split at hl
        · rename_i hnan
          cases hl
          split at h
          · rename_i hz
            exfalso
            obtain ⟨names, hnames⟩ := Option.isSome_iff_exists.1 ((hO.wf c1).1.2 hnan).1
            have hlen := (hO.wf c1).1.1 names hnames
            have h1 := (hO.fit c1).2.1
            have h2 := (hO.fit c1).2.2.2.1
            have h3 := (hO.wf c1).2.2.2
            have hnc := (hO.wf c1).1.2 hnan
            unfold nanCrop at hz
            rw [hnames] at hz
            simp only [embedSlice] at hz
            rw [if_neg (by omega), if_neg (by omega)] at hz
            cases c with
            | none => cases hz
            | some c =>
              have hall : c.all (fun i => decide (i < names.length)) = true := by
                rw [List.all_eq_true]
                intro i hi
                have := h3 i hi
                simp only [nchan] at this
                simp only [decide_eq_true_eq]
                omega
              simp only [hall, if_true] at hz
              cases hz
          · rename_i r hrr
            obtain ⟨f1, f2⟩ := hO.rules.nanCrop c1 hnan hrr
            exact he r e f1 ((hO.deq f2).trans hd') h
        · cases hl
      · rename_i hl
        refine cropRest_raises hO hg hs he c1 hd' ?_ h
        cases hln : l.nan with
        | false => exact hln
        | true => rw [hln] at hl; simp at hl
    | concat _ _ => exact cropRest_raises hO hg hs he c1 hd' trivial h
    | warp _ _ _ _ => exact cropRest_raises hO hg hs he c1 hd' hnf h
    | dequant _ _ _ => exact cropRest_raises hO hg hs he c1 hd' hnf h
    | overview _ _ _ => exact cropRest_raises hO hg hs he c1 hd' hnf h

end

section
variable {H : Heur} {rec : Node → Py Node}
  (hg : RecOk H Sane Drops true rec)
  (hs : ∀ x x', WF x → Solo x → rec x = .ok x' → Solo x')
  (he : ∀ x e, Sane x → deqs x ≤ 1 → rec x = .error e → e = .recursion)

include hg hs he

theorem numOverviews_solo : ∀ n : Node, NoOv n → Solo n → ∃ o, n.numOverviews = .ok o
  | .leaf l, _, _ => ⟨_, rfl⟩
  | .concat ps d, _, h => h.elim
  | .overview _ _ _, h, _ => h.elim
  | .warp s _ _ _, h, hd => by
    have := numOverviews_solo s h hd
    simpa only [numOverviews] using this
  | .crop s _ _ _ _ _, h, hd => by
    have := numOverviews_solo s h hd
    simpa only [numOverviews] using this
  | .dequant s _ _, h, hd => by
    have := numOverviews_solo s h hd
    simpa only [numOverviews] using this

theorem warpRest_raises {s : Node} {tf : Affine} {d : Int × Int} {a : Algo}
    (hn : Sane (.warp s tf d a)) (hd : deqs (.warp s tf d a) ≤ 1) (hnf : NF H true s)
    {e : PyErr} (h : warpRest H rec s tf d a = .error e) : e = .recursion := by
  have hps : Sane s := (saneRules Heur.code).sub hn rfl
  by_cases hz : d = s.dsize ∧ H.negl a.noopEps tf = true
  · unfold warpRest at h
    rw [if_pos hz] at h
    cases h
  · by_cases hc : ∃ ps e, s = .concat ps e
    · obtain ⟨ps, e, rfl⟩ := hc
      unfold warpRest at h
      rw [if_neg hz] at h
      simp only at h
      obtain ⟨c, hp⟩ := pushUnder_total hn.plain.wf rfl (by simp [selects])
      rw [hp] at h
      simp only at h
      obtain ⟨p1, p2⟩ := (saneRules Heur.code).push hn rfl (by simp [selects]) hp
      exact he c _ p1 (p2.deq.trans hd) h
    · have hnc : ∀ ps e, s ≠ .concat ps e := fun ps e he => hc ⟨ps, e, he⟩
      obtain ⟨o, hnum⟩ := numOverviews_solo hg hs he s hps.plain.noOv (nf_solo s hnf hnc)
      by_cases hsol : solid s
      · rw [warpRest_noOv hps.plain.noOv hnum hnc hsol hz] at h
        cases h
      · cases s with
        | leaf l =>
          have hnan : l.nan = true := by simpa [solid] using hsol
          unfold warpRest at h
          rw [if_neg hz] at h
          simp only [hnan, if_true] at h
          obtain ⟨n1, n2⟩ := (saneRules Heur.code).nanWarp hn hnan
          exact he _ e n1 (n2.deq.trans hd) h
        | _ => exact absurd trivial hsol

theorem optWarp_raises {s : Node} {tf : Affine} {d : Int × Int} {a : Algo}
    (hn : Sane (.warp s tf d a)) (hd : deqs (.warp s tf d a) ≤ 1)
    {e : PyErr} (h : optWarp H rec s tf d a = .error e) : e = .recursion := by
  have hss : Sane s := (saneRules Heur.code).sub hn rfl
  unfold optWarp at h
  split at h
  · rename_i hx
    cases h
    exact he s _ hss hd hx
  · rename_i s1 tf1 d1 a1 hx
    have g := hg _ _ hss hx
    obtain ⟨c1, c2⟩ := (saneRules Heur.code).cong hn rfl g.inv g.rel
    obtain ⟨w1, w2⟩ := (saneRules Heur.code).fuseWarps c1
    have hnf := g.nf
    rw [NF] at hnf
    exact warpRest_raises hg hs he w1 (w2.deq.trans (c2.deq.trans hd)) hnf.1 h
  · rename_i s' hnw hx
    have g := hg _ _ hss hx
    obtain ⟨c1, c2⟩ := (saneRules Heur.code).cong hn rfl g.inv g.rel
    exact warpRest_raises hg hs he c1 (c2.deq.trans hd) g.nf h

end

/-- The only exception on sane images without nested dequantizations is the one at the bound. -/
theorem opt_raises (H : Heur) (fuel : Nat) : ∀ (n : Node) (e : PyErr), Sane n → deqs n ≤ 1 →
    opt H fuel n = .error e → e = .recursion := by
  induction fuel with
  | zero => intro n e _ _ h; simp only [opt, Except.error.injEq] at h; exact h.symm
  | succ fuel ih =>
    intro n e hn hd h
    have hg : RecOk H Sane Drops true (opt H fuel) :=
      opt_good (saneRules H) (fun _ _ _ h => h.dims.1) fuel
    have hs : ∀ x x', WF x → Solo x → opt H fuel x = .ok x' → Solo x' := fun x x' hw hx h =>
      (opt_good (deep := false) (keepRules H (nameRules H) stable_solo) (by simp) fuel x x' ⟨hw, hx⟩ h).inv.2
    rw [opt] at h
    cases n with
    | leaf l => simp [optStep] at h
    | concat ps d => exact optConcat_raises (saneOrderly H) hg hs ih hn hd h
    | warp s tf d a => exact optWarp_raises hg hs ih hn hd h
    | crop s y0 y1 x0 x1 c => exact optCrop_raises (saneOrderly H) hg hs ih hn hd h
    | overview s k d => exact hn.plain.noOv.elim
    | dequant s q d => exact optDequant_raises (saneOrderly H) hg hs ih hn hd h

end Tree
end Verif
