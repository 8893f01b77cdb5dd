/-
Optimizing twice: images without overviews that `optimize` returns are returned again unchanged.
-/
import Verif.SizeRules
import Verif.Halt

namespace Verif
namespace Tree

open Helpers Node

/-- Not a leaf of nans. -/
def solid : Node → Prop
  | .leaf l => l.nan = false
  | _ => True

mutual
/-- Images without overviews on which no rule of `optimize` applies. -/
def Done (H : Heur) : Node → Prop
  | .leaf _ => True
  | .concat ps d => ps ≠ [] ∧ DoneL H d ps
  | .warp s tf d a => Done H s ∧ underWarp s ∧ solid s ∧ ¬ (d = s.dsize ∧ H.negl a.noopEps tf = true)
  | .crop s y0 y1 x0 x1 _ => Done H s ∧ underCrop (x1 - x0) (y1 - y0) s
  | .overview _ _ _ => False
  | .dequant s _ _ => Done H s ∧ isLOC s
def DoneL (H : Heur) (d : Int × Int) : List Node → Prop
  | [] => True
  | p :: ps => (Done H p ∧ p.dsize = d) ∧ DoneL H d ps
end

theorem DoneL_iff (H : Heur) (d : Int × Int) (ps : List Node) :
    DoneL H d ps ↔ ∀ p ∈ ps, Done H p ∧ p.dsize = d := by
  induction ps with
  | nil => simp [DoneL]
  | cons p ps ih => simp [DoneL, ih]

variable {H : Heur}

/-! #### nothing to do -/

theorem mapAll_id {f : Node → Py Node} : ∀ {ps : List Node}, (∀ p ∈ ps, f p = .ok p) → mapAll f ps = .ok ps
  | [], _ => rfl
  | p :: ps, h => by
    rw [mapAll, h p (by simp), mapAll_id (ps := ps) fun q hq => h q (by simp [hq])]

theorem numOverviews_chain : ∀ n : Node, NoOv n → Done H n → (∀ ps d, n ≠ .concat ps d) →
    ∃ o, n.numOverviews = .ok o
  | .leaf l, _, _, _ => ⟨_, rfl⟩
  | .concat ps d, _, _, h => absurd rfl (h ps d)
  | .overview _ _ _, h, _, _ => h.elim
  | .warp s _ _ _, h, hd, _ => by
    rw [Done] at hd
    have := numOverviews_chain s h hd.1 (by rintro ps d rfl; exact hd.2.1)
    simpa only [numOverviews] using this
  | .crop s _ _ _ _ _, h, hd, _ => by
    rw [Done] at hd
    have := numOverviews_chain s h hd.1 (by rintro ps d rfl; exact hd.2)
    simpa only [numOverviews] using this
  | .dequant s _ _, h, hd, _ => by
    rw [Done] at hd
    have := numOverviews_chain s h hd.1 (by rintro ps d rfl; exact hd.2)
    simpa only [numOverviews] using this

theorem split_noOv {rec : Node → Py Node} {s : Node} {tf : Affine} {d : Int × Int} {a : Algo} (h : NoOv s)
    {o : Option Int} (ho : s.numOverviews = .ok o) : split H rec s tf d a = .ok none := by
  unfold split
  rw [ho]
  cases o with
  | none => rfl
  | some k =>
    have : k = 0 := numOverviews_noOv s h k ho
    subst this
    rfl

theorem absorb_noOv {s : Node} {tf : Affine} {d : Int × Int} {a : Algo} (h : NoOv s) :
    absorb H s tf d a = .ok (.warp s tf d a) := by
  unfold absorb
  split
  · rfl
  · rw [look_noOv 4 s h]

theorem warpRest_noOv {rec : Node → Py Node} {s : Node} {tf : Affine} {d : Int × Int} {a : Algo} (h : NoOv s)
    {o : Option Int} (ho : s.numOverviews = .ok o) (hc : ∀ ps e, s ≠ .concat ps e) (hs : solid s)
    (hz : ¬ (d = s.dsize ∧ H.negl a.noopEps tf = true)) :
    warpRest H rec s tf d a = .ok (.warp s tf d a) := by
  unfold warpRest
  rw [if_neg hz]
  cases s with
  | concat ps e => exact absurd rfl (hc ps e)
  | leaf l =>
    have hl : l.nan = false := hs
    simp only [hl, Bool.false_eq_true, if_false, split_noOv h ho, absorb_noOv h]
  | overview _ _ _ => exact h.elim
  | _ => simp only [split_noOv h ho, absorb_noOv h]

mutual
/-- The number of nodes on the longest path. -/
def deepness : Node → Nat
  | .leaf _ => 1
  | .concat ps _ => deepnessL ps + 1
  | .warp s _ _ _ => deepness s + 1
  | .crop s _ _ _ _ _ => deepness s + 1
  | .overview s _ _ => deepness s + 1
  | .dequant s _ _ => deepness s + 1
def deepnessL : List Node → Nat
  | [] => 0
  | p :: ps => max (deepness p) (deepnessL ps)
end

theorem deepness_le {p : Node} : ∀ {ps : List Node}, p ∈ ps → deepness p ≤ deepnessL ps
  | q :: ps, h => by
    rw [deepnessL]
    rcases List.mem_cons.1 h with rfl | h
    · exact le_max_left _ _
    · exact (deepness_le h).trans (le_max_right _ _)

/-- Nothing happens to an image on which no rule applies. -/
theorem done_opt : ∀ (f : Nat) (n : Node), NoOv n → Done H n → deepness n ≤ f → opt H f n = .ok n := by
  intro f
  induction f with
  | zero => intro n _ _ h; cases n <;> simp [deepness] at h
  | succ f ih =>
    intro n ho hd hf
    rw [opt]
    cases n with
    | leaf l => rfl
    | overview _ _ _ => exact ho.elim
    | concat ps d =>
      rw [Done] at hd
      have hd2 := (DoneL_iff H d ps).1 hd.2
      have e : mapAll (opt H f) ps = .ok ps := mapAll_id fun p hp =>
        ih p ((NoOvL_iff _).1 ho p hp) (hd2 p hp).1
          ((deepness_le hp).trans (by simp only [deepness] at hf; omega))
      simp only [optStep, optConcat, e]
      obtain ⟨p, qs, rfl⟩ := List.exists_cons_of_ne_nil hd.1
      have hp := (hd2 p (by simp)).2
      have : qs.all (fun q => decide (q.dsize = p.dsize)) = true := by
        simp only [List.all_eq_true, decide_eq_true_eq]
        intro q hq
        rw [(hd2 q (by simp [hq])).2, hp]
      simp only [mkConcat]
      rw [if_pos this, hp]
    | warp s tf d a =>
      rw [Done] at hd
      obtain ⟨h1, h2, h3, h4⟩ := hd
      have e := ih s ho h1 (by simp only [deepness] at hf; omega)
      have hnc : ∀ ps d, s ≠ .concat ps d := by rintro ps d rfl; exact h2
      have hnw : optWarp H (opt H f) s tf d a = warpRest H (opt H f) s tf d a := by
        simp only [optWarp, e]
        cases s with
        | warp _ _ _ _ => exact h2.elim
        | _ => rfl
      simp only [optStep]
      obtain ⟨o, hnum⟩ := numOverviews_chain s ho h1 hnc
      rw [hnw]
      exact warpRest_noOv ho hnum hnc h3 h4
    | crop s y0 y1 x0 x1 c =>
      rw [Done] at hd
      have e := ih s ho hd.1 (by simp only [deepness] at hf; omega)
      simp only [optStep, optCrop, e]
      have hu := hd.2
      cases s with
      | leaf l =>
        have hl : l.nan = false := hu
        simp only [hl, Bool.false_eq_true, if_false, cropRest, finishCrop, finish, subOf]
      | warp x tf d a =>
        simp only [cropRest]
        split
        · rfl
        · rename_i hne
          rcases hu with hu | hu
          · exact absurd hu hne
          · simp only [warpAfterCrop, if_pos hu]
      | overview _ _ _ => exact hd.1.elim
      | concat _ _ => exact hu.elim
      | crop _ _ _ _ _ _ => exact hu.elim
      | dequant _ _ _ => exact hu.elim
    | dequant s q d =>
      rw [Done] at hd
      have e := ih s ho hd.1 (by simp only [deepness] at hf; omega)
      simp only [optStep, optDequant, e]
      have hu := hd.2
      cases s with
      | leaf l => rfl
      | crop _ _ _ _ _ _ => rfl
      | overview _ _ _ => exact hd.1.elim
      | concat _ _ => exact hu.elim
      | warp _ _ _ _ => exact hu.elim
      | dequant _ _ _ => exact hu.elim

/-! #### results of `optimize` -/

/-- The relation of the rules for sizes. -/
abbrev SameDims (n n' : Node) : Prop := n'.dsize = n.dsize ∧ n'.nchan = n.nchan

/-- Recursive calls give finished images. -/
def RecDone (H : Heur) (rec : Node → Py Node) : Prop := ∀ n n', Plain n → rec n = .ok n' → Done H n'

section
variable {rec : Node → Py Node} (hg : RecOk H Plain SameDims true rec) (hr : RecDone H rec)
include hg hr

theorem Done.sub_not_concat {n : Node} (h : Done H n) {ps : List Node} {d : Int × Int} :
    subOf n ≠ .ok (some (.concat ps d)) := by
  intro e
  cases n with
  | leaf l => simp [subOf] at e
  | concat _ _ => simp [subOf] at e
  | overview _ _ _ => exact h.elim
  | warp s _ _ _ =>
    simp only [subOf, Except.ok.injEq, Option.some.injEq] at e; subst e
    rw [Done] at h; exact h.2.1
  | crop s _ _ _ _ _ =>
    simp only [subOf, Except.ok.injEq, Option.some.injEq] at e; subst e
    rw [Done] at h; exact h.2
  | dequant s _ _ =>
    simp only [subOf, Except.ok.injEq, Option.some.injEq] at e; subst e
    rw [Done] at h; exact h.2

theorem finish_done {n n' : Node} (hd : Done H n) (h : finish rec n = .ok n') : n' = n := by
  unfold finish at h
  split at h
  · cases h
  · rename_i ps d hsub
    exact absurd hsub (Done.sub_not_concat hg hr hd)
  · cases h; rfl

theorem finishCrop_done {n n' : Node} (hd : Done H n) (h : finishCrop rec n = .ok n') : n' = n := by
  unfold finishCrop at h
  split at h
  · rw [Done] at hd
    exact absurd hd.2 (by simp [underCrop])
  · exact finish_done hg hr hd h

/-- `finish` of an operation, which is finished unless it is over a concat. -/
theorem finish_op {n n' : Node} (hn : Plain n) (hs : ¬ selects n)
    (hd : (∀ ps d, subOf n ≠ .ok (some (.concat ps d))) → Done H n)
    (h : finish rec n = .ok n') : Done H n' := by
  unfold finish at h
  split at h
  · cases h
  · rename_i ps d hsub
    split at h
    · cases h
    · rename_i hnone
      exact absurd hnone (pushUnder_ne_none ((sizeRules H).same ((sizeRules H).sub hn hsub)))
    · rename_i p hp
      exact hr p n' ((sizeRules H).push hn hsub hs hp).1 h
  · rename_i y hno hy
    cases h
    exact hd fun ps d e => hno ps d (by rw [hy] at e; exact Except.ok.inj e)

theorem optConcat_done {ps : List Node} {d : Int × Int} {n' : Node} (hn : Plain (.concat ps d))
    (h : optConcat rec ps d = .ok n') : Done H n' := by
  unfold optConcat at h
  split at h
  · cases h
  · rename_i qs hqs
    have hm := mapAll_ok hqs
    have hq : ∀ q ∈ qs, Done H q ∧ q.dsize = d := by
      intro q hq
      obtain ⟨p, hp, e⟩ := forall₂_mem_right (forall₂_imp_left hm
        (S := fun p q => Done H q ∧ q.dsize = d) fun p hp q hpq => by
          have hpp := (sizeRules H).parts hn p hp
          exact ⟨hr p q hpp hpq, (hg p q hpp hpq).rel.1.trans ((sizeRules H).same hn p hp)⟩) hq
      exact e
    split at h
    · rename_i c hc
      cases h
      obtain ⟨d', rfl, hne, hd'⟩ := mkConcat_ok hc
      rw [Done]
      exact ⟨hne, (DoneL_iff _ _ _).2 fun q h => ⟨(hq q h).1, hd' q h⟩⟩
    · rename_i hc
      exact absurd hc (mkConcat_ne_compat fun q h => (hq q h).2)
    · cases h

theorem optDequant_done {s : Node} {q : Quantization} {d : Int × Int} {n' : Node}
    (hn : Plain (.dequant s q d)) (h : optDequant rec s q d = .ok n') : Done H n' := by
  have hs : Plain s := (sizeRules H).sub hn rfl
  unfold optDequant at h
  split at h
  · cases h
  · cases h
  · rename_i x tf dw a hx
    have g := hg _ _ hs hx
    obtain ⟨c1, _⟩ := (sizeRules H).cong hn rfl g.inv g.rel
    obtain ⟨w1, _⟩ := (sizeRules H).dequantWarp c1
    split at h
    · cases h
    · rename_i r hrr
      have := hr _ _ w1 hrr
      rwa [finish_done hg hr this h]
  · rename_i s' hnd hnw hx
    have g := hg _ _ hs hx
    obtain ⟨c1, _⟩ := (sizeRules H).cong hn rfl g.inv g.rel
    refine finish_op hg hr c1 (by simp [setSub, selects]) ?_ h
    intro hnc
    simp only [setSub]
    rw [Done]
    have hd := hr _ _ hs hx
    refine ⟨hd, ?_⟩
    cases s' with
    | leaf _ => trivial
    | overview _ _ _ => trivial
    | crop _ _ _ _ _ _ => trivial
    | concat ps d' => exact absurd rfl (hnc ps d')
    | warp _ _ _ _ => exact (hnw _ _ _ _ rfl).elim
    | dequant _ _ _ => exact (hnd _ _ _ rfl).elim

theorem cropConcat_done {ps : List Node} {d : Int × Int} {y0 y1 x0 x1 : Int} {c : Option (List Nat)}
    {n' : Node} (hn : Plain (.crop (.concat ps d) y0 y1 x0 x1 c))
    (h : cropConcat rec ps d y0 y1 x0 x1 c = .ok n') : Done H n' := by
  unfold cropConcat at h
  split at h
  · cases h
  · rename_i taken ht
    split at h
    · cases h
    · rename_i cr hcr
      have k1 : Plain cr := by
        cases c with
        | none =>
          cases ht
          exact ((sizeRules H).renorm hn hcr).1
        | some c =>
          simp only at ht
          split at ht
          · cases ht
          · rename_i t htt
            obtain ⟨k1, k2⟩ := (sizeRules H).take hn htt
            have g := hg _ _ k1 ht
            exact (k2 _ _ g.inv g.rel hcr).1
      have hform := mkCrop_ints hcr
      split at h
      · rename_i qs dq
        split at h
        · cases h
        · exact hr _ _ k1 h
        · rename_i p hp
          obtain ⟨p1, _⟩ := (sizeRules H).push (d := dq) k1 (by rw [hform]; rfl)
            (by rw [hform]; simp [selects]) hp
          exact hr _ _ p1 h
      · exact hr _ _ k1 h

/-- What a crop may be over after fusing. -/
def preDone (H : Heur) : Node → Prop
  | .leaf l => l.nan = false
  | .concat _ _ => True
  | .crop .. => False
  | n => Done H n

theorem cropRest_done {s : Node} {y0 y1 x0 x1 : Int} {c : Option (List Nat)} {n' : Node}
    (hn : Plain (.crop s y0 y1 x0 x1 c)) (hs : preDone H s) (h : cropRest rec s y0 y1 x0 x1 c = .ok n') :
    Done H n' := by
  unfold cropRest at h
  split at h
  · rename_i x tf dw a
    split at h
    · rename_i ha
      cases h
      rw [Done]
      exact ⟨hs, .inl ha⟩
    · split at h
      · cases h
      · rename_i hz
        cases h
        rw [Done]
        refine ⟨hs, .inr ?_⟩
        unfold warpAfterCrop at hz
        split at hz
        · assumption
        · simp only at hz
          split at hz
          · cases hz
          · cases hz
      · rename_i inner tf' hz
        obtain ⟨w1, _⟩ := (sizeRules H).warpAfterCrop hn hz
        split at h
        · cases h
        · rename_i r hrr
          have := hr _ _ w1 hrr
          rwa [finishCrop_done hg hr this h]
  · obtain ⟨w1, _⟩ := (sizeRules H).dequantCrop hn
    split at h
    · cases h
    · rename_i r hrr
      have := hr _ _ w1 hrr
      rwa [finishCrop_done hg hr this h]
  · rename_i hnw hnd
    cases s with
    | concat ps d => exact cropConcat_done hg hr hn h
    | crop _ _ _ _ _ _ => exact hs.elim
    | warp _ _ _ _ => exact (hnw _ _ _ _ rfl).elim
    | dequant _ _ _ => exact (hnd _ _ _ rfl).elim
    | leaf l =>
      simp only [finishCrop, finish, subOf, Except.ok.injEq] at h
      subst h
      rw [Done, Done]
      exact ⟨trivial, hs⟩
    | overview x k d => exact hs.elim

theorem optCrop_done {s : Node} {y0 y1 x0 x1 : Int} {c : Option (List Nat)} {n' : Node}
    (hn : Plain (.crop s y0 y1 x0 x1 c)) (h : optCrop rec s y0 y1 x0 x1 c = .ok n') : Done H n' := by
  have hs : Plain s := (sizeRules H).sub hn rfl
  unfold optCrop at h
  split at h
  · cases h
  · rename_i s' hx
    have g := hg _ _ hs hx
    have hd := hr _ _ hs hx
    obtain ⟨c1, _⟩ := (sizeRules H).cong hn rfl g.inv g.rel
    simp only [setSub] at c1
    cases s' with
    | crop s1 iy0 iy1 ix0 ix1 ic =>
      simp only at h
      split at h
      · cases h
      · rename_i s2 y0' y1' x0' x1' c' hf
        obtain ⟨f1, _⟩ := (sizeRules H).fuseCrops c1 hf
        obtain ⟨_, _, _, _, _, e⟩ := fuseCrops_form hf
        cases e
        rw [Done] at hd
        split at h
        · rename_i l hl
          cases s1 with
          | leaf l' =>
            have : l'.nan = false := hd.2
            simp only [this, Bool.false_eq_true, if_false] at hl
            cases hl
          | _ => cases hl
        · refine cropRest_done hg hr f1 ?_ h
          cases s1 with
          | leaf l => exact hd.2
          | concat _ _ => exact hd.2.elim
          | crop _ _ _ _ _ _ => exact hd.2.elim
          | warp _ _ _ _ => exact hd.1
          | dequant _ _ _ => exact hd.2.elim
          | overview _ _ _ => exact hd.1
      · rename_i n hne hf
        obtain ⟨_, _, _, _, _, e⟩ := fuseCrops_form hf
        exact (hne _ _ _ _ _ _ e).elim
    | leaf l =>
      simp only at h
      split at h
      · rename_i l' hl
        split at hl
        · rename_i hnan
          cases hl
          split at h
          · cases h
          · rename_i r hrr
            exact hr _ _ ((sizeRules H).nanCrop c1 hnan hrr).1 h
        · cases hl
      · rename_i hl
        refine cropRest_done hg hr c1 ?_ h
        cases hln : l.nan with
        | false => exact hln
        | true => rw [hln] at hl; simp at hl
    | concat _ _ => exact cropRest_done hg hr c1 trivial h
    | warp _ _ _ _ => exact cropRest_done hg hr c1 hd h
    | dequant _ _ _ => exact cropRest_done hg hr c1 hd h
    | overview _ _ _ => exact cropRest_done hg hr c1 hd h

theorem warpRest_done {s : Node} {tf : Affine} {d : Int × Int} {a : Algo} {n' : Node}
    (hn : Plain (.warp s tf d a)) (hs : Done H s) (hw : ∀ x t e b, s ≠ .warp x t e b)
    (h : warpRest H rec s tf d a = .ok n') : Done H n' := by
  have hps : Plain s := (sizeRules H).sub hn rfl
  by_cases hz : d = s.dsize ∧ H.negl a.noopEps tf = true
  · unfold warpRest at h
    rw [if_pos hz] at h
    cases h
    exact hs
  · by_cases hc : ∃ ps e, s = .concat ps e
    · obtain ⟨ps, e, rfl⟩ := hc
      unfold warpRest at h
      rw [if_neg hz] at h
      simp only at h
      split at h
      · cases h
      · rename_i hnone
        exact absurd hnone (pushUnder_ne_none ((sizeRules H).same hps))
      · rename_i p hp
        exact hr _ _ ((sizeRules H).push hn rfl (by simp [selects]) hp).1 h
    · have hnc : ∀ ps e, s ≠ .concat ps e := fun ps e he => hc ⟨ps, e, he⟩
      obtain ⟨o, hnum⟩ := numOverviews_chain s hps.noOv hs hnc
      by_cases hsol : solid s
      · rw [warpRest_noOv hps.noOv hnum hnc hsol hz, Except.ok.injEq] at h
        subst h
        rw [Done]
        refine ⟨hs, ?_, hsol, hz⟩
        cases s with
        | concat ps dc => exact absurd rfl (hnc _ _)
        | warp x t e b => exact absurd rfl (hw x t e b)
        | leaf _ => trivial
        | overview _ _ _ => trivial
        | crop _ _ _ _ _ _ => trivial
        | dequant _ _ _ => trivial
      · cases s with
        | leaf l =>
          have hnan : l.nan = true := by simpa [solid] using hsol
          unfold warpRest at h
          rw [if_neg hz] at h
          simp only [hnan, if_true] at h
          exact hr _ _ ((sizeRules H).nanWarp hn hnan).1 h
        | _ => exact absurd trivial hsol

theorem optWarp_done {s : Node} {tf : Affine} {d : Int × Int} {a : Algo} {n' : Node}
    (hn : Plain (.warp s tf d a)) (h : optWarp H rec s tf d a = .ok n') : Done H n' := by
  have hs : Plain s := (sizeRules H).sub hn rfl
  unfold optWarp at h
  split at h
  · cases h
  · rename_i s1 tf1 d1 a1 hx
    have g := hg _ _ hs hx
    have hd := hr _ _ hs hx
    obtain ⟨c1, _⟩ := (sizeRules H).cong hn rfl g.inv g.rel
    obtain ⟨w1, _⟩ := (sizeRules H).fuseWarps c1
    rw [Done] at hd
    refine warpRest_done hg hr w1 hd.1 ?_ h
    rintro x t e b rfl
    exact hd.2.1
  · rename_i s' hnw hx
    have g := hg _ _ hs hx
    obtain ⟨c1, _⟩ := (sizeRules H).cong hn rfl g.inv g.rel
    exact warpRest_done hg hr c1 (hr _ _ hs hx) (fun x t e b he => hnw x t e b he) h

end

/-- No rule applies to the results of `optimize` without overviews. -/
theorem opt_done (fuel : Nat) : ∀ n n' : Node, Plain n → opt H fuel n = .ok n' → Done H n' := by
  induction fuel with
  | zero => intro n n' _ h; simp [opt] at h
  | succ fuel ih =>
    intro n n' hn h
    have hg : RecOk H Plain SameDims true (opt H fuel) :=
      opt_good (sizeRules H) (fun _ _ _ h => h.1) fuel
    rw [opt] at h
    cases n with
    | leaf l =>
      simp only [optStep, Except.ok.injEq] at h
      subst h
      trivial
    | concat ps d => exact optConcat_done hg ih hn h
    | warp s tf d a => exact optWarp_done hg ih hn h
    | crop s y0 y1 x0 x1 c => exact optCrop_done hg ih hn h
    | overview s k d => exact hn.noOv.elim
    | dequant s q d => exact optDequant_done hg ih hn h

end Tree
end Verif
