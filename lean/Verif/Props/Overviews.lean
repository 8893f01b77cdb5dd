/-
C91: `num_overviews` counts the overviews that are left in the files, and overviews that are announced are
read and not simulated.
-/
import Verif.Terminate
import Verif.Total
import Verif.Props.Files
import Verif.Props.Types

namespace Verif.Props

open Verif.Tree Verif.Tree.Node Verif.Gdal Verif.Helpers

/-! ### Specification -/

mutual
/-- The leaves of an image, each with the number of levels that are taken above it. -/
def depths : Node → List (Leaf × Int)
  | .leaf l => [(l, 0)]
  | .concat ps _ => depthsL ps
  | .warp s _ _ _ => depths s
  | .crop s _ _ _ _ _ => depths s
  | .overview s k _ => (depths s).map (fun p => (p.1, p.2 + k))
  | .dequant s _ _ => depths s
def depthsL : List Node → List (Leaf × Int)
  | [] => []
  | p :: ps => depths p ++ depthsL ps
end

/-- All leaves say how many overviews they have, and after those that are taken `v` are left of each. -/
def LeavesLeft (n : Node) (v : Int) : Prop := ∀ p ∈ depths n, p.1.overviews = some (v + p.2)

mutual
/-- Wherever an overview is taken, the same number is left of all leaves below. -/
def SameLeft : Node → Prop
  | .leaf _ => True
  | .concat ps _ => SameLeftL ps
  | .warp s _ _ _ => SameLeft s
  | .crop s _ _ _ _ _ => SameLeft s
  | .overview s _ _ => SameLeft s ∧ ∃ v, LeavesLeft s v
  | .dequant s _ _ => SameLeft s
def SameLeftL : List Node → Prop
  | [] => True
  | p :: ps => SameLeft p ∧ SameLeftL ps
end

/-! ### Lemmas -/

namespace OverviewsAux

theorem left_overview {s : Node} {k : Int} {d : Int × Int} {v : Int} :
    LeavesLeft (.overview s k d) v ↔ LeavesLeft s (v + k) := by
  unfold LeavesLeft
  rw [depths]
  simp only [List.mem_map, forall_exists_index, and_imp, forall_apply_eq_imp_iff₂]
  refine forall₂_congr fun p _ => ?_
  rw [show v + (p.2 + k) = v + k + p.2 by omega]

theorem left_concat {ps : List Node} {d : Int × Int} {v : Int} :
    LeavesLeft (.concat ps d) v ↔ ∀ p ∈ ps, LeavesLeft p v := by
  unfold LeavesLeft
  rw [depths]
  induction ps with
  | nil => simp [depthsL]
  | cons p ps ih =>
    rw [depthsL]
    simp only [List.mem_append, List.mem_cons, forall_eq_or_imp, ← ih]
    exact ⟨fun h => ⟨fun q hq => h q (.inl hq), fun q hq => h q (.inr hq)⟩,
      fun h q hq => hq.elim (h.1 q) (h.2 q)⟩

theorem countsL_iff {ps : List Node} : SameLeftL ps ↔ ∀ p ∈ ps, SameLeft p := by
  induction ps with
  | nil => simp [SameLeftL]
  | cons p ps ih => simp [SameLeftL, ih]

theorem numL_ok : ∀ {ps : List Node} {cs : List (Option Int)}, numOverviewsL ps = .ok cs ↔
    List.Forall₂ (fun p c => numOverviews p = .ok c) ps cs
  | [], cs => by
    simp only [numOverviewsL, Except.ok.injEq]
    exact ⟨fun h => h ▸ .nil, fun h => by cases h; rfl⟩
  | p :: ps, cs => by
    rw [numOverviewsL]
    constructor
    · intro h
      cases h1 : numOverviews p with
      | error e => simp [h1] at h
      | ok c =>
        cases h2 : numOverviewsL ps with
        | error e => simp [h1, h2] at h
        | ok ds =>
          simp only [h1, h2, Except.ok.injEq] at h
          subst h
          exact .cons h1 (numL_ok.1 h2)
    · intro h
      cases h with
      | cons h1 h2 => simp only [h1, numL_ok.2 h2]

end OverviewsAux
open OverviewsAux

mutual
theorem num_some : ∀ (n : Node), WF n → ∀ v, numOverviews n = .ok (some v) ↔ LeavesLeft n v
  | .leaf l, _, v => by simp [numOverviews, LeavesLeft, depths]
  | .concat ps d, hw, v => by
    rw [left_concat, numOverviews]
    rw [WF] at hw
    have ih := num_someL d ps hw.2
    constructor
    · intro h
      cases hl : numOverviewsL ps with
      | error e => simp [hl] at h
      | ok cs =>
        cases cs with
        | nil => simp [hl] at h
        | cons c cs =>
          simp only [hl, Except.ok.injEq] at h
          split at h
          · rename_i hall
            subst h
            intro p hp
            obtain ⟨c', hc', e⟩ := forall₂_mem_right (numL_ok.1 hl).flip hp
            refine (ih p hp v).1 ?_
            rw [e]
            rcases List.mem_cons.1 hc' with rfl | hc'
            · rfl
            · rw [of_decide_eq_true (List.all_eq_true.1 hall c' hc')]
          · cases h
    · intro h
      have : numOverviewsL ps = .ok (ps.map fun _ => some v) := by
        rw [numL_ok, List.forall₂_map_right_iff]
        exact List.forall₂_same.2 fun p hp => (ih p hp v).2 (h p hp)
      cases ps with
      | nil => exact absurd rfl hw.1
      | cons p ps => simp [this]
  | .warp s _ _ _, hw, v => by
    rw [WF] at hw; rw [numOverviews]; exact num_some s hw.1 v
  | .crop s _ _ _ _ _, hw, v => by
    rw [WF] at hw; rw [numOverviews]; exact num_some s hw.1 v
  | .dequant s _ _, hw, v => by
    rw [WF] at hw; rw [numOverviews]; exact num_some s hw v
  | .overview s k d, hw, v => by
    rw [WF] at hw
    have ih := num_some s hw
    rw [left_overview, ← ih, numOverviews]
    cases numOverviews s with
    | error e => simp
    | ok c =>
      cases c with
      | none => simp
      | some c =>
        simp only [Except.ok.injEq, Option.some.injEq]
        omega
theorem num_someL : ∀ (d : Int × Int) (ps : List Node), WFL d ps → ∀ p ∈ ps, ∀ v,
    numOverviews p = .ok (some v) ↔ LeavesLeft p v
  | _, [], _, p, hp, _ => by cases hp
  | d, q :: ps, hw, p, hp, v => by
    rw [WFL] at hw
    rcases List.mem_cons.1 hp with e | hp
    · exact e ▸ num_some q hw.1 v
    · exact num_someL d ps hw.2.2 p hp v
end

mutual
theorem num_counts : ∀ (n : Node), WF n →
    (SameLeft n → ∃ c, numOverviews n = .ok c) ∧ (¬ SameLeft n → numOverviews n = .error .typeError)
  | .leaf l, _ => ⟨fun _ => ⟨_, rfl⟩, fun h => absurd trivial h⟩
  | .concat ps d, hw => by
    rw [WF] at hw
    obtain ⟨i1, i2⟩ := num_countsL d ps hw.2
    rw [SameLeft, numOverviews]
    constructor
    · intro h
      obtain ⟨cs, hcs⟩ := i1 h
      cases cs with
      | nil => cases numL_ok.1 hcs; exact absurd rfl hw.1
      | cons c cs => rw [hcs]; exact ⟨_, rfl⟩
    · intro h
      simp only [i2 h]
  | .warp s _ _ _, hw => by rw [WF] at hw; rw [SameLeft, numOverviews]; exact num_counts s hw.1
  | .crop s _ _ _ _ _, hw => by rw [WF] at hw; rw [SameLeft, numOverviews]; exact num_counts s hw.1
  | .dequant s _ _, hw => by rw [WF] at hw; rw [SameLeft, numOverviews]; exact num_counts s hw
  | .overview s k d, hw => by
    rw [WF] at hw
    obtain ⟨i1, i2⟩ := num_counts s hw
    rw [SameLeft, numOverviews]
    constructor
    · rintro ⟨_, v, hv⟩
      rw [(num_some s hw v).2 hv]
      exact ⟨_, rfl⟩
    · intro h
      by_cases hs : SameLeft s
      · obtain ⟨c, hc⟩ := i1 hs
        rw [hc]
        cases c with
        | none => rfl
        | some v => exact absurd ⟨hs, v, (num_some s hw v).1 hc⟩ h
      · rw [i2 hs]
theorem num_countsL : ∀ (d : Int × Int) (ps : List Node), WFL d ps →
    (SameLeftL ps → ∃ c, numOverviewsL ps = .ok c) ∧ (¬ SameLeftL ps → numOverviewsL ps = .error .typeError)
  | _, [], _ => ⟨fun _ => ⟨_, rfl⟩, fun h => absurd trivial h⟩
  | d, q :: ps, hw => by
    rw [WFL] at hw
    obtain ⟨i1, i2⟩ := num_counts q hw.1
    obtain ⟨j1, j2⟩ := num_countsL d ps hw.2.2
    rw [SameLeftL, numOverviewsL]
    constructor
    · rintro ⟨h1, h2⟩
      obtain ⟨c, hc⟩ := i1 h1
      obtain ⟨cs, hcs⟩ := j1 h2
      rw [hc, hcs]; exact ⟨_, rfl⟩
    · intro h
      by_cases hq : SameLeft q
      · obtain ⟨c, hc⟩ := i1 hq
        simp only [hc, j2 (fun hp => h ⟨hq, hp⟩)]
      · simp only [i2 hq]
end

/-! ### C91 -/

/-- C91: `num_overviews` of an image is a number just if it is the number of overviews left of every leaf
after those that are taken above it. -/
theorem C91_number {n : Node} (hb : Built n) (v : Int) : numOverviews n = .ok (some v) ↔ LeavesLeft n v :=
  num_some n hb.ok.1 v

/-- C91: otherwise it is unknown, and asking for it is a TypeError just if that is so for the source of an
overview somewhere in the image. -/
theorem C91_unknown {n : Node} (hb : Built n) :
    (numOverviews n = .ok none ↔ SameLeft n ∧ ¬ ∃ v, LeavesLeft n v) ∧
    (∀ e, numOverviews n = .error e ↔ e = .typeError ∧ ¬ SameLeft n) := by
  obtain ⟨h1, h2⟩ := num_counts n hb.ok.1
  have h3 := num_some n hb.ok.1
  by_cases hc : SameLeft n
  · obtain ⟨c, e⟩ := h1 hc
    refine ⟨?_, fun e' => by simp [e, hc]⟩
    rw [e]
    cases c with
    | none =>
      refine ⟨fun _ => ⟨hc, fun ⟨v, hv⟩ => ?_⟩, fun _ => rfl⟩
      have := (h3 v).2 hv
      rw [e] at this
      cases this
    | some v =>
      refine ⟨fun h => (by cases h), fun h => absurd ⟨v, (h3 v).1 e⟩ h.2⟩
  · have e := h2 hc
    refine ⟨by simp [e, hc], fun e' => ?_⟩
    rw [e]
    simp only [Except.error.injEq, hc, not_false_eq_true, and_true]
    exact eq_comm

/-! ### Overviews that are stored -/

mutual
/-- Every overview in an image is one that the file has. -/
def HasLevels (G : Files) : Node → Prop
  | .leaf _ => True
  | .concat ps _ => HasLevelsL G ps
  | .warp s _ _ _ => HasLevels G s
  | .crop s _ _ _ _ _ => HasLevels G s
  | .overview s k d => HasLevels G s ∧ levelIn G (.overview s k d) ≠ none
  | .dequant s _ _ => HasLevels G s
def HasLevelsL (G : Files) : List Node → Prop
  | [] => True
  | p :: ps => HasLevels G p ∧ HasLevelsL G ps
end

/-- Leaves that are files, with the number of overviews that the file has. -/
def Counted (G : Files) (l : Leaf) : Prop :=
  l.nan = false ∧ ∃ f, G.file l.id = some f ∧ l.overviews = some (f.first.ovs.length : Int)

/-- With another way to simulate overviews. -/
def Files.simulating (G : Files) (g : Int → Img Val → Img Val) : Files := { G with shrink := g }

namespace OverviewsAux

theorem see_level {G : Files} : ∀ (n : Node) (id : Nat) (o : Int), levelIn G n = some (id, o) →
    ∃ f, G.file id = some f ∧ see G n = .ok (.ref ⟨f, o, G.method id⟩)
  | .leaf l, id, o, h => by
    unfold levelIn at h
    rw [Tree.see]
    split at h
    · cases h
    · rename_i hn
      rw [if_neg hn]
      split at h
      · cases h
      · rename_i f hf
        cases h
        exact ⟨f, hf, by rw [hf]; rfl⟩
  | .concat [] _, _, _, h => by unfold levelIn at h; cases h
  | .concat [p] _, id, o, h => by
    unfold levelIn at h
    obtain ⟨f, h1, h2⟩ := see_level p id o h
    exact ⟨f, h1, by simp [Tree.see, Tree.seeL, h2, Files.join]⟩
  | .concat (p :: q :: ps) _, _, _, h => by unfold levelIn at h; cases h
  | .warp _ _ _ _, _, _, h => by unfold levelIn at h; cases h
  | .crop _ _ _ _ _ _, _, _, h => by unfold levelIn at h; cases h
  | .dequant _ _ _, _, _, h => by unfold levelIn at h; cases h
  | .overview s k _, id, o, h => by
    unfold levelIn at h
    cases hl : levelIn G s with
    | none => simp [hl] at h
    | some q =>
      obtain ⟨id', o'⟩ := q
      obtain ⟨f, h1, h2⟩ := see_level s id' o' hl
      simp only [hl, h1] at h
      split at h
      · rename_i hle
        cases h
        refine ⟨f, h1, ?_⟩
        have : Lazy.numOverviews ⟨f, o', G.method id⟩ ≥ k := by
          simp only [Lazy.numOverviews]; omega
        simp only [Tree.see, h2, Files.coarser, if_pos this]
        simp [Lazy.getOverview, Lazy.getAbsoluteOverview, Lazy.new, add_comm]
      · cases h

theorem firm_and {P Q : Node → Prop} (hP : Firm P) (hQ : Firm Q) : Firm (fun n => P n ∧ Q n) where
  sub := fun h e => ⟨hP.sub h.1 e, hQ.sub h.2 e⟩
  parts := fun h p hp => ⟨hP.parts h.1 p hp, hQ.parts h.2 p hp⟩
  concat := fun d h hq => ⟨hP.concat d h.1 fun q e => (hq q e).1, hQ.concat d h.2 fun q e => (hq q e).2⟩
  crop := fun _ _ _ _ _ h => ⟨hP.crop _ _ _ _ _ h.1, hQ.crop _ _ _ _ _ h.2⟩
  deq := fun _ _ h => ⟨hP.deq _ _ h.1, hQ.deq _ _ h.2⟩
  warp := fun _ _ h h' => ⟨hP.warp _ _ h.1 h'.1, hQ.warp _ _ h.2 h'.2⟩
  common := fun h => ⟨hP.common h.1, hQ.common h.2⟩
  ovOfWarp := fun _ _ h e e' => ⟨hP.ovOfWarp _ _ h.1 e e', hQ.ovOfWarp _ _ h.2 e e'⟩
  ov := fun _ _ h h' => ⟨hP.ov _ _ h.1 h'.1, hQ.ov _ _ h.2 h'.2⟩
  warpOfOv := fun _ _ h h' => ⟨hP.warpOfOv _ _ h.1 h'.1, hQ.warpOfOv _ _ h.2 h'.2⟩

theorem loadAll_simulating (G : Files) (g : Int → Img Val → Img Val) (rs : List Seen) :
    (Files.simulating G g).loadAll rs = G.loadAll rs := by
  induction rs with
  | nil => rfl
  | cons r rs ih =>
    have : (Files.simulating G g).load r = G.load r := by cases r <;> rfl
    simp only [Files.loadAll, ih, this]

theorem join_simulating (G : Files) (g : Int → Img Val → Img Val) (rs : List Seen) :
    (Files.simulating G g).join rs = G.join rs := by
  unfold Files.join
  simp only [loadAll_simulating]

theorem load_simulating (G : Files) (g : Int → Img Val → Img Val) (r : Seen) :
    (Files.simulating G g).load r = G.load r := by cases r <;> rfl

theorem cut_simulating (G : Files) (g : Int → Img Val → Img Val) (y0 y1 x0 x1 : Int) (c : Option (List Nat))
    (r : Seen) : (Files.simulating G g).cut y0 y1 x0 x1 c r = G.cut y0 y1 x0 x1 c r := by cases r <;> rfl

end OverviewsAux
open OverviewsAux

mutual
theorem see_stored {G : Files} (g : Int → Img Val → Img Val) : ∀ n : Node, HasLevels G n →
    see (Files.simulating G g) n = see G n
  | .leaf l, _ => by rw [Tree.see, Tree.see]; rfl
  | .concat ps _, h => by
    rw [HasLevels] at h
    rw [Tree.see, Tree.see, see_storedL g ps h]
    simp only [join_simulating]
  | .warp s tf d a, h => by
    rw [HasLevels] at h
    rw [Tree.see, Tree.see, see_stored g s h]
    simp only [load_simulating]
    rfl
  | .crop s _ _ _ _ _, h => by
    rw [HasLevels] at h
    rw [Tree.see, Tree.see, see_stored g s h]
    simp only [cut_simulating]
  | .dequant s _ _, h => by
    rw [HasLevels] at h
    rw [Tree.see, Tree.see, see_stored g s h]
    simp only [load_simulating]
    rfl
  | .overview s k d, h => by
    rw [HasLevels] at h
    rw [Tree.see, Tree.see, see_stored g s h.1]
    cases hl : levelIn G s with
    | none => exact absurd (by unfold levelIn; simp only [hl]) h.2
    | some q =>
      obtain ⟨id, o⟩ := q
      obtain ⟨f, h1, h2⟩ := see_level s id o hl
      have hle : o + k ≤ f.first.ovs.length := by
        by_contra hc
        exact h.2 (by unfold levelIn; simp only [hl, h1, if_neg hc])
      have : Lazy.numOverviews ⟨f, o, G.method id⟩ ≥ k := by
        simp only [Lazy.numOverviews]; omega
      simp only [h2, Files.coarser, if_pos this]
theorem see_storedL {G : Files} (g : Int → Img Val → Img Val) : ∀ ps : List Node, HasLevelsL G ps →
    seeL (Files.simulating G g) ps = seeL G ps
  | [], _ => rfl
  | p :: ps, h => by
    rw [HasLevelsL] at h
    rw [Tree.seeL, Tree.seeL, see_stored g p h.1, see_storedL g ps h.2]
end

theorem finalSee_stored {G : Files} (g : Int → Img Val → Img Val) {n : Node} (h : HasLevels G n) :
    finalSee (Files.simulating G g) n = finalSee G n := by
  rw [finalSee, finalSee, see_stored g n h]
  simp only [load_simulating]

/-- An image that is optimized and has enough overviews. -/
theorem nf_stored {H : Heur} {G : Files} : ∀ (n : Node), NF H false n → Solo n → Each (Counted G) n →
    ∀ {D : Prop} {L j : Int}, 0 ≤ L → L ≤ j → Tree.Calm D L j n → HasLevels G n
  | .leaf l, _, _, _, _, _, _, _, _, _ => by rw [HasLevels]; trivial
  | .concat _ _, _, h, _, _, _, _, _, _, _ => h.elim
  | .warp s tf _ _, hn, hs, he, _, _, _, h0, hj, hc => by
    rw [NF] at hn; rw [Tree.Calm] at hc; rw [HasLevels]
    exact nf_stored s hn.1 hs he h0 (by omega) hc
  | .crop s _ _ _ _ _, hn, hs, he, _, _, _, h0, hj, hc => by
    rw [NF] at hn; rw [Tree.Calm] at hc; rw [HasLevels]
    exact nf_stored s hn.1 hs he h0 hj hc
  | .dequant s _ _, hn, hs, he, _, _, _, h0, hj, hc => by
    rw [NF] at hn; rw [Tree.Calm] at hc; rw [HasLevels]
    exact nf_stored s hn.1 hs he h0 hj hc
  | .overview s k d, hn, hs, he, _, _, _, h0, hj, hc => by
    rw [NF] at hn; rw [Tree.Calm] at hc; rw [HasLevels]
    obtain ⟨_, hk, hl⟩ := hn
    cases s with
    | leaf l =>
      obtain ⟨e1, f, e2, e3⟩ : Counted G l := he
      refine ⟨by rw [HasLevels]; trivial, ?_⟩
      obtain ⟨hk0, hc⟩ := hc
      rw [Tree.Calm, e3] at hc
      have hle : k ≤ f.first.ovs.length := by
        rcases hc with h | ⟨h, _⟩ | ⟨_, h⟩
        · cases h
        · omega
        · have := h _ rfl; omega
      unfold levelIn levelIn
      simp [e1, e2, hle]
    | _ => exact hl.elim

/-- C91: overviews that a file has are read from it and not computed.  Take any image made of one file by
crops, channel selections, dequantizations, overviews and scalings along the axes, such that the file has
as many overviews as are taken and as the scalings shrink altogether.  What `finalize()` shows does not
depend on how `imresize` would simulate overviews.  Missing: images of several files, images in memory and
other warps. -/
theorem C91_optimized_partial (H : Heur) (hH : H.Coded) (G : Files) (fuel : Nat) {n : Node} (hb : Built n)
    (hs : Solo n) (he : Each (Counted G) n) (hc : Tree.Calm True 0 0 n) (g : Int → Img Val → Img Val) :
    finalizeFiles H (Files.simulating G g) fuel n = finalizeFiles H G fuel n := by
  have hR : Rules H (fun n => Tree.Tame n ∧ (Solo n ∧ Each (Counted G) n)) Tree.Keeps := by
    refine keepRulesIn H (tameRules H hH) ?_ ?_ ?_ ?_
    · exact firm_and stable_solo.toFirm (firm_each _)
    · intro ps d _ _ _ _ _ _ _ h _; exact h.1.elim
    · intro l _ _ _ _ hn h
      have : l.nan = false := (show Counted G l from h.2).1
      rw [hn] at this; cases this
    · intro l _ _ _ _ _ _ _ hn h _
      have : l.nan = false := (show Counted G l from h.2).1
      rw [hn] at this; cases this
  unfold finalizeFiles
  cases hm : opt H fuel n with
  | error e => rfl
  | ok m =>
    obtain ⟨⟨ht, hq⟩, _, hnf⟩ := opt_good (deep := false) hR (fun h => by cases h) fuel n m
      ⟨⟨hb.ok.1, hc⟩, hs, he⟩ hm
    exact finalSee_stored g (nf_stored m hnf hq.1 hq.2 (le_refl 0) (le_refl 0) ht.2)

/-! #### several files -/

/-- Two invariants with two relations. -/
theorem rules_and {H : Heur} {P Q : Node → Prop} {R S : Node → Node → Prop} (h : Rules H P R)
    (g : Rules H Q S) : Rules H (fun n => P n ∧ Q n) (fun a b => R a b ∧ S a b) where
  refl := fun n => ⟨h.refl n, g.refl n⟩
  trans := fun a b => ⟨h.trans a.1 b.1, g.trans a.2 b.2⟩
  sub := fun a e => ⟨h.sub a.1 e, g.sub a.2 e⟩
  parts := fun a p hp => ⟨h.parts a.1 p hp, g.parts a.2 p hp⟩
  same := fun a => h.same a.1
  nan := fun a => h.nan a.1
  cong := fun a e b r => ⟨⟨(h.cong a.1 e b.1 r.1).1, (g.cong a.2 e b.2 r.2).1⟩,
    (h.cong a.1 e b.1 r.1).2, (g.cong a.2 e b.2 r.2).2⟩
  concat := fun a f e =>
    have x := h.concat a.1 (f.imp fun _ _ w => ⟨w.1.1, w.2.1⟩) e
    have y := g.concat a.2 (f.imp fun _ _ w => ⟨w.1.2, w.2.2⟩) e
    ⟨⟨x.1, y.1⟩, x.2, y.2⟩
  push := fun a e f w => ⟨⟨(h.push a.1 e f w).1, (g.push a.2 e f w).1⟩, (h.push a.1 e f w).2, (g.push a.2 e f w).2⟩
  fuseWarps := fun a => ⟨⟨(h.fuseWarps a.1).1, (g.fuseWarps a.2).1⟩, (h.fuseWarps a.1).2, (g.fuseWarps a.2).2⟩
  idWarp := fun a e w => ⟨h.idWarp a.1 e w, g.idWarp a.2 e w⟩
  nanWarp := fun a e => ⟨⟨(h.nanWarp a.1 e).1, (g.nanWarp a.2 e).1⟩, (h.nanWarp a.1 e).2, (g.nanWarp a.2 e).2⟩
  splitWarp := fun a e w s =>
    ⟨⟨(h.splitWarp a.1 e w s).1, (g.splitWarp a.2 e w s).1⟩, (h.splitWarp a.1 e w s).2, (g.splitWarp a.2 e w s).2⟩
  splitOv := fun a e w s c d =>
    ⟨⟨(h.splitOv a.1 e w s c d).1, (g.splitOv a.2 e w s c d).1⟩, (h.splitOv a.1 e w s c d).2,
      (g.splitOv a.2 e w s c d).2⟩
  splitCrop := fun a e w s c d =>
    ⟨⟨(h.splitCrop a.1 e w s c d).1, (g.splitCrop a.2 e w s c d).1⟩, (h.splitCrop a.1 e w s c d).2,
      (g.splitCrop a.2 e w s c d).2⟩
  absorb := fun a e w => ⟨⟨(h.absorb a.1 e w).1, (g.absorb a.2 e w).1⟩, (h.absorb a.1 e w).2, (g.absorb a.2 e w).2⟩
  nanCrop := fun a e w =>
    ⟨⟨(h.nanCrop a.1 e w).1, (g.nanCrop a.2 e w).1⟩, (h.nanCrop a.1 e w).2, (g.nanCrop a.2 e w).2⟩
  fuseCrops := fun a e => ⟨⟨(h.fuseCrops a.1 e).1, (g.fuseCrops a.2 e).1⟩, (h.fuseCrops a.1 e).2,
    (g.fuseCrops a.2 e).2⟩
  warpAfterCrop := fun a e => ⟨⟨(h.warpAfterCrop a.1 e).1, (g.warpAfterCrop a.2 e).1⟩, (h.warpAfterCrop a.1 e).2,
    (g.warpAfterCrop a.2 e).2⟩
  dequantCrop := fun a => ⟨⟨(h.dequantCrop a.1).1, (g.dequantCrop a.2).1⟩, (h.dequantCrop a.1).2,
    (g.dequantCrop a.2).2⟩
  take := fun a e =>
    have x := h.take a.1 e
    have y := g.take a.2 e
    ⟨⟨x.1, y.1⟩, fun t' cr p r w => ⟨⟨(x.2 t' cr p.1 r.1 w).1, (y.2 t' cr p.2 r.2 w).1⟩,
      (x.2 t' cr p.1 r.1 w).2, (y.2 t' cr p.2 r.2 w).2⟩⟩
  renorm := fun a e => ⟨⟨(h.renorm a.1 e).1, (g.renorm a.2 e).1⟩, (h.renorm a.1 e).2, (g.renorm a.2 e).2⟩
  cropAfterOverview := fun a e => ⟨⟨(h.cropAfterOverview a.1 e).1, (g.cropAfterOverview a.2 e).1⟩,
    (h.cropAfterOverview a.1 e).2, (g.cropAfterOverview a.2 e).2⟩
  warpAfterOverview := fun a => ⟨⟨(h.warpAfterOverview a.1).1, (g.warpAfterOverview a.2).1⟩,
    (h.warpAfterOverview a.1).2, (g.warpAfterOverview a.2).2⟩
  dequantOverview := fun a => ⟨⟨(h.dequantOverview a.1).1, (g.dequantOverview a.2).1⟩,
    (h.dequantOverview a.1).2, (g.dequantOverview a.2).2⟩
  ov0 := fun a => ⟨h.ov0 a.1, g.ov0 a.2⟩
  fuseOv := fun a => ⟨⟨(h.fuseOv a.1).1, (g.fuseOv a.2).1⟩, (h.fuseOv a.1).2, (g.fuseOv a.2).2⟩
  dequantWarp := fun a => ⟨⟨(h.dequantWarp a.1).1, (g.dequantWarp a.2).1⟩, (h.dequantWarp a.1).2,
    (g.dequantWarp a.2).2⟩

mutual
/-- An image that is optimized with all its parts and has enough overviews. -/
theorem nf_storedAll {H : Heur} {G : Files} : ∀ (n : Node), NF H true n → Each (Counted G) n →
    ∀ {D : Prop} {L j : Int}, 0 ≤ L → L ≤ j → Tree.Calm D L j n → HasLevels G n
  | .leaf l, _, _, _, _, _, _, _, _ => by rw [HasLevels]; trivial
  | .concat ps _, hn, he, _, _, _, h0, hj, hc => by
    rw [NF] at hn; rw [Tree.Calm] at hc; rw [HasLevels]
    exact nf_storedAllL ps (hn rfl) he h0 hj hc
  | .warp s tf _ _, hn, he, _, _, _, h0, hj, hc => by
    rw [NF] at hn; rw [Tree.Calm] at hc; rw [HasLevels]
    exact nf_storedAll s hn.1 he h0 (by omega) hc
  | .crop s _ _ _ _ _, hn, he, _, _, _, h0, hj, hc => by
    rw [NF] at hn; rw [Tree.Calm] at hc; rw [HasLevels]
    exact nf_storedAll s hn.1 he h0 hj hc
  | .dequant s _ _, hn, he, _, _, _, h0, hj, hc => by
    rw [NF] at hn; rw [Tree.Calm] at hc; rw [HasLevels]
    exact nf_storedAll s hn.1 he h0 hj hc
  | .overview s k d, hn, he, _, _, _, h0, hj, hc => by
    rw [NF] at hn; rw [Tree.Calm] at hc; rw [HasLevels]
    obtain ⟨_, hk, hl⟩ := hn
    cases s with
    | leaf l =>
      obtain ⟨e1, f, e2, e3⟩ : Counted G l := he
      refine ⟨by rw [HasLevels]; trivial, ?_⟩
      obtain ⟨hk0, hc⟩ := hc
      rw [Tree.Calm, e3] at hc
      have hle : k ≤ f.first.ovs.length := by
        rcases hc with h | ⟨h, _⟩ | ⟨_, h⟩
        · cases h
        · omega
        · have := h _ rfl; omega
      unfold levelIn levelIn
      simp [e1, e2, hle]
    | _ => exact hl.elim
theorem nf_storedAllL {H : Heur} {G : Files} : ∀ (ps : List Node), NFL H true ps → EachL (Counted G) ps →
    ∀ {D : Prop} {L j : Int}, 0 ≤ L → L ≤ j → Tree.CalmL D L j ps → HasLevelsL G ps
  | [], _, _, _, _, _, _, _, _ => by rw [HasLevelsL]; trivial
  | p :: ps, hn, he, _, _, _, h0, hj, hc => by
    rw [NFL] at hn; rw [Tree.CalmL] at hc; rw [HasLevelsL]
    exact ⟨nf_storedAll p hn.1 he.1 h0 hj hc.1, nf_storedAllL ps hn.2 he.2 h0 hj hc.2⟩
end

/-- No more overviews of a file are taken than it has. -/
def EnoughLeft (n : Node) : Prop := ∀ p ∈ depths n, ∃ o, p.1.overviews = some o ∧ p.2 ≤ o

mutual
theorem within_calm : ∀ (n : Node), NoWarp n → ∀ K : Int,
    (∀ p ∈ depths n, ∃ o, p.1.overviews = some o ∧ p.2 + K ≤ o) → Tree.Calm True K K n
  | .leaf l, _, K, h => by
    obtain ⟨o, h1, h2⟩ := h (l, 0) (by simp [depths])
    rw [Tree.Calm]
    refine .inr (.inr ⟨trivial, fun o' e => ?_⟩)
    rw [show l.overviews = some o from h1] at e
    cases e
    simpa using h2
  | .concat ps _, hn, K, h => by
    rw [NoWarp] at hn; rw [depths] at h; rw [Tree.Calm]
    exact within_calmL ps hn K h
  | .warp _ _ _ _, hn, _, _ => hn.elim
  | .crop s _ _ _ _ _, hn, K, h => by
    rw [NoWarp] at hn; rw [depths] at h; rw [Tree.Calm]
    exact within_calm s hn K h
  | .dequant s _ _, hn, K, h => by
    rw [NoWarp] at hn; rw [depths] at h; rw [Tree.Calm]
    exact within_calm s hn K h
  | .overview s k _, hn, K, h => by
    rw [NoWarp] at hn; rw [depths] at h; rw [Tree.Calm]
    refine ⟨hn.1, within_calm s hn.2.noWarp (K + k) fun p hp => ?_⟩
    obtain ⟨o, h1, h2⟩ := h (p.1, p.2 + k) (List.mem_map_of_mem hp)
    exact ⟨o, h1, by simp only at h2; omega⟩
theorem within_calmL : ∀ (ps : List Node), NoWarpL ps → ∀ K : Int,
    (∀ p ∈ depthsL ps, ∃ o, p.1.overviews = some o ∧ p.2 + K ≤ o) → Tree.CalmL True K K ps
  | [], _, _, _ => by rw [Tree.CalmL]; trivial
  | q :: ps, hn, K, h => by
    rw [NoWarpL] at hn; rw [depthsL] at h; rw [Tree.CalmL]
    exact ⟨within_calm q hn.1 K fun p hp => h p (List.mem_append_left _ hp),
      within_calmL ps hn.2 K fun p hp => h p (List.mem_append_right _ hp)⟩
end

/-- C91 for several files: take any image made of files by stacking, dequantizations, overviews, and then
crops and channel selections, any of them in any order and stacked again, such that no more overviews of a
file are taken than it has.  What `finalize()` shows does not depend on how `imresize` would simulate
overviews.  Missing: images in memory, warps, and crops below overviews (which are there for one file,
`C91_announced_partial`). -/
theorem C91_stacks_partial (H : Heur) (hH : H.Coded) (G : Files) (fuel : Nat) {n : Node} (hb : Built n)
    (hn : NoWarp n) (he : Each (Counted G) n) (hk : EnoughLeft n) (g : Int → Img Val → Img Val) :
    finalizeFiles H (Files.simulating G g) fuel n = finalizeFiles H G fuel n := by
  have hR : Rules H (fun n => (Crisp n ∧ Tree.Tame n) ∧ Each (Counted G) n) (fun a b => Tree.Same a b ∧ Tree.Keeps a b) := by
    refine keepRulesIn H (rules_and (exactRules H) (tameRules H hH)) (firm_each _) ?_ ?_ ?_
    · intro ps d _ _ _ _ c t _ h ht
      exact takeIdx_each _ h c t ht
    · intro l _ _ _ _ hn h
      have : l.nan = false := (show Counted G l from h).1
      rw [hn] at this; cases this
    · intro l _ _ _ _ _ _ _ hn h _
      have : l.nan = false := (show Counted G l from h).1
      rw [hn] at this; cases this
  unfold finalizeFiles
  cases hm : opt H fuel n with
  | error e => rfl
  | ok m =>
    have hc : Tree.Calm True 0 0 n := within_calm n hn 0 fun p hp => by simpa using hk p hp
    obtain ⟨⟨⟨_, ht⟩, hq⟩, _, hnf⟩ := opt_good (deep := true) hR (fun _ _ _ h => h.1.dsize) fuel n m
      ⟨⟨⟨hb.ok.1, hb.ok.2, hn⟩, hb.ok.1, hc⟩, he⟩ hm
    exact finalSee_stored g (nf_storedAll m hnf hq (le_refl 0) (le_refl 0) ht.2)

/-- C91 for several files: if a stack of files, dequantized and with overviews taken anywhere, says that it
has `v` overviews, then any of them is read. -/
theorem C91_stack_announced_partial (H : Heur) (hH : H.Coded) (G : Files) (fuel : Nat) {n : Node} (hb : Built n)
    (hn : Simple n) (he : Each (Counted G) n) {v : Int} (hv : numOverviews n = .ok (some v)) {k : Int}
    (hk : 0 ≤ k) (hkv : k ≤ v) (g : Int → Img Val → Img Val) :
    finalizeFiles H (Files.simulating G g) fuel (mkOverview n k) = finalizeFiles H G fuel (mkOverview n k) := by
  refine C91_stacks_partial H hH G fuel (.overview n k hb) ⟨hk, hn⟩ he (fun p hp => ?_) g
  have h := (C91_number (Built.overview n k hb) (v - k)).1 (by simp only [mkOverview, numOverviews, hv]) p hp
  exact ⟨_, h, by omega⟩

/-- A file, cropped, with channels selected, dequantized and with overviews taken, in any order. -/
def Unwarped : Node → Prop
  | .leaf _ => True
  | .concat _ _ => False
  | .warp _ _ _ _ => False
  | .crop s _ _ _ _ _ => Unwarped s
  | .overview s k _ => 0 ≤ k ∧ Unwarped s
  | .dequant s _ _ => Unwarped s

theorem unwarped_solo : ∀ n : Node, Unwarped n → Solo n
  | .leaf _, _ => trivial
  | .concat _ _, h => h
  | .warp _ _ _ _, h => h.elim
  | .crop s _ _ _ _ _, h => unwarped_solo s h
  | .overview s _ _, h => unwarped_solo s h.2
  | .dequant s _ _, h => unwarped_solo s h

theorem unwarped_calm : ∀ (n : Node), Unwarped n → ∀ (v L : Int), numOverviews n = .ok (some v) → L ≤ v →
    Tree.Calm True L L n
  | .leaf l, _, v, L, hn, hv => by
    rw [numOverviews, Except.ok.injEq] at hn
    rw [Tree.Calm, hn]
    exact .inr (.inr ⟨trivial, fun o ho => by cases ho; exact hv⟩)
  | .concat _ _, h, _, _, _, _ => h.elim
  | .warp _ _ _ _, h, _, _, _, _ => h.elim
  | .crop s _ _ _ _ _, h, v, L, hn, hv => by
    rw [numOverviews] at hn; rw [Tree.Calm]; exact unwarped_calm s h v L hn hv
  | .dequant s _ _, h, v, L, hn, hv => by
    rw [numOverviews] at hn; rw [Tree.Calm]; exact unwarped_calm s h v L hn hv
  | .overview s k _, h, v, L, hn, hv => by
    rw [numOverviews] at hn
    rw [Tree.Calm]
    cases hs : numOverviews s with
    | error e => simp [hs] at hn
    | ok c =>
      cases c with
      | none => simp [hs] at hn
      | some c =>
        simp only [hs, Except.ok.injEq, Option.some.injEq] at hn
        exact ⟨h.1, unwarped_calm s h.2 c (L + k) hs (by omega)⟩

/-- C91: overviews that are announced are there.  If an image made of one file by crops, channel
selections, dequantizations and overviews says that it has `v` overviews, `get_overview(k)` of it, for any
`k` up to `v`, is finalized from pixels in the file: what `finalize()` shows does not depend on how
`imresize` would simulate overviews.  Missing: images of several files and warps. -/
theorem C91_announced_partial (H : Heur) (hH : H.Coded) (G : Files) (fuel : Nat) {n : Node} (hb : Built n)
    (hu : Unwarped n) (he : Each (Counted G) n) {v : Int} (hv : numOverviews n = .ok (some v)) {k : Int}
    (hk : 0 ≤ k) (hkv : k ≤ v) (g : Int → Img Val → Img Val) :
    finalizeFiles H (Files.simulating G g) fuel (mkOverview n k) = finalizeFiles H G fuel (mkOverview n k) := by
  refine C91_optimized_partial H hH G fuel (.overview n k hb) (unwarped_solo _ ?_) he ?_ g
  · exact ⟨hk, hu⟩
  · refine unwarped_calm (mkOverview n k) ⟨hk, hu⟩ (v - k) 0 ?_ (by omega)
    simp only [mkOverview, numOverviews, hv]

/-- Nothing but overviews of a leaf. -/
def Levels (l : Leaf) : Node → Prop
  | .leaf l' => l' = l
  | .overview s k _ => 0 ≤ k ∧ Levels l s
  | _ => False

theorem levels_level {G : Files} {l : Leaf} {f : File} (hn : l.nan = false) (hf : G.file l.id = some f)
    (ho : l.overviews = some (f.first.ovs.length : Int)) : ∀ (n : Node), Levels l n → ∀ v : Int,
    numOverviews n = .ok (some v) → v ≤ f.first.ovs.length ∧
      (0 ≤ v → levelIn G n = some (l.id, f.first.ovs.length - v))
  | .leaf l', h, v, hv => by
    cases (show l' = l from h)
    rw [numOverviews, ho, Except.ok.injEq, Option.some.injEq] at hv
    subst hv
    refine ⟨le_refl _, fun _ => ?_⟩
    unfold levelIn
    simp [hn, hf]
  | .concat _ _, h, _, _ => h.elim
  | .warp _ _ _ _, h, _, _ => h.elim
  | .crop _ _ _ _ _ _, h, _, _ => h.elim
  | .dequant _ _ _, h, _, _ => h.elim
  | .overview s k _, h, v, hv => by
    rw [numOverviews] at hv
    obtain ⟨hk, h⟩ : 0 ≤ k ∧ Levels l s := h
    cases hs : numOverviews s with
    | error e => simp [hs] at hv
    | ok c =>
      cases c with
      | none => simp [hs] at hv
      | some c =>
        simp only [hs, Except.ok.injEq, Option.some.injEq] at hv
        obtain ⟨h1, h2⟩ := levels_level hn hf ho s h c hs
        refine ⟨by omega, fun h0 => ?_⟩
        unfold levelIn
        simp only [h2 (by omega), hf]
        rw [if_pos (by omega)]
        congr 2
        omega

/-- C91: overviews of overviews of a file.  As long as `num_overviews` is not negative, the picture stored
in the file with `num_overviews` coarser ones after it is shown. -/
theorem C91_stored (G : Files) (hG : RegularFiles G) {l : Leaf} {f : File} (hn : l.nan = false)
    (hf : G.file l.id = some f) (ho : l.overviews = some (f.first.ovs.length : Int)) {n : Node}
    (h : Levels l n) {v : Int} (hv : numOverviews n = .ok (some v)) (h0 : 0 ≤ v) :
    ∃ j, finalSee G n = .ok (decide (f.bands.length = 1), j) ∧
      j.Same (picture f (f.first.ovs.length - v.toNat) (G.method l.id)) := by
  obtain ⟨hle, hlev⟩ := levels_level hn hf ho n h v hv
  obtain ⟨f', h1, h2⟩ := see_level n _ _ (hlev h0)
  cases hf.symm.trans h1
  obtain ⟨d, a, b, R, ha, hb⟩ := hG.level l.id f hf (f.first.ovs.length - v.toNat) (by omega)
  obtain ⟨j, h3, h4⟩ := FilesAux.load_ref (G := G) R ha hb (hG.method l.id)
  refine ⟨j, ?_, h4⟩
  rw [show (f.first.ovs.length : Int) - v = ((f.first.ovs.length - v.toNat : Nat) : Int) by omega] at h2
  simp only [finalSee, h2, h3]

/-! #### examples -/

/-- A corner of the file with one overview. -/
def corner : Node := .crop (.leaf bandPair) 0 2 0 2 none

theorem bandPair_built : Built (.leaf bandPair) :=
  .leaf _ ⟨fun l h => (by cases h), fun h => (by cases h)⟩ ⟨by decide, by decide⟩

theorem bandPair_counted (skip : Bool) : Counted (someFiles skip) bandPair := ⟨rfl, gridFile, rfl, rfl⟩

theorem corner_built : Built corner :=
  .crop (.leaf bandPair) _ (some ((some 0, some 2), (some 0, some 2))) none bandPair_built trivial rfl

example : LeavesLeft (mkOverview corner 1) 0 ∧ depths (mkOverview corner 1) = [(bandPair, 1)] :=
  ⟨by simp [LeavesLeft, mkOverview, corner, depths, bandPair], by simp [mkOverview, corner, depths]⟩

example : Unwarped corner ∧ Each (Counted (someFiles false)) corner ∧ numOverviews corner = .ok (some 1) :=
  ⟨trivial, bandPair_counted false, rfl⟩

example : Built (mkOverview corner 1) ∧ Solo (mkOverview corner 1) ∧ Tree.Calm True 0 0 (mkOverview corner 1) :=
  ⟨.overview _ _ corner_built, trivial, unwarped_calm (mkOverview corner 1) ⟨by decide, trivial⟩ 0 0 rfl (le_refl 0)⟩

/-- A file with its overview, made larger. -/
example : Tree.Calm True 0 0 (mkOverview (mkWarp (.leaf bandPair) (.scale 2) none .default) 1) := by
  refine ⟨by decide, .inr (.inr ⟨⟨trivial, rfl, rfl, by decide +kernel, by decide +kernel⟩, fun o h => ?_⟩)⟩
  cases h
  decide +kernel

/-- The overview is read: one pixel of the stored overview. -/
example : holds (finalizeFiles Heur.code (someFiles false) 9 (mkOverview corner 1))
    (fun r => decide (r.2.h = 1 ∧ r.2.w = 1 ∧ r.2.px 0 0 0 = .num 10)) = true := by decide +kernel

example : Levels bandPair (mkOverview (mkOverview (.leaf bandPair) 1) 0) ∧
    numOverviews (mkOverview (mkOverview (.leaf bandPair : Node) 1) 0) = .ok (some 0) :=
  ⟨⟨by decide, by decide, rfl⟩, rfl⟩

/-- The file twice, once dequantized. -/
def twiceBands : Node :=
  .concat [.leaf bandPair, mkDequant (.leaf bandPair) ⟨0, 1, 0, 255, none⟩] (4, 4)

example : Built twiceBands := by
  refine .concat [.leaf bandPair, mkDequant (.leaf bandPair) ⟨0, 1, 0, 255, none⟩] _ (fun p hp => ?_) rfl
  simp only [List.mem_cons, List.not_mem_nil, or_false] at hp
  rcases hp with rfl | rfl
  · exact bandPair_built
  · exact .dequant _ _ bandPair_built

example : Simple twiceBands ∧ Each (Counted (someFiles false)) twiceBands ∧
    numOverviews twiceBands = .ok (some 1) ∧ NoWarp (mkOverview twiceBands 1) ∧ EnoughLeft (mkOverview twiceBands 1) :=
  ⟨⟨trivial, trivial, trivial⟩, ⟨bandPair_counted false, bandPair_counted false, trivial⟩, by decide,
    ⟨by decide, trivial, trivial, trivial⟩, fun p hp => by
      have : p = (bandPair, 1) := by simpa [twiceBands, mkOverview, mkDequant, depths, depthsL] using hp
      subst this
      exact ⟨1, rfl, le_refl _⟩⟩

/-- All four channels are read from the stored overview. -/
example : holds (finalizeFiles Heur.code (someFiles false) 9 (mkOverview twiceBands 1))
    (fun r => decide (r.2.h = 2 ∧ r.2.w = 2 ∧ r.2.n = 4 ∧ r.2.px 0 1 0 = .num 20 ∧ r.2.px 1 1 3 = .num 40)) =
    true := by decide +kernel

/-- Beside an image in memory the number is unknown, and its overviews have none. -/
def besideMemory : Node := .concat [.leaf bandPair, .leaf inMemory] (4, 4)

example : numOverviews besideMemory = .ok none ∧ numOverviews (mkOverview besideMemory 1) = .error .typeError ∧
    SameLeft besideMemory ∧ ¬ SameLeft (mkOverview besideMemory 1) := by
  refine ⟨by decide, by decide, ⟨trivial, trivial, trivial⟩, ?_⟩
  rintro ⟨_, v, hv⟩
  have := hv (inMemory, 0) (by simp [besideMemory, depths, depthsL])
  simp [inMemory] at this

/-! What is missing. -/

/-- Simulating by black pixels. -/
def blackout (_ : Int) (i : Img Val) : Img Val := ⟨1, 1, i.n, fun _ _ _ => .num 0⟩

/-- C91 does not hold without optimizing: an overview of a crop is simulated although it is announced. -/
theorem C91_unoptimized_violated : Built corner ∧ numOverviews corner = .ok (some 1) ∧
    finalSee (Files.simulating (someFiles false) blackout) (mkOverview corner 1) ≠
      finalSee (someFiles false) (mkOverview corner 1) := by
  refine ⟨corner_built, rfl, fun h => ?_⟩
  have h1 : holds (finalSee (someFiles false) (mkOverview corner 1)) (fun r => decide (r.2.px 0 0 0 = .num 1)) =
    true := by decide +kernel
  rw [← h] at h1
  exact absurd h1 (by decide +kernel)

/-- The file made smaller by half. -/
def halfBands : Node := mkWarp (.leaf bandPair) (.scale (1 / 2)) none .default

/-- C91 does not hold for warped images: the warp uses up the overview of the file, `num_overviews` still
announces it, and taking it is simulated. -/
theorem C91_warp_violated : Built halfBands ∧ numOverviews halfBands = .ok (some 1) ∧
    finalizeFiles Heur.code (Files.simulating (someFiles false) blackout) 20 (mkOverview halfBands 1) ≠
      finalizeFiles Heur.code (someFiles false) 20 (mkOverview halfBands 1) := by
  refine ⟨.warp _ _ none _ bandPair_built (by decide +kernel)
    ⟨by decide +kernel, by decide +kernel⟩, rfl, fun h => ?_⟩
  have h1 : holds (finalizeFiles Heur.code (someFiles false) 20 (mkOverview halfBands 1))
    (fun r => decide (r.2.px 0 0 0 = .num 0)) = false := by decide +kernel
  rw [← h] at h1
  exact absurd h1 (by decide +kernel)

/-- Two parts of the file, one of which does not begin where a pixel of the overview does. -/
def oddCorners : Node := .concat [.crop (.leaf bandPair) 1 3 1 3 none, corner] (2, 2)

/-- C91 does not hold for stacks of crops: the overview of the first part is larger than announced, so that
the stack is left alone, and all overviews in it are simulated. -/
theorem C91_stack_violated : Built oddCorners ∧ Each (Counted (someFiles false)) oddCorners ∧
    numOverviews oddCorners = .ok (some 1) ∧
    finalizeFiles Heur.code (Files.simulating (someFiles false) blackout) 30 (mkOverview oddCorners 1) ≠
      finalizeFiles Heur.code (someFiles false) 30 (mkOverview oddCorners 1) := by
  refine ⟨?_, ⟨bandPair_counted false, bandPair_counted false, trivial⟩, by decide, fun h => ?_⟩
  · refine .concat [.crop (.leaf bandPair) 1 3 1 3 none, corner] _ (fun p hp => ?_) rfl
    simp only [List.mem_cons, List.not_mem_nil, or_false] at hp
    rcases hp with rfl | rfl
    · exact .crop (.leaf bandPair) _ (some ((some 1, some 3), (some 1, some 3))) none bandPair_built trivial rfl
    · exact corner_built
  · have h1 : holds (finalizeFiles Heur.code (someFiles false) 30 (mkOverview oddCorners 1))
      (fun r => decide (r.2.px 0 0 0 = .num 6 ∧ r.2.px 0 0 2 = .num 1)) = true := by decide +kernel
    rw [← h] at h1
    exact absurd h1 (by decide +kernel)

/-- C91: taking more overviews than there are is no error; the number that is left is negative. -/
theorem C91_negative_violated : Built (mkOverview (.leaf bandPair) 3) ∧
    numOverviews (mkOverview (.leaf bandPair : Node) 3) = .ok (some (-2)) ∧
    (finalizeFiles Heur.code (someFiles false) 20 (mkOverview (.leaf bandPair) 3)).isOk = true :=
  ⟨.overview _ _ bandPair_built, rfl, by decide +kernel⟩

end Verif.Props
