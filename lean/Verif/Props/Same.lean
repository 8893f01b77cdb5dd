/-
C83, C30: images that are optimized to the same image.
-/
import Verif.Props.Regroup
import Verif.Props.Early
import Verif.Props.Warp
import Verif.Props.Once
import Verif.Props.Resize

namespace Verif.Props

open Verif.Tree Verif.Helpers Verif.Tree.Node

variable {V : Type} {H : Heur}

theorem Out.done {m r : Node} (hp : Plain m) (hd : Done H m) : Out H m r ↔ r = m := by
  obtain ⟨F, hF⟩ := done_late hp hd
  refine ⟨fun h => h.det ⟨F, hF F (le_refl _)⟩, ?_⟩
  rintro rfl
  exact ⟨F, hF F (le_refl _)⟩

/-- Two images without overviews with the same results. -/
theorem same_arrays {n m : Node} (h : ∀ r, Out H n r ↔ Out H m r) (E : Env V) (i : Img V) :
    (∃ f, finalize H E f n = .ok i) ↔ ∃ f, finalize H E f m = .ok i := by
  have key : ∀ a : Node, (∃ f, finalize H E f a = .ok i) ↔ ∃ r, Out H a r ∧ fin E r = .ok i := by
    intro a
    constructor
    · rintro ⟨f, hf⟩
      rw [finalize] at hf
      cases e : opt H f a with
      | error x => rw [e] at hf; cases hf
      | ok r => rw [e] at hf; exact ⟨r, ⟨f, e⟩, hf⟩
    · rintro ⟨r, ⟨f, e⟩, hr⟩
      exact ⟨f, by rw [finalize, e]; exact hr⟩
  rw [key, key]
  exact exists_congr fun r => and_congr (h r) Iff.rfl

/-! ### C83 -/

theorem early_out {n m : Node} (h : Early H n m) : Plain n → ∀ r, Out H n r ↔ Out H m r := by
  have step : ∀ {n s s' m : Node}, Plain n → subOf n = .ok (some s) → Early H s s' →
      (Plain s → ∀ r, Out H s r ↔ Out H s' r) → (Plain (setSub n s') → ∀ r, Out H (setSub n s') r ↔ Out H m r) →
      ∀ r, Out H n r ↔ Out H m r := by
    intro n s s' m hn hs he i1 i2 r
    have hps := (sizeRules H).sub hn hs
    obtain ⟨a1, a2⟩ := early_good (sizeRules H) he hps
    obtain ⟨b1, _⟩ := (sizeRules H).cong hn hs a1 a2
    have e1 : subOf (setSub n s') = .ok (some s') := by
      cases n <;> first | rfl | cases hs
    have e2 : ∀ x, setSub (setSub n s') x = setSub n x := by
      intro x
      cases n <;> rfl
    rw [← i2 b1, out_sub hn hs, out_sub b1 e1]
    exact exists_congr fun x => and_congr (i1 hps x) (by rw [e2])
  induction h with
  | refl n => exact fun _ _ => Iff.rfl
  | @opt n m r fuel h t ih =>
    intro hn x
    obtain ⟨p1, p2, _⟩ := Out.plain hn ⟨fuel, h⟩
    rw [← ih p1, Out.done p1 p2]
    exact ⟨fun hx => hx.det ⟨fuel, h⟩, fun e => e ▸ ⟨fuel, h⟩⟩
  | warp tf d a h _ ih1 ih2 => exact fun hn => step hn rfl h ih1 ih2
  | crop y0 y1 x0 x1 c h _ ih1 ih2 => exact fun hn => step hn rfl h ih1 ih2
  | overview k d h _ _ _ => exact fun hn => hn.noOv.elim
  | dequant q d h _ ih1 ih2 => exact fun hn => step hn rfl h ih1 ih2
  | @concat as bs p p' d h hd r t ih1 ih2 =>
    intro hn x
    have hp : Plain p := (sizeRules H).parts hn p (by simp)
    obtain ⟨m1, _⟩ := early_good (sizeRules H) (.concat d h hd (.refl _)) hn
    rw [← ih2 m1, out_concat hn, out_concat m1]
    have key : ∀ as qs, List.Forall₂ (Out H) (as ++ p :: bs) qs ↔ List.Forall₂ (Out H) (as ++ p' :: bs) qs := by
      intro as
      induction as with
      | nil => intro qs; cases qs with
        | nil => simp
        | cons q qs => simp only [List.nil_append, List.forall₂_cons, ih1 hp]
      | cons a as ih => intro qs; cases qs with
        | nil => simp
        | cons q qs => simp only [List.cons_append, List.forall₂_cons, ih]
    simp only [key]

/-- C83, the default finalize of all images without overviews, with any warps: whatever was optimized in advance, at
any places and any number of times, optimizing the whole gives the same image, and so the same array. -/
theorem C83_results {n m : Node} (h : Early H n m) (hb : Built n) (ho : NoOv n) :
    (∀ r, (∃ f, opt H f n = .ok r) ↔ ∃ f, opt H f m = .ok r) ∧
    ∀ (E : Env V) i, (∃ f, finalize H E f n = .ok i) ↔ ∃ f, finalize H E f m = .ok i := by
  have := early_out h ⟨hb.ok.1, hb.ok.2, ho⟩
  exact ⟨this, same_arrays this⟩

/-! ### C30 -/

/-- The identity test of a warp with these parameters accepts the identity and nothing else. -/
def Sure (H : Heur) (a : Algo) : Prop := ∀ m, H.negl a.noopEps m = true ↔ m = .id

/-- What becomes of a warp of a finished image that is no concat and no warp. -/
def warpOn (H : Heur) (s : Node) (tf : Affine) (d : Int × Int) (a : Algo) : Node :=
  match s with
  | .leaf l => if l.nan = true then nanLeaf l.id d l.names
    else if d = l.dsize ∧ H.negl a.noopEps tf = true then .leaf l else .warp (.leaf l) tf d a
  | s => if d = s.dsize ∧ H.negl a.noopEps tf = true then s else .warp s tf d a

/-- What becomes of a warp of a finished image that is no concat. -/
def warpOf (H : Heur) (s : Node) (tf : Affine) (d : Int × Int) (a : Algo) : Node :=
  match s with
  | .warp x t _ _ => warpOn H x (tf * t) d a.common
  | s => warpOn H s tf d a

theorem nanLeaf_eq {l : Leaf} (h : l.WF) (hn : l.nan = true) : (.leaf l : Node) = nanLeaf l.id l.dsize l.names := by
  obtain ⟨h1, h2⟩ := h
  obtain ⟨h3, h4⟩ := h2 hn
  obtain ⟨ns, e⟩ := Option.isSome_iff_exists.1 h3
  have := h1 ns e
  cases l
  simp only at *
  subst e h4 hn
  simp [nanLeaf, this]

theorem warpRest_done {f : Nat} {s : Node} (hp : Plain s) (hd : Done H s) (hf : 1 ≤ f) (hc : ∀ ps e, s ≠ .concat ps e)
    (tf : Affine) (d : Int × Int) (a : Algo) : warpRest H (opt H f) s tf d a = .ok (warpOn H s tf d a) := by
  by_cases hs : solid s
  · have e : warpOn H s tf d a = if d = s.dsize ∧ H.negl a.noopEps tf = true then s else .warp s tf d a := by
      cases s with
      | leaf l =>
        have hl : l.nan = false := hs
        simp only [warpOn, hl, Bool.false_eq_true, if_false]
        rfl
      | _ => rfl
    rw [e]
    by_cases hz : d = s.dsize ∧ H.negl a.noopEps tf = true
    · unfold warpRest
      rw [if_pos hz, if_pos hz]
    · rw [if_neg hz]
      obtain ⟨o, ho⟩ := numOverviews_chain s hp.noOv hd hc
      exact warpRest_noOv hp.noOv ho hc hs hz
  · cases s with
    | leaf l =>
      have hl : l.nan = true := by simpa [solid] using hs
      simp only [warpOn, hl, if_true]
      unfold warpRest
      split
      · rename_i hz
        have e : d = l.dsize := hz.1
        rw [nanLeaf_eq hp.wf hl, e]
      · simp only [hl, if_true]
        obtain ⟨g, rfl⟩ : ∃ g, f = g + 1 := ⟨f - 1, by omega⟩
        rfl
    | _ => exact absurd trivial hs

theorem warp_out {s : Node} {tf : Affine} {d : Int × Int} {a : Algo} (h : Plain (.warp s tf d a)) (hd : Done H s)
    (hc : ∀ ps e, s ≠ .concat ps e) (r : Node) : Out H (.warp s tf d a) r ↔ r = warpOf H s tf d a := by
  have hs : Plain s := (sizeRules H).sub h rfl
  obtain ⟨F, hF⟩ := done_late hs hd
  have e : opt H (F + 1 + 1) (.warp s tf d a) = .ok (warpOf H s tf d a) := by
    rw [opt]
    simp only [optStep, optWarp, hF (F + 1) (by omega)]
    cases s with
    | concat ps e => exact absurd rfl (hc ps e)
    | overview _ _ _ => exact hs.noOv.elim
    | warp x t dx ax =>
      have hx : Plain x := (sizeRules H).sub hs rfl
      rw [Done] at hd
      refine warpRest_done hx hd.1 (by omega) ?_ _ _ _
      rintro ps e rfl
      exact hd.2.1
    | _ => exact warpRest_done hs hd (by omega) hc _ _ _
  exact ⟨fun h => h.det ⟨_, e⟩, fun h => h ▸ ⟨_, e⟩⟩

theorem warpOf_warpOn {x : Node} (hx : WF x) (h1 : underWarp x) {a : Algo} (ha : Sure H a) (hb : a.common = a)
    (t B : Affine) (d1 d2 : Int × Int) : warpOf H (warpOn H x t d1 a) B d2 a = warpOn H x (B * t) d2 a := by
  have key : ∀ y : Node, underWarp y → (warpOn H y t d1 a = if d1 = y.dsize ∧ H.negl a.noopEps t = true then y
      else .warp y t d1 a) → warpOf H (warpOn H y t d1 a) B d2 a = warpOn H y (B * t) d2 a := by
    intro y hy e
    rw [e]
    split
    · rename_i hz
      rw [(ha t).1 hz.2, Affine.mul_id]
      cases y with
      | warp _ _ _ _ => exact hy.elim
      | _ => rfl
    · rw [warpOf, hb]
  cases x with
  | leaf l =>
    by_cases hl : l.nan = true
    · simp only [warpOn, hl, if_true, warpOf, nanLeaf]
    · refine key _ h1 ?_
      simp only [warpOn, hl]
      rfl
  | _ => exact key _ h1 rfl

theorem warpOf_warpOf {s : Node} (hs : Plain s) (hd : Done H s) (hc : ∀ ps e, s ≠ .concat ps e) {a : Algo}
    (ha : Sure H a) (hb : a.common = a) (A B : Affine) (d1 d2 : Int × Int) :
    warpOf H (warpOf H s A d1 a) B d2 a = warpOf H s (B * A) d2 a := by
  cases s with
  | warp x t dx ax =>
    rw [Done] at hd
    rw [warpOf, warpOf, hb, warpOf_warpOn hs.wf.1 hd.2.1 ha hb, Affine.mul_assoc']
  | concat ps e => exact absurd rfl (hc ps e)
  | overview _ _ _ => exact hs.noOv.elim
  | leaf l => exact warpOf_warpOn hs.wf trivial ha hb A B d1 d2
  | crop _ _ _ _ _ _ => exact warpOf_warpOn hs.wf trivial ha hb A B d1 d2
  | dequant _ _ _ => exact warpOf_warpOn hs.wf trivial ha hb A B d1 d2

theorem plain_warp {s : Node} (hs : Plain s) {A : Affine} (hA : A.det ≠ 0) {d : Int × Int} (hd : Nonneg d) (a : Algo) :
    Plain (.warp s A d a) := ⟨⟨hs.wf, hA⟩, ⟨hd, hs.fit⟩, hs.noOv⟩

theorem concat_skip {ps : List Node} {d : Int × Int} (hs : Plain (.concat ps d)) (hd : Done H (.concat ps d)) {A : Affine}
    {a : Algo} (h : H.negl a.noopEps A = true) (r : Node) : Out H (.warp (.concat ps d) A d a) r ↔ r = .concat ps d := by
  obtain ⟨F, hF⟩ := done_late hs hd
  have e : opt H (F + 1) (.warp (.concat ps d) A d a) = .ok (.concat ps d) := by
    rw [opt]
    simp only [optStep, optWarp, hF F (le_refl _)]
    unfold warpRest
    rw [if_pos ⟨rfl, h⟩]
  refine ⟨fun h => h.det ⟨_, e⟩, ?_⟩
  rintro rfl
  exact ⟨_, e⟩

theorem forall₂_two {α β γ : Type} {S : α → β → Prop} {T : β → γ → Prop} : ∀ {as : List α} {cs : List γ},
    (∃ bs, List.Forall₂ S as bs ∧ List.Forall₂ T bs cs) ↔ List.Forall₂ (fun a c => ∃ b, S a b ∧ T b c) as cs
  | [], cs => by
    constructor
    · rintro ⟨bs, h1, h⟩
      cases h1
      cases h
      exact .nil
    · rintro ⟨⟩
      exact ⟨[], .nil, .nil⟩
  | a :: as, cs => by
    constructor
    · rintro ⟨bs, h1, h⟩
      cases h1 with
      | cons h1 h2 =>
        cases h with
        | cons g1 g2 => exact .cons ⟨_, h1, g1⟩ (forall₂_two.1 ⟨_, h2, g2⟩)
    · rintro (_ | ⟨⟨b, h1, h2⟩, h3⟩)
      obtain ⟨bs, g1, g2⟩ := forall₂_two.2 h3
      exact ⟨b :: bs, .cons h1 g1, .cons h2 g2⟩

theorem fused_one {A B : Affine} {d1 d2 : Int × Int} {a : Algo} (ha : Sure H a) (hb : a.common = a) (hA : A.det ≠ 0)
    (hB : B.det ≠ 0) (n1 : Nonneg d1) (n2 : Nonneg d2) {s : Node} (hs : Plain s) (hd : Done H s)
    (hc : ∀ ps e, s ≠ .concat ps e) (r : Node) :
    (∃ q, Out H (.warp s A d1 a) q ∧ Out H (.warp q B d2 a) r) ↔ Out H (.warp s (B * A) d2 a) r := by
  have hBA : (B * A).det ≠ 0 := by rw [Affine.det_mul]; exact mul_ne_zero hB hA
  have w1 := plain_warp hs hA n1 a
  have o1 := warp_out (H := H) w1 hd hc
  have hq : Out H (.warp s A d1 a) (warpOf H s A d1 a) := (o1 _).2 rfl
  obtain ⟨q1, q2, _⟩ := hq.plain w1
  have hcat : hasCat s = false := by
    by_contra h
    obtain ⟨ps, e, rfl⟩ := done_cat hd (by simpa using h)
    exact hc ps e rfl
  have hqc : ∀ ps e, warpOf H s A d1 a ≠ .concat ps e := by
    intro ps e h
    have := hq.hasCat w1
    rw [h] at this
    have t : true = hasCat s := this
    rw [hcat] at t
    cases t
  rw [warp_out (plain_warp hs hBA n2 a) hd hc, ← warpOf_warpOf hs hd hc ha hb,
    ← warp_out (plain_warp q1 hB n2 a) q2 hqc]
  constructor
  · rintro ⟨q, h1, h2⟩
    rw [(o1 q).1 h1] at h2
    exact h2
  · exact fun h => ⟨_, hq, h⟩

section fuse

variable {A B : Affine} {d1 d2 : Int × Int} {a : Algo}

mutual
theorem fused_done (ha : Sure H a) (hb : a.common = a) (hA : A.det ≠ 0) (hB : B.det ≠ 0) (n1 : Nonneg d1)
    (n2 : Nonneg d2) : ∀ s : Node, Plain s → Done H s →
    (hasCat s = true → B * A = .id → d2 ≠ s.dsize) → ∀ r,
    ((∃ q, Out H (.warp s A d1 a) q ∧ Out H (.warp q B d2 a) r) ↔ Out H (.warp s (B * A) d2 a) r)
  | .concat ps d, hs, hd, hne, r => by
    have hBA : (B * A).det ≠ 0 := by rw [Affine.det_mul]; exact mul_ne_zero hB hA
    have w1 := plain_warp hs hA n1 a
    have w2 := plain_warp hs hBA n2 a
    by_cases k1 : d1 = d ∧ H.negl a.noopEps A = true
    · obtain ⟨rfl, k⟩ := k1
      have e : B * A = B := by rw [(ha A).1 k, Affine.mul_id]
      rw [e]
      constructor
      · rintro ⟨q, h1, h2⟩
        rw [(concat_skip hs hd k q).1 h1] at h2
        exact h2
      · exact fun h => ⟨_, (concat_skip hs hd k _).2 rfl, h⟩
    by_cases k2 : d2 = d1 ∧ H.negl a.noopEps B = true
    · obtain ⟨rfl, k⟩ := k2
      have e : B * A = A := by rw [(ha B).1 k, Affine.id_mul]
      rw [e]
      have skip : ∀ q, Out H (.warp (.concat ps d) A d2 a) q → (Out H (.warp q B d2 a) r ↔ r = q) := by
        intro q hq
        obtain ⟨q1, q2, q3, _⟩ := hq.plain w1
        obtain ⟨qs, e, rfl⟩ := done_cat q2 (hq.hasCat w1)
        have : e = d2 := q3
        subst this
        exact concat_skip q1 q2 k r
      constructor
      · rintro ⟨q, h1, h2⟩
        rw [(skip q h1).1 h2]
        exact h1
      · exact fun h => ⟨r, h, (skip r h).2 rfl⟩
    have k3 : ¬ (d2 = d ∧ H.negl a.noopEps (B * A) = true) := by
      rintro ⟨e1, e2⟩
      exact hne rfl ((ha _).1 e2) e1
    have hps : ∀ p ∈ ps, Plain p ∧ p.dsize = d := fun p h => ⟨(sizeRules H).parts hs p h, (sizeRules H).same hs p h⟩
    have hds : ∀ p ∈ ps, Done H p := fun p h => ((DoneL_iff _ _ _).1 hd.2 p h).1
    have e1 : ∀ q, Out H (.warp (.concat ps d) A d1 a) q ↔
        ∃ qs, List.Forall₂ (Out H) (ps.map (Op.warp A d1 a).on) qs ∧ q = .concat qs d1 := fun q => by
      rw [show Node.warp (.concat ps d) A d1 a = (Op.warp A d1 a).on (.concat ps d) from rfl,
        (Op.warp A d1 a).out_concat w1 hd k1, out_concat ((Op.warp A d1 a).pushed w1)]
      rfl
    have e2 : Out H (.warp (.concat ps d) (B * A) d2 a) r ↔
        ∃ rs, List.Forall₂ (Out H) (ps.map (Op.warp (B * A) d2 a).on) rs ∧ r = .concat rs d2 := by
      rw [show Node.warp (.concat ps d) (B * A) d2 a = (Op.warp (B * A) d2 a).on (.concat ps d) from rfl,
        (Op.warp (B * A) d2 a).out_concat w2 hd k3, out_concat ((Op.warp (B * A) d2 a).pushed w2)]
      rfl
    have e3 : ∀ qs, Out H (.warp (.concat ps d) A d1 a) (.concat qs d1) → (Out H (.warp (.concat qs d1) B d2 a) r ↔
        ∃ rs, List.Forall₂ (Out H) (qs.map (Op.warp B d2 a).on) rs ∧ r = .concat rs d2) := fun qs hq => by
      obtain ⟨q1, q2, _⟩ := hq.plain w1
      have w3 := plain_warp q1 hB n2 a
      rw [show Node.warp (.concat qs d1) B d2 a = (Op.warp B d2 a).on (.concat qs d1) from rfl,
        (Op.warp B d2 a).out_concat w3 q2 k2, out_concat ((Op.warp B d2 a).pushed w3)]
      rfl
    have e4 := fused_doneL ha hb hA hB n1 n2 ps (fun p h => (hps p h).1) hds
      (fun p h _ e => by rw [(hps p h).2]; exact hne rfl e)
    rw [e2]
    simp only [List.forall₂_map_left_iff] at e1 e2 e3 ⊢
    constructor
    · rintro ⟨q, h1, h2⟩
      obtain ⟨qs, g1, rfl⟩ := (e1 q).1 h1
      obtain ⟨rs, g2, rfl⟩ := (e3 qs h1).1 h2
      exact ⟨rs, (e4 rs).1 (forall₂_two.1 ⟨qs, g1, g2⟩), rfl⟩
    · rintro ⟨rs, h1, rfl⟩
      obtain ⟨qs, g1, g2⟩ := forall₂_two.2 ((e4 rs).2 h1)
      have h2 := (e1 (.concat qs d1)).2 ⟨qs, g1, rfl⟩
      exact ⟨_, h2, (e3 qs h2).2 ⟨rs, g2, rfl⟩⟩
  | .leaf l, hs, hd, _, r => fused_one ha hb hA hB n1 n2 hs hd (by simp) r
  | .warp _ _ _ _, hs, hd, _, r => fused_one ha hb hA hB n1 n2 hs hd (by simp) r
  | .crop _ _ _ _ _ _, hs, hd, _, r => fused_one ha hb hA hB n1 n2 hs hd (by simp) r
  | .overview _ _ _, hs, hd, _, r => fused_one ha hb hA hB n1 n2 hs hd (by simp) r
  | .dequant _ _ _, hs, hd, _, r => fused_one ha hb hA hB n1 n2 hs hd (by simp) r
theorem fused_doneL (ha : Sure H a) (hb : a.common = a) (hA : A.det ≠ 0) (hB : B.det ≠ 0) (n1 : Nonneg d1)
    (n2 : Nonneg d2) : ∀ ps : List Node, (∀ p ∈ ps, Plain p) → (∀ p ∈ ps, Done H p) →
    (∀ p ∈ ps, hasCat p = true → B * A = .id → d2 ≠ p.dsize) → ∀ rs,
    (List.Forall₂ (fun p r => ∃ q, Out H (.warp p A d1 a) q ∧ Out H (.warp q B d2 a) r) ps rs ↔
      List.Forall₂ (fun p r => Out H (.warp p (B * A) d2 a) r) ps rs)
  | [], _, _, _, rs => by cases rs <;> simp
  | p :: ps, h1, h2, h3, rs => by
    cases rs with
    | nil => simp
    | cons r rs =>
      rw [List.forall₂_cons, List.forall₂_cons,
        fused_done ha hb hA hB n1 n2 p (h1 p (by simp)) (h2 p (by simp)) (h3 p (by simp)) r,
        fused_doneL ha hb hA hB n1 n2 ps (fun q hq => h1 q (by simp [hq])) (fun q hq => h2 q (by simp [hq]))
          (fun q hq => h3 q (by simp [hq])) rs]
end

end fuse

theorem out_congr {n m : Node} (hn : Plain n) (hm : Plain m) (h : ∀ r, Out H n r ↔ Out H m r) {A : Affine}
    (hA : A.det ≠ 0) {d : Int × Int} (hd : Nonneg d) (a : Algo) (r : Node) :
    Out H (.warp n A d a) r ↔ Out H (.warp m A d a) r := by
  rw [out_sub (plain_warp hn hA hd a) rfl, out_sub (plain_warp hm hA hd a) rfl]
  exact exists_congr fun x => and_congr (h x) Iff.rfl

theorem two_warps {A B : Affine} {d1 d2 : Int × Int} {a : Algo} (ha : Sure H a) (hb : a.common = a) (hA : A.det ≠ 0)
    (hB : B.det ≠ 0) (n1 : Nonneg d1) (n2 : Nonneg d2) {s : Node} (hs : Plain s)
    (hne : hasCat s = true → B * A = .id → d2 ≠ s.dsize) (r : Node) :
    Out H (.warp (.warp s A d1 a) B d2 a) r ↔ Out H (.warp s (B * A) d2 a) r := by
  have hBA : (B * A).det ≠ 0 := by rw [Affine.det_mul]; exact mul_ne_zero hB hA
  have w1 := plain_warp hs hA n1 a
  rw [out_sub (plain_warp w1 hB n2 a) rfl, out_sub (plain_warp hs hBA n2 a) rfl]
  simp only [setSub]
  have key : ∀ x, Out H s x → ((∃ q, Out H (.warp x A d1 a) q ∧ Out H (.warp q B d2 a) r) ↔
      Out H (.warp x (B * A) d2 a) r) := by
    intro x hx
    obtain ⟨x1, x2, x3, _⟩ := hx.plain hs
    exact fused_done ha hb hA hB n1 n2 x x1 x2 (fun h => by rw [x3]; exact hne (by rw [← hx.hasCat hs]; exact h)) r
  constructor
  · rintro ⟨q, h1, h2⟩
    obtain ⟨x, g1, g2⟩ := (out_sub w1 rfl).1 h1
    exact ⟨x, g1, (key x g1).1 ⟨q, g2, h2⟩⟩
  · rintro ⟨x, g1, g2⟩
    obtain ⟨q, h1, h2⟩ := (key x g1).2 g2
    exact ⟨q, (out_sub w1 rfl).2 ⟨x, g1, h1⟩, h2⟩

theorem warps_plain {s : Node} (hs : Plain s) : ∀ ws : List Call, (∀ v ∈ ws, v.tf.det ≠ 0 ∧ Nonneg v.d) →
    Plain (warps s ws)
  | [], _ => hs
  | w :: ws, h => plain_warp (warps_plain hs ws fun v hv => h v (by simp [hv])) (h w (by simp)).1 (h w (by simp)).2 _

theorem warps_out {s : Node} (hs : Plain s) {a : Algo} (ha : Sure H a) (hb : a.common = a) : ∀ (w : Call) (ws : List Call),
    (∀ v ∈ w :: ws, v.tf.det ≠ 0 ∧ Nonneg v.d ∧ v.algo = a) →
    (hasCat s = true → ∀ v t, v :: t <:+ w :: ws → t ≠ [] → total (v :: t) = .id → v.d ≠ s.dsize) → ∀ r,
    (Out H (warps s (w :: ws)) r ↔ Out H (.warp s (total (w :: ws)) w.d a) r)
  | w, [], h, _, r => by
    rw [warps, warps, (h w (by simp)).2.2, total, total, Affine.mul_id]
  | w, v :: ws, h, hne, r => by
    obtain ⟨w1, w2, w3⟩ := h w (by simp)
    have hv : ∀ u ∈ v :: ws, u.tf.det ≠ 0 ∧ Nonneg u.d ∧ u.algo = a := fun u hu => h u (by simp [List.mem_cons.1 hu])
    have ih := warps_out hs ha hb v ws hv
      fun hc u t ht => hne hc u t (ht.trans (List.suffix_cons w (v :: ws)))
    have hd := total_det (v :: ws) fun u hu => (hv u hu).1
    have nv := (h v (by simp)).2.1
    rw [warps, w3, out_congr (warps_plain hs (v :: ws) fun u hu => ⟨(hv u hu).1, (hv u hu).2.1⟩)
      (plain_warp hs hd nv a) ih w1 w2 a r,
      two_warps ha hb hd w1 nv w2 hs (fun hc => hne hc w (v :: ws) (List.suffix_refl _) (by simp)) r]
    rfl

/-- **C30**, all images without overviews: warping any number of times with the same parameters is optimized to the same
image as warping once by the product, so the default finalize interpolates only once and gives the same array.  If the
image contains a concat, the warps may not lead back to where they started: `C30_concat_violated`. -/
theorem C30_images {s : Node} (hs : Built s) (ho : NoOv s) {a : Algo} (ha : Sure H a) (hb : a.common = a) (w : Call)
    (ws : List Call) (h : ∀ v ∈ w :: ws, v.tf.det ≠ 0 ∧ Nonneg v.d ∧ v.algo = a)
    (hne : hasCat s = true → ∀ v t, v :: t <:+ w :: ws → t ≠ [] → total (v :: t) = .id → v.d ≠ s.dsize) :
    (∀ r, (∃ f, opt H f (warps s (w :: ws)) = .ok r) ↔ ∃ f, opt H f (.warp s (total (w :: ws)) w.d a) = .ok r) ∧
    ∀ (E : Env V) i, (∃ f, finalize H E f (warps s (w :: ws)) = .ok i) ↔
      ∃ f, finalize H E f (.warp s (total (w :: ws)) w.d a) = .ok i := by
  have := warps_out (H := H) ⟨hs.ok.1, hs.ok.2, ho⟩ ha hb w ws h hne
  exact ⟨this, same_arrays this⟩

theorem sure_code {a : Algo} (h : a.noopEps = 0) : Sure Heur.code a := by
  intro m
  rw [h]
  exact ⟨code_negl_zero, by rintro rfl; decide +kernel⟩

/-- A concat of a crop of a moved file and a file that was moved with nearest-neighbour interpolation. -/
def oddPair : Node := .concat [.crop (.warp (.leaf rgbLeaf) (.trans (1 / 2) 1) (6, 5) .default) 1 5 0 5 none,
  .warp (.leaf { rgbLeaf with id := 2 }) (.trans (1 / 2) 1) (5, 4) { Algo.default with interp := .nearest }] (5, 4)

theorem oddPair_built : Built oddPair := by
  have hn : ∀ d : Nat × Nat, Nonneg ((d.1 : Int), (d.2 : Int)) := fun d => ⟨by simp, by simp⟩
  refine built_of _ ⟨by simp, ⟨⟨rgb_wf 1, by decide +kernel⟩, by decide, by decide, trivial⟩, rfl,
    ⟨rgb_wf 2, by decide +kernel⟩, rfl, trivial⟩ ?_
  exact ⟨hn (5, 4), ⟨⟨hn (6, 5), hn (5, 4)⟩, by decide, by decide, by decide, by decide⟩, ⟨hn (5, 4), hn (5, 4)⟩, trivial⟩

theorem oddPair_noOv : NoOv oddPair := ⟨.inl rfl, .inl rfl, trivial⟩

/-- Optimizing the concat first, then warping: another image before, the same image after optimizing. -/
example : ∃ q, Early Heur.code (.warp oddPair (.scale 2) (10, 8) .default) (.warp q (.scale 2) (10, 8) .default) ∧
    paths q ≠ paths oddPair ∧ ∃ f r, opt Heur.code f (.warp oddPair (.scale 2) (10, 8) .default) = .ok r ∧
      ∃ g, opt Heur.code g (.warp q (.scale 2) (10, 8) .default) = .ok r := by
  obtain ⟨q, e, hq⟩ := holds_ok (x := opt Heur.code 40 oddPair) (f := fun m => decide (paths m ≠ paths oddPair))
    (by decide +kernel)
  obtain ⟨r, er, _⟩ := holds_ok (x := opt Heur.code 40 (.warp oddPair (.scale 2) (10, 8) .default)) (f := fun _ => true)
    (by decide +kernel)
  have he : Early Heur.code (.warp oddPair (.scale 2) (10, 8) .default) (.warp q (.scale 2) (10, 8) .default) :=
    .warp _ _ _ (.opt 40 e (.refl _)) (.refl _)
  have hp := plain_warp ⟨oddPair_built.ok.1, oddPair_built.ok.2, oddPair_noOv⟩ (A := .scale 2) (by decide +kernel)
    (d := (10, 8)) ⟨by decide, by decide⟩ .default
  exact ⟨q, he, of_decide_eq_true hq, 40, r, er,
    ((C83_results (V := Unit) he (built_of _ hp.wf hp.fit) hp.noOv).1 r).1 ⟨40, er⟩⟩

/-- Three warps of a concat and one. -/
example : ∃ f r, opt Heur.code f (warps oddPair [⟨.trans 1 0, (9, 9), .default⟩, ⟨.scale (1 / 3), (7, 7), .default⟩,
      ⟨⟨1, 1, 0, 0, 1, 0⟩, (8, 4), .default⟩]) = .ok r ∧
    ∃ g, opt Heur.code g (.warp oddPair ⟨1 / 3, 1 / 3, 1, 0, 1 / 3, 0⟩ (9, 9) .default) = .ok r := by
  obtain ⟨r, er, _⟩ := holds_ok (x := opt Heur.code 40 (warps oddPair [⟨.trans 1 0, (9, 9), .default⟩,
    ⟨.scale (1 / 3), (7, 7), .default⟩, ⟨⟨1, 1, 0, 0, 1, 0⟩, (8, 4), .default⟩])) (f := fun _ => true) (by decide +kernel)
  have e : total [⟨.trans 1 0, (9, 9), .default⟩, ⟨.scale (1 / 3), (7, 7), .default⟩,
      ⟨⟨1, 1, 0, 0, 1, 0⟩, (8, 4), .default⟩] = ⟨1 / 3, 1 / 3, 1, 0, 1 / 3, 0⟩ := by decide +kernel
  have := (C30_images (H := Heur.code) (V := Unit) oddPair_built oddPair_noOv (a := .default) (sure_code rfl) rfl
    ⟨.trans 1 0, (9, 9), .default⟩ [⟨.scale (1 / 3), (7, 7), .default⟩, ⟨⟨1, 1, 0, 0, 1, 0⟩, (8, 4), .default⟩]
    (by
      intro v hv
      simp only [List.mem_cons, List.not_mem_nil, or_false] at hv
      rcases hv with rfl | rfl | rfl <;> exact ⟨by decide +kernel, ⟨by decide, by decide⟩, rfl⟩)
    (by
      intro _ v t ht _ _ hd
      have hv : v ∈ [⟨.trans 1 0, (9, 9), .default⟩, ⟨.scale (1 / 3), (7, 7), .default⟩,
        (⟨⟨1, 1, 0, 0, 1, 0⟩, (8, 4), .default⟩ : Call)] := ht.subset (by simp)
      simp only [List.mem_cons, List.not_mem_nil, or_false] at hv
      rcases hv with rfl | rfl | rfl <;> revert hd <;> decide)).1 r
  rw [e] at this
  exact ⟨40, r, er, this.1 ⟨40, er⟩⟩

/-- C30 fails for concats scaled up and back: the product of the transforms is the identity, and a warp by the identity
leaves the concat as it is, but after the two warps the moved part of the concat is interpolated with the parameters of the
warps instead of its own. -/
theorem C30_concat_violated : Built oddPair ∧ NoOv oddPair ∧ ∃ w v : Call, w.algo = .default ∧ v.algo = .default ∧
    w.tf.det ≠ 0 ∧ v.tf.det ≠ 0 ∧ Nonneg w.d ∧ Nonneg v.d ∧ ∃ a b, opt Heur.code 40 (warps oddPair [w, v]) = .ok a ∧
      opt Heur.code 40 (.warp oddPair (total [w, v]) w.d .default) = .ok b ∧
      (∃ p ∈ paths b, Step.warp true ∈ p) ∧ ∀ p ∈ paths a, Step.warp true ∉ p := by
  refine ⟨oddPair_built, oddPair_noOv, ⟨.scale (1 / 2), (5, 4), .default⟩, ⟨.scale 2, (10, 8), .default⟩, rfl, rfl,
    by decide +kernel, by decide +kernel, ⟨by decide, by decide⟩, ⟨by decide, by decide⟩, ?_⟩
  obtain ⟨a, ha, ea⟩ := holds_ok (x := opt Heur.code 40 (warps oddPair [⟨.scale (1 / 2), (5, 4), .default⟩,
    ⟨.scale 2, (10, 8), .default⟩])) (f := fun m => decide (∀ p ∈ paths m, Step.warp true ∉ p)) (by decide +kernel)
  obtain ⟨b, hb, eb⟩ := holds_ok (x := opt Heur.code 40 (.warp oddPair (total [⟨.scale (1 / 2), (5, 4), .default⟩,
    ⟨.scale 2, (10, 8), .default⟩]) (5, 4) .default)) (f := fun m => decide (∃ p ∈ paths m, Step.warp true ∈ p))
    (by decide +kernel)
  exact ⟨a, b, ha, hb, of_decide_eq_true eb, of_decide_eq_true ea⟩

/-! ### C50 -/

/-- Resizing again and again, the last size first. -/
def resizes (close : Affine → Bool) (a : Algo) (n : Node) : List (Int × Int) → Node
  | [] => n
  | d :: ds => resize close (resizes close a n ds) d a false

/-- **C50**: after any number of resizes, optimizing gives the image that it gives after the last resize alone, so
finalize interpolates once and nothing is lost in between, however small the images in between were.  If the image contains
a concat, the size it already has is left out: see `C50_resize_back_violated`. -/
theorem C50_resizes (close : Affine → Bool) {n : Node} (hb : Built n) (ho : NoOv n) (hn : 0 < n.dsize.1 ∧ 0 < n.dsize.2)
    {a : Algo} (ha : Sure H a) (hc : a.common = a) (d : Int × Int) (ds : List (Int × Int))
    (hd : ∀ e ∈ d :: ds, 0 < e.1 ∧ 0 < e.2) (hne : hasCat n = true → n.dsize ∉ d :: ds) :
    (∀ r, (∃ f, opt H f (resizes close a n (d :: ds)) = .ok r) ↔ ∃ f, opt H f (resize close n d a false) = .ok r) ∧
    ∀ (E : Env V) i, (∃ f, finalize H E f (resizes close a n (d :: ds)) = .ok i) ↔
      ∃ f, finalize H E f (resize close n d a false) = .ok i := by
  have hp : Plain n := ⟨hb.ok.1, hb.ok.2, ho⟩
  have det : ∀ x y z w : Int, 0 < x → 0 < y → 0 < z → 0 < w →
      (⟨(x : ℚ) / z, 0, 0, 0, (y : ℚ) / w, 0⟩ : Affine).det ≠ 0 := by
    intro x y z w h1 h2 h3 h4
    have h1' : (x : ℚ) ≠ 0 := by exact_mod_cast h1.ne'
    have h2' : (y : ℚ) ≠ 0 := by exact_mod_cast h2.ne'
    have h3' : (z : ℚ) ≠ 0 := by exact_mod_cast h3.ne'
    have h4' : (w : ℚ) ≠ 0 := by exact_mod_cast h4.ne'
    simp [Affine.det, h1', h2', h3', h4']
  have nn : ∀ e : Int × Int, 0 < e.1 ∧ 0 < e.2 → Nonneg e := fun e h => ⟨h.1.le, h.2.le⟩
  have key : ∀ (ds : List (Int × Int)) d, (∀ e ∈ d :: ds, 0 < e.1 ∧ 0 < e.2) → (hasCat n = true → n.dsize ∉ d :: ds) →
      Plain (resizes close a n (d :: ds)) ∧ (resizes close a n (d :: ds)).dsize = d ∧
      ∀ r, Out H (resizes close a n (d :: ds)) r ↔ Out H (resize close n d a false) r := by
    intro ds
    induction ds with
    | nil =>
      intro d h _
      obtain ⟨h1, h2⟩ := h d (by simp)
      exact ⟨plain_warp hp (det _ _ _ _ h1 h2 hn.1 hn.2) (nn d ⟨h1, h2⟩) a, rfl, fun _ => Iff.rfl⟩
    | cons e es ih =>
      intro d h hx
      obtain ⟨h1, h2⟩ := h d (by simp)
      obtain ⟨e1, e2⟩ := h e (by simp)
      obtain ⟨i1, i2, i3⟩ := ih e (fun v hv => h v (by simp [List.mem_cons.1 hv])) (fun hcat hm =>
        hx hcat (by simp [List.mem_cons.1 hm]))
      have hB := det d.1 d.2 e.1 e.2 h1 h2 e1 e2
      have hA := det e.1 e.2 n.dsize.1 n.dsize.2 e1 e2 hn.1 hn.2
      have eq : resizes close a n (d :: e :: es) = .warp (resizes close a n (e :: es))
          ⟨(d.1 : ℚ) / e.1, 0, 0, 0, (d.2 : ℚ) / e.2, 0⟩ d a := by
        rw [resizes, resize, i2]
        rfl
      have q1 : (e.1 : ℚ) ≠ 0 := by exact_mod_cast e1.ne'
      have q2 : (e.2 : ℚ) ≠ 0 := by exact_mod_cast e2.ne'
      have prod : (⟨(d.1 : ℚ) / e.1, 0, 0, 0, (d.2 : ℚ) / e.2, 0⟩ : Affine) *
          ⟨(e.1 : ℚ) / n.dsize.1, 0, 0, 0, (e.2 : ℚ) / n.dsize.2, 0⟩ =
          ⟨(d.1 : ℚ) / n.dsize.1, 0, 0, 0, (d.2 : ℚ) / n.dsize.2, 0⟩ := by
        ext <;> simp [Affine.mul_def, Affine.mul] <;> field_simp
      refine ⟨?_, by rw [eq]; rfl, fun r => ?_⟩
      · rw [eq]; exact plain_warp i1 hB (nn d ⟨h1, h2⟩) a
      · rw [eq, out_congr i1 (plain_warp hp hA (nn e ⟨e1, e2⟩) a) i3 hB (nn d ⟨h1, h2⟩) a r,
          two_warps ha hc hA hB (nn e ⟨e1, e2⟩) (nn d ⟨h1, h2⟩) hp
            (fun hcat _ hh => hx hcat (by simp [hh])) r, prod]
        rfl
  have := (key ds d hd hne).2.2
  exact ⟨this, same_arrays this⟩

/-- A concat shrunk to one pixel and enlarged again: the shrinking does no harm. -/
example : ∃ f r, opt Heur.code f (resizes Heur.code.closeId .default oddPair [(10, 9), (1, 1)]) = .ok r ∧
    ∃ g, opt Heur.code g (resize Heur.code.closeId oddPair (10, 9) .default false) = .ok r := by
  obtain ⟨r, er, _⟩ := holds_ok (x := opt Heur.code 40 (resizes Heur.code.closeId .default oddPair [(10, 9), (1, 1)]))
    (f := fun _ => true) (by decide +kernel)
  exact ⟨40, r, er, ((C50_resizes (V := Unit) Heur.code.closeId oddPair_built oddPair_noOv ⟨by decide, by decide⟩
    (sure_code rfl) rfl (10, 9) [(1, 1)] (by decide) (fun _ => by decide)).1 r).1 ⟨40, er⟩⟩

/-- C50 fails for concats resized and resized back: the part with nearest-neighbour interpolation is interpolated linearly
then. -/
theorem C50_resize_back_violated : Built oddPair ∧ NoOv oddPair ∧ ∃ a b,
    opt Heur.code 40 (resizes Heur.code.closeId .default oddPair [oddPair.dsize, (10, 8)]) = .ok a ∧
    opt Heur.code 40 (resize Heur.code.closeId oddPair oddPair.dsize .default false) = .ok b ∧
      (∃ p ∈ paths b, Step.warp true ∈ p) ∧ ∀ p ∈ paths a, Step.warp true ∉ p := by
  refine ⟨oddPair_built, oddPair_noOv, ?_⟩
  obtain ⟨a, ha, ea⟩ := holds_ok (x := opt Heur.code 40 (resizes Heur.code.closeId .default oddPair
    [oddPair.dsize, (10, 8)])) (f := fun m => decide (∀ p ∈ paths m, Step.warp true ∉ p)) (by decide +kernel)
  obtain ⟨b, hb, eb⟩ := holds_ok (x := opt Heur.code 40 (resize Heur.code.closeId oddPair oddPair.dsize .default false))
    (f := fun m => decide (∃ p ∈ paths m, Step.warp true ∈ p)) (by decide +kernel)
  exact ⟨a, b, ha, hb, of_decide_eq_true eb, of_decide_eq_true ea⟩

end Verif.Props
