/-
C83: optimizing parts of an image before going on with them makes no difference.
-/
import Verif.BuiltIff
import Verif.Props.Opt

namespace Verif.Props

open Verif.Tree Verif.Helpers Verif.Tree.Node

variable {V : Type} {H : Heur} {P : Node → Prop} {R : Node → Node → Prop}

/-- The second image is the first one with some of the images it is made of replaced by what `optimize`
returned for them, any number of times and at any places.  Parts of concats must keep their size, or the
concat could not be made; without overviews they do (`C83_announced_partial`). -/
inductive Early (H : Heur) : Node → Node → Prop
  | refl (n : Node) : Early H n n
  | opt {n m r : Node} (fuel : Nat) (h : Tree.opt H fuel n = .ok m) (t : Early H m r) : Early H n r
  | warp {s s' : Node} (tf : Affine) (d : Int × Int) (a : Algo) (h : Early H s s') {r : Node}
      (t : Early H (.warp s' tf d a) r) : Early H (.warp s tf d a) r
  | crop {s s' : Node} (y0 y1 x0 x1 : Int) (c : Option (List Nat)) (h : Early H s s') {r : Node}
      (t : Early H (.crop s' y0 y1 x0 x1 c) r) : Early H (.crop s y0 y1 x0 x1 c) r
  | overview {s s' : Node} (k : Int) (d : Int × Int) (h : Early H s s') {r : Node}
      (t : Early H (.overview s' k d) r) : Early H (.overview s k d) r
  | dequant {s s' : Node} (q : Quantization) (d : Int × Int) (h : Early H s s') {r : Node}
      (t : Early H (.dequant s' q d) r) : Early H (.dequant s q d) r
  | concat {as bs : List Node} {p p' : Node} (d : Int × Int) (h : Early H p p') (hd : p'.dsize = p.dsize)
      {r : Node} (t : Early H (.concat (as ++ p' :: bs) d) r) : Early H (.concat (as ++ p :: bs) d) r

theorem forall₂_mid {α β : Type} {S : α → β → Prop} {as bs : List α} {as' bs' : List β} {p : α} {q : β}
    (h1 : List.Forall₂ S as as') (h : S p q) (h2 : List.Forall₂ S bs bs') :
    List.Forall₂ S (as ++ p :: bs) (as' ++ q :: bs') := List.rel_append h1 (.cons h h2)

/-- What the rules of `optimize` respect is respected by optimizing in advance. -/
theorem early_good (hr : Rules H P R) {n m : Node} (h : Early H n m) : P n → P m ∧ R n m := by
  have step : ∀ {n x x' r : Node}, P n → subOf n = .ok (some x) → (P x → P x' ∧ R x x') →
      (P (setSub n x') → P r ∧ R (setSub n x') r) → P r ∧ R n r := by
    intro n x x' r hp hx i1 i2
    obtain ⟨a3, a4⟩ := i1 (hr.sub hp hx)
    obtain ⟨c3, c4⟩ := hr.cong hp hx a3 a4
    obtain ⟨b3, b4⟩ := i2 c3
    exact ⟨b3, hr.trans c4 b4⟩
  induction h with
  | refl n => exact fun hp => ⟨hp, hr.refl n⟩
  | opt fuel h _ ih =>
    intro hp
    have g := opt_good (deep := false) hr (by simp) fuel _ _ hp h
    obtain ⟨b3, b4⟩ := ih g.inv
    exact ⟨b3, hr.trans g.rel b4⟩
  | warp tf d a _ _ ih1 ih2 => exact fun hp => step hp rfl ih1 ih2
  | crop y0 y1 x0 x1 c _ _ ih1 ih2 => exact fun hp => step hp rfl ih1 ih2
  | overview k d _ _ ih1 ih2 => exact fun hp => step hp rfl ih1 ih2
  | dequant q d _ _ ih1 ih2 => exact fun hp => step hp rfl ih1 ih2
  | @concat as bs p p' d _ hd _ _ ih1 ih2 =>
    intro hp
    have q1 := hr.parts hp
    have hsame := hr.same hp
    obtain ⟨a3, a4⟩ := ih1 (q1 p (by simp))
    have hpd : p'.dsize = d := hd.trans (hsame p (by simp))
    have hmk : mkConcat (as ++ p' :: bs) = .ok (.concat (as ++ p' :: bs) d) := by
      have hall : ∀ q ∈ as ++ p' :: bs, q.dsize = d := by
        intro q hq
        simp only [List.mem_append, List.mem_cons] at hq
        rcases hq with hq | rfl | hq
        · exact hsame q (by simp [hq])
        · exact hpd
        · exact hsame q (by simp [hq])
      cases hl : as ++ p' :: bs with
      | nil => simp at hl
      | cons x xs =>
        rw [hl] at hall
        simp only [mkConcat]
        rw [if_pos, hall x (by simp)]
        rw [List.all_eq_true]
        intro q hq
        exact decide_eq_true ((hall q (by simp [hq])).trans (hall x (by simp)).symm)
    have s1 : ∀ l : List Node, (∀ q ∈ l, P q) → List.Forall₂ (fun a b => P b ∧ R a b) l l :=
      fun l h => List.forall₂_same.2 fun q hq => ⟨h q hq, hr.refl q⟩
    obtain ⟨c3, c4⟩ := hr.concat hp (forall₂_mid (s1 as fun q hq => q1 q (by simp [hq])) ⟨a3, a4⟩
      (s1 bs fun q hq => q1 q (by simp [hq]))) hmk
    obtain ⟨b3, b4⟩ := ih2 c3
    exact ⟨b3, hr.trans c4 b4⟩

theorem Early.trans {n m r : Node} (h : Early H n m) (g : Early H m r) : Early H n r := by
  induction h with
  | refl n => exact g
  | opt fuel h _ ih => exact .opt fuel h (ih g)
  | warp tf d a h _ _ ih => exact .warp tf d a h (ih g)
  | crop y0 y1 x0 x1 c h _ _ ih => exact .crop y0 y1 x0 x1 c h (ih g)
  | overview k d h _ _ ih => exact .overview k d h (ih g)
  | dequant q d h _ _ ih => exact .dequant q d h (ih g)
  | concat d h hd _ _ ih => exact .concat d h hd (ih g)

theorem early_sim {n m : Node} (hH : Sharp H n) (h : Early H n m) (hw : WF n) : Sim n m := by
  rcases hH with hE | ⟨h0, h1⟩
  · exact (early_good (simRules H hE) h hw).2
  · exact (early_good (sharpRules H h0) h ⟨hw, h1⟩).2

/-! ### C83 -/

/-- C83: the image made of optimized parts can be built, announces the same size and channels, and has no
overviews either. -/
theorem C83_announced_partial {n m : Node} (h : Early H n m) (hb : Built n) (ho : NoOv n) :
    Built m ∧ NoOv m ∧ m.dsize = n.dsize ∧ m.channels = n.channels ∧ m.nchan = n.nchan := by
  obtain ⟨hw, hf⟩ := hb.ok
  obtain ⟨h1, h2, h3⟩ := early_good (sizeRules H) h ⟨hw, hf, ho⟩
  obtain ⟨_, h4⟩ := early_good (nameRules H) h hw
  exact ⟨built_of _ h1.wf h1.fit, h1.noOv, h2, h4.channels, h3⟩

/-- C83: the channels, with overviews, too. -/
theorem C83_channels {n m : Node} (h : Early H n m) (hb : Built n) :
    m.channels = n.channels ∧ m.nchan = n.nchan :=
  have h4 := (early_good (nameRules H) h hb.ok.1).2
  ⟨h4.channels, h4.nchan⟩

/-- C83, sources (with overviews, too): every output channel that shows something comes from the same channel of the same file
through the same total transform and the same dequantizations, and shows at least the points it showed. -/
theorem C83_sources {n m : Node} (hH : Sharp H n) (h : Early H n m) (hb : Built n) (i : Nat) (c : Chan)
    (hc : (den n)[i]? = some c) (hv : Visible c) :
    ∃ c', (den m)[i]? = some c' ∧ c'.id = c.id ∧ c'.ch = c.ch ∧ c'.tf = c.tf ∧ c'.qs = c.qs ∧
      ∀ p, c.dom p → c'.dom p := by
  have h4 := early_sim hH h hb.ok.1
  have hlen := h4.den.length_eq
  obtain ⟨hi, e⟩ := List.getElem?_eq_some_iff.1 hc
  have hi' : i < (den m).length := by omega
  have hle : ((den n)[i]).Le ((den m)[i]) := List.Forall₂.get h4.den hi hi'
  rw [e] at hle
  refine ⟨_, List.getElem?_eq_getElem hi', ?_⟩
  obtain ⟨h1, h2⟩ := hle
  rcases h2 with h2 | ⟨h2, h3, h5, h6⟩
  · obtain ⟨p, hp⟩ := hv
    exact (h2 p hp).elim
  · exact ⟨h2, h3, h5, h6, h1⟩

/-- C83, arrays of crops, channel selections, dequantizations and concats of files in any order (`Flat`):
optimizing parts in advance changes no pixel. -/
theorem C83_arrays_flat_partial (E : Env V) {n m : Node} (h : Early H n m) (hb : Built n)
    (hf : Flat n) (hm : Each E.Matches n) (hq : ∀ q, E.deq q E.nan = E.nan) :
    ∃ i j, fin E n = .ok i ∧ fin E m = .ok j ∧ i.Same j := by
  obtain ⟨hw, hfit⟩ := hb.ok
  obtain ⟨g1, g2⟩ := early_good (exactRules H) h ⟨hw, hfit, hf.noWarp⟩
  obtain ⟨k1, _⟩ := early_good (keepRules H (nameRules H) stable_flat) h ⟨hw, hf⟩
  obtain ⟨l1, _⟩ := early_good (keepRules H (nameRules H) (stable_each (Env.moved E).Matches
    (fun _ _ _ h => by cases h))) h ⟨hw, hm⟩
  obtain ⟨i, ei, hi⟩ := fin_den (Env.moved_ok hq) n hw hfit hf.pix hm
  obtain ⟨j, ej, hj⟩ := fin_den (Env.moved_ok hq) m g1.wf g1.fit k1.2.pix l1.2
  rw [fin_flat E n hf] at ei
  rw [fin_flat E m k1.2] at ej
  exact ⟨i, j, ei, ej, shows_same g2 hi hj⟩

/-- C83, the same for `finalize()`, which optimizes: it gives the same array whether parts were optimized in
advance or not. -/
theorem C83_finalize_flat_partial (E : Env V) {n m : Node} (h : Early H n m) (hb : Built n) (hf : Flat n)
    (hm : Each E.Matches n) (hq : ∀ q, E.deq q E.nan = E.nan) {f f' : Nat} {i j : Img V}
    (hi : finalize H E f n = .ok i) (hj : finalize H E f' m = .ok j) : i.Same j := by
  have one : ∀ {a : Node} {f : Nat} {k : Img V}, Early H n a → finalize H E f a = .ok k →
      ∃ i, fin E n = .ok i ∧ i.Same k := by
    intro a f k ha hk
    rw [finalize] at hk
    split at hk
    · cases hk
    · rename_i r hr
      obtain ⟨i, j, h1, h2, h3⟩ := C83_arrays_flat_partial E (ha.trans (.opt f hr (.refl r))) hb hf hm hq
      rw [hk] at h2
      cases h2
      exact ⟨i, h1, h3⟩
  obtain ⟨u, hu, s1⟩ := one (.refl n) hi
  obtain ⟨v, hv, s2⟩ := one h hj
  rw [hu] at hv
  cases hv
  exact ⟨s1.h.symm.trans s2.h, s1.w.symm.trans s2.w, s1.n.symm.trans s2.n, fun y x k hy hx hk => by
    rw [← s1.px y x k (by rw [s1.h]; exact hy) (by rw [s1.w]; exact hx) (by rw [s1.n]; exact hk),
      s2.px y x k (by rw [s1.h]; exact hy) (by rw [s1.w]; exact hx) (by rw [s1.n]; exact hk)]⟩

/-- C83, arrays with warps that mirror, turn by quarters or move by whole pixels: the shape is the same and every pixel that is not NaN keeps its
value. -/
theorem C83_arrays_moves_partial (E : Env V) (hE : E.Ok) {n m : Node} (hH : Sharp H n) (h : Early H n m)
    (hb : Built n) (ho : NoOv n) (hp : Pix n) (hm : Each E.Matches n) :
    ∃ i j, fin E n = .ok i ∧ fin E m = .ok j ∧ i.h = j.h ∧ i.w = j.w ∧ i.n = j.n ∧
      ∀ y x k, y < i.h → x < i.w → k < i.n → i.px y x k ≠ E.nan → j.px y x k = i.px y x k := by
  obtain ⟨hw, hfit⟩ := hb.ok
  have hpl : Plain n := ⟨hw, hfit, ho⟩
  obtain ⟨g1, g2⟩ := early_good (pixRules H) h ⟨hpl, hp⟩
  have s2 := early_sim hH h hw
  obtain ⟨l1, _⟩ := early_good (keepRules H (nameRules H) (stable_each E.Matches
    (fun _ _ _ h => by cases h))) h ⟨hw, hm⟩
  obtain ⟨i, ei, hi⟩ := fin_den hE n hw hfit hp hm
  obtain ⟨j, ej, hj⟩ := fin_den hE m g1.1.wf g1.1.fit g1.2 l1.2
  obtain ⟨e1, e2, e3, e4⟩ := shows_sim g2.1 s2 hi hj
  exact ⟨i, j, ei, ej, e1, e2, e3, e4⟩

/-- C83: what a call makes of an image depends only on the size and the channels the image announces, so a
call on an optimized image gives the node that the call on the image gave, over the optimized image. -/
theorem C83_calls {s s' : Node} (hd : s'.dsize = s.dsize) (hc : s'.channels = s.channels) :
    (∀ tf d a, mkWarp s' tf d a = setSub (mkWarp s tf d a) s') ∧
    (∀ sl c, mkCrop s' sl c = (mkCrop s sl c).map (setSub · s')) ∧
    (∀ k, mkOverview s' k = setSub (mkOverview s k) s') ∧
    (∀ q, mkDequant s' q = setSub (mkDequant s q) s') := by
  refine ⟨fun tf d a => ?_, fun sl c => ?_, fun k => ?_, fun q => ?_⟩
  · simp only [mkWarp, setSub, hd]
  · simp only [mkCrop, chanCheck, hc, hd]
    generalize ec : s.channels = names
    cases c with
    | none =>
      cases sl with
      | none => cases names <;> rfl
      | some sl => cases names <;> rfl
    | some c =>
      cases names with
      | none => cases sl <;> rfl
      | some names =>
        simp only
        by_cases h : c.all (fun i => decide (i < names.length)) = true
        · simp only [if_pos h]
          cases sl <;> rfl
        · simp only [if_neg h]
          rfl
  · simp only [mkOverview, setSub, hd]
  · simp only [mkDequant, setSub, hd]

/-- A crop of a crop, moved and scaled. -/
def lateCrop : Node := mkWarp (.crop (.crop (.leaf rgbLeaf) 0 4 1 5 none) 1 3 0 2 none) (.scale 2) none .default

example : Built lateCrop ∧ NoOv lateCrop ∧ Sharp Heur.code lateCrop ∧ ∃ m, Early Heur.code lateCrop m ∧ m ≠ lateCrop ∧
    m = mkWarp (.crop (.leaf rgbLeaf) 1 3 1 3 none) (.scale 2) none .default := by
  have hl : rgbLeaf.WF := by
    refine ⟨?_, ?_⟩
    · intro l e
      simp only [rgbLeaf, Option.some.injEq] at e
      subst e
      rfl
    · intro e
      simp [rgbLeaf] at e
  have e : lateCrop.dsize = (4, 4) := by decide +kernel
  refine ⟨built_of _ ⟨⟨⟨hl, by decide, by decide, trivial⟩, by decide, by decide, trivial⟩, by decide +kernel⟩
    ⟨?_, ⟨⟨by decide, by decide⟩, by decide, by decide, by decide, by decide⟩, by decide, by decide, by decide,
      by decide⟩, .inl rfl, sharp_code (.inl rfl) ⟨rfl, trivial⟩, _, ?_, ?_, rfl⟩
  · show Nonneg lateCrop.dsize
    rw [e]
    exact ⟨by decide, by decide⟩
  · refine .warp _ _ _ (.opt (m := .crop (.leaf rgbLeaf) 1 3 1 3 none) 40 ?_ (.refl _)) (.refl _)
    obtain ⟨m, h1, h2⟩ := holds_ok (x := opt Heur.code 40 (.crop (.crop (.leaf rgbLeaf) 0 4 1 5 none) 1 3 0 2 none))
      (f := fun m : Node => match m with
        | .crop (.leaf l) y0 y1 x0 x1 Option.none => decide (l = rgbLeaf ∧ (y0, y1, x0, x1) = (1, 3, 1, 3))
        | _ => false) (by decide +kernel)
    split at h2
    · obtain ⟨e1, e2⟩ := of_decide_eq_true h2
      simp only [Prod.mk.injEq] at e2
      obtain ⟨e2, e3, e4, e5⟩ := e2
      rw [h1, e1, e2, e3, e4, e5]
    · cases h2
  · intro h
    simp [lateCrop, mkWarp] at h

/-- C83 fails with overviews: an image can be concatenated with another one, but not after optimizing it. -/
theorem C83_overviews_violated : Built halfCrop ∧ ∃ m l : Node, Early Heur.code halfCrop m ∧ Built l ∧
    (mkConcat [halfCrop, l]).isOk = true ∧ mkConcat [m, l] = .error .coordinateCompat := by
  obtain ⟨hb, hd, m, hm, hmd⟩ := C36_size_violated
  refine ⟨hb, m, .leaf ⟨7, (1, 1), 1, some [p! "x"], none, false⟩, .opt 40 hm (.refl m), ?_, ?_, ?_⟩
  · refine .leaf _ ⟨?_, ?_⟩ ⟨by decide, by decide⟩
    · intro l e
      simp only [Option.some.injEq] at e
      subst e
      rfl
    · intro e
      simp at e
  · simp only [mkConcat]
    rw [if_pos]
    · rfl
    show (decide ((1, 1) = halfCrop.dsize) && true) = true
    rw [hd]
    rfl
  · simp only [mkConcat]
    rw [if_neg]
    show ¬ (decide ((1, 1) = m.dsize) && true) = true
    rw [hmd]
    decide

end Verif.Props
