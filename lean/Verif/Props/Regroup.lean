/-
C82: the optimized image does not depend on how parts are grouped into concats.
-/
import Verif.Stretch
import Verif.Props.Group
import Verif.Props.Fix
import Verif.Props.Resize

namespace Verif.Props

open Verif.Tree Verif.Helpers Verif.Tree.Node

variable {H : Heur}

/-! ### results of `optimize` -/

/-- `optimize` returns `m`, with a stack that is large enough. -/
def Out (H : Heur) (n m : Node) : Prop := ∃ f, opt H f n = .ok m

theorem Out.late {n m : Node} (h : Out H n m) : ∃ F, ∀ f, F ≤ f → opt H f n = .ok m := by
  obtain ⟨F, hF⟩ := h
  exact ⟨F, fun f hf => by rw [opt_extends F f hf n (by rw [hF]; simp), hF]⟩

theorem Out.det {n m m' : Node} (h : Out H n m) (h' : Out H n m') : m = m' := by
  obtain ⟨F, hF⟩ := h.late
  obtain ⟨G, hG⟩ := h'.late
  have := hF (max F G) (le_max_left _ _)
  rw [hG (max F G) (le_max_right _ _)] at this
  exact (Except.ok.inj this).symm

theorem Out.plain {n m : Node} (hn : Plain n) (h : Out H n m) :
    Plain m ∧ Done H m ∧ m.dsize = n.dsize ∧ m.nchan = n.nchan := by
  obtain ⟨F, hF⟩ := h
  have g := opt_good (deep := false) (sizeRules H) (by simp) F n m hn hF
  exact ⟨g.inv, opt_done F n m hn hF, g.rel.1, g.rel.2⟩

theorem done_late {m : Node} (hp : Plain m) (hd : Done H m) : ∃ F, ∀ f, F ≤ f → opt H f m = .ok m :=
  ⟨deepness m, fun f hf => done_opt f m hp.noOv hd hf⟩

/-! ### operations on concats -/

/-- The image is a concat with operations applied. -/
def hasCat : Node → Bool
  | .leaf _ => false
  | .concat _ _ => true
  | .warp s _ _ _ => hasCat s
  | .crop s _ _ _ _ _ => hasCat s
  | .overview s _ _ => hasCat s
  | .dequant s _ _ => hasCat s

theorem setSub_hasCat {n x x' : Node} (h : subOf n = .ok (some x)) : hasCat (setSub n x') = hasCat x' ∧ hasCat n = hasCat x := by
  cases n with
  | leaf l => simp [subOf] at h
  | concat _ _ => simp [subOf] at h
  | _ => cases h; exact ⟨rfl, rfl⟩

theorem mkCrop_hasCat {s r : Node} {sl : Option Space} {c : Option (List Nat)} (h : mkCrop s sl c = .ok r) :
    hasCat r = hasCat s := by
  unfold mkCrop at h
  split at h
  · cases h
  · split at h
    · cases h; rfl
    · cases h; rfl

theorem catRules (H : Heur) : Rules H Plain (fun n n' => SameDims n n' ∧ hasCat n' = hasCat n) where
  refl := fun n => ⟨(sizeRules H).refl n, rfl⟩
  trans := fun h1 h2 => ⟨(sizeRules H).trans h1.1 h2.1, h2.2.trans h1.2⟩
  sub := (sizeRules H).sub
  parts := (sizeRules H).parts
  same := (sizeRules H).same
  nan := (sizeRules H).nan
  cong := fun h hx hp hr => by
    obtain ⟨h1, h2⟩ := (sizeRules H).cong h hx hp hr.1
    obtain ⟨e1, e2⟩ := setSub_hasCat (x' := _) hx
    exact ⟨h1, h2, by rw [e1, hr.2, e2]⟩
  concat := fun h hf hc => by
    obtain ⟨h1, h2⟩ := (sizeRules H).concat h (hf.imp fun _ _ h => ⟨h.1, h.2.1⟩) hc
    obtain ⟨_, rfl, _⟩ := mkConcat_ok hc
    exact ⟨h1, h2, rfl⟩
  push := fun h hsub hs hp => by
    obtain ⟨h1, h2⟩ := (sizeRules H).push h hsub hs hp
    obtain ⟨qs, rfl, _⟩ := push_size h.wf h.fit hsub hp
    exact ⟨h1, h2, by rw [(setSub_hasCat (x' := .concat qs (0, 0)) hsub).2]; rfl⟩
  fuseWarps := fun h => ⟨((sizeRules H).fuseWarps h).1, ((sizeRules H).fuseWarps h).2, rfl⟩
  idWarp := fun h e hn => ⟨(sizeRules H).idWarp h e hn, rfl⟩
  nanWarp := fun h hn => ⟨((sizeRules H).nanWarp h hn).1, ((sizeRules H).nanWarp h hn).2, rfl⟩
  splitWarp := fun h hnum hne => absurd (numOverviews_noOv _ h.noOv _ hnum) hne
  splitOv := fun h hnum hne => absurd (numOverviews_noOv _ h.noOv _ hnum) hne
  splitCrop := fun h hnum hne => absurd (numOverviews_noOv _ h.noOv _ hnum) hne
  absorb := fun {s} _ _ _ _ _ h _ hr => by
    rw [absorb_noOv (show NoOv s from h.noOv)] at hr
    cases hr
    exact ⟨h, (sizeRules H).refl _, rfl⟩
  nanCrop := fun h hn hr => by
    obtain ⟨h1, h2⟩ := (sizeRules H).nanCrop h hn hr
    obtain ⟨_, _, _, rfl⟩ := Tree.nanCrop_form hr
    exact ⟨h1, h2, rfl⟩
  fuseCrops := fun h hr => by
    obtain ⟨h1, h2⟩ := (sizeRules H).fuseCrops h hr
    obtain ⟨_, _, rfl, _⟩ := fuseCrops_fit h.wf h.fit hr
    exact ⟨h1, h2, rfl⟩
  warpAfterCrop := fun h hr => by
    obtain ⟨h1, h2⟩ := (sizeRules H).warpAfterCrop h hr
    refine ⟨h1, h2, ?_⟩
    simp only [warpAfterCrop] at hr
    split at hr
    · cases hr
    · split at hr
      · cases hr
      · rename_i i hi
        simp only [Except.ok.injEq, Option.some.injEq, Prod.mk.injEq] at hr
        obtain ⟨rfl, _⟩ := hr
        exact (mkCrop_hasCat hi).trans rfl
  dequantCrop := fun h => ⟨((sizeRules H).dequantCrop h).1, ((sizeRules H).dequantCrop h).2, rfl⟩
  take := fun h ht => by
    obtain ⟨h1, h2⟩ := (sizeRules H).take h ht
    refine ⟨h1, fun t' cr hp hr hc => ?_⟩
    obtain ⟨h3, h4⟩ := h2 t' cr hp hr.1 hc
    refine ⟨h3, h4, ?_⟩
    rw [mkCrop_hasCat hc, hr.2]
    rw [takeIdx] at ht
    split at ht
    · cases ht
    · unfold concatTake at ht
      split at ht
      · cases ht
      · split at ht
        · cases ht
        · obtain ⟨_, rfl, _⟩ := mkConcat_ok ht
          rfl
  renorm := fun h hc => ⟨((sizeRules H).renorm h hc).1, ((sizeRules H).renorm h hc).2,
    (mkCrop_hasCat hc).trans rfl⟩
  cropAfterOverview := fun h => h.noOv.elim
  warpAfterOverview := fun h => h.noOv.elim
  dequantOverview := fun h => h.noOv.elim
  ov0 := fun h => h.noOv.elim
  fuseOv := fun h => h.noOv.elim
  dequantWarp := fun h => ⟨((sizeRules H).dequantWarp h).1, ((sizeRules H).dequantWarp h).2, rfl⟩

theorem Out.hasCat {n m : Node} (hn : Plain n) (h : Out H n m) : hasCat m = hasCat n := by
  obtain ⟨F, hF⟩ := h
  exact (opt_good (deep := false) (catRules H) (by simp) F n m hn hF).rel.2

/-- An optimized image is a concat or has no concats. -/
theorem done_cat {m : Node} (hd : Done H m) (h : hasCat m = true) : ∃ ps d, m = .concat ps d := by
  have go : ∀ s : Node, Done H s → (∀ ps d, s ≠ .concat ps d) → hasCat s = false := by
    intro s
    induction s using Node.rec (motive_2 := fun _ => True) with
    | leaf l => exact fun _ _ => rfl
    | concat ps d => exact fun _ h => absurd rfl (h ps d)
    | overview s k d => exact fun h => h.elim
    | warp s tf d a ih =>
      intro h _
      rw [Done] at h
      exact ih h.1 (by rintro ps d rfl; exact h.2.1)
    | crop s y0 y1 x0 x1 c ih =>
      intro h _
      rw [Done] at h
      exact ih h.1 (by rintro ps d rfl; exact h.2)
    | dequant s q d ih =>
      intro h _
      rw [Done] at h
      exact ih h.1 (by rintro ps d rfl; exact h.2)
    | nil => trivial
    | cons _ _ _ _ => trivial
  by_contra hne
  rw [go m hd fun ps d e => hne ⟨ps, d, e⟩] at h
  cases h

/-- Optimizing starts with the source. -/
theorem out_sub {n s m : Node} (hn : Plain n) (hs : subOf n = .ok (some s)) :
    Out H n m ↔ ∃ s', Out H s s' ∧ Out H (setSub n s') m := by
  have hps : Plain s := (sizeRules H).sub hn hs
  have congr : ∀ {g : Nat} {s' : Node}, opt H g s' = opt H g s → opt H (g + 1) (setSub n s') = opt H (g + 1) n := by
    intro g s' e
    rw [opt, opt]
    cases n with
    | leaf l => simp [subOf] at hs
    | concat _ _ => simp [subOf] at hs
    | overview _ _ _ => exact hn.noOv.elim
    | warp s0 tf d a => cases hs; simp only [setSub, optStep, optWarp, e]
    | crop s0 y0 y1 x0 x1 c => cases hs; simp only [setSub, optStep, optCrop, e]
    | dequant s0 q d => cases hs; simp only [setSub, optStep, optDequant, e]
  constructor
  · intro h
    obtain ⟨s', hs'⟩ : ∃ s', Out H s s' := by
      obtain ⟨f, hf⟩ := h
      cases f with
      | zero => simp [opt] at hf
      | succ f =>
        cases e : opt H f s with
        | ok s' => exact ⟨s', f, e⟩
        | error er =>
          exfalso
          rw [opt] at hf
          cases n with
          | leaf l => simp [subOf] at hs
          | concat _ _ => simp [subOf] at hs
          | overview _ _ _ => exact hn.noOv.elim
          | warp s0 tf d a => cases hs; simp [optStep, optWarp, e] at hf
          | crop s0 y0 y1 x0 x1 c => cases hs; simp [optStep, optCrop, e] at hf
          | dequant s0 q d => cases hs; simp [optStep, optDequant, e] at hf
    obtain ⟨F, hF⟩ := h.late
    obtain ⟨G, hG⟩ := hs'.late
    obtain ⟨p1, p2, _⟩ := hs'.plain hps
    obtain ⟨K, hK⟩ := done_late p1 p2
    refine ⟨s', hs', max F (max G K) + 1, ?_⟩
    rw [congr (by rw [hG _ (by omega), hK _ (by omega)])]
    exact hF _ (by omega)
  · rintro ⟨s', hs', h⟩
    obtain ⟨F, hF⟩ := h.late
    obtain ⟨G, hG⟩ := hs'.late
    obtain ⟨p1, p2, _⟩ := hs'.plain hps
    obtain ⟨K, hK⟩ := done_late p1 p2
    refine ⟨max F (max G K) + 1, ?_⟩
    rw [← congr (s' := s') (by rw [hG _ (by omega), hK _ (by omega)])]
    exact hF _ (by omega)

theorem mapAll_late : ∀ {ps qs : List Node}, List.Forall₂ (Out H) ps qs →
    ∃ F, ∀ f, F ≤ f → mapAll (opt H f) ps = .ok qs
  | _, _, .nil => ⟨0, fun _ _ => rfl⟩
  | _, _, .cons h1 h2 => by
    obtain ⟨F, hF⟩ := h1.late
    obtain ⟨G, hG⟩ := mapAll_late h2
    exact ⟨max F G, fun f hf => by rw [mapAll, hF f (by omega), hG f (by omega)]⟩

/-- Optimizing a concat is optimizing its parts. -/
theorem out_concat {ps : List Node} {d : Int × Int} {m : Node} (hn : Plain (.concat ps d)) :
    Out H (.concat ps d) m ↔ ∃ qs, List.Forall₂ (Out H) ps qs ∧ m = .concat qs d := by
  have size : ∀ {qs : List Node}, List.Forall₂ (Out H) ps qs → mkConcat qs = .ok (.concat qs d) := by
    intro qs h
    apply mkConcat_same
    · rintro rfl
      cases h
      exact hn.wf.1 rfl
    · intro q hq
      obtain ⟨p, hp, e⟩ := forall₂_mem_right (forall₂_imp_left h (S := fun p q => q.dsize = d) fun p hp q hpq =>
        (hpq.plain ((sizeRules H).parts hn p hp)).2.2.1.trans ((sizeRules H).same hn p hp)) hq
      exact e
  constructor
  · rintro ⟨f, hf⟩
    cases f with
    | zero => simp [opt] at hf
    | succ f =>
      rw [opt] at hf
      simp only [optStep, optConcat] at hf
      split at hf
      · cases hf
      · rename_i qs hqs
        have hm := (mapAll_ok hqs).imp (S := Out H) fun p q h => ⟨f, h⟩
        rw [size hm] at hf
        cases hf
        exact ⟨qs, hm, rfl⟩
  · rintro ⟨qs, h, rfl⟩
    obtain ⟨F, hF⟩ := mapAll_late h
    refine ⟨F + 1, ?_⟩
    rw [opt]
    simp only [optStep, optConcat, hF F (le_refl _), size h]

/-! ### parts of results -/

/-- `optimize` returns an image with these parts. -/
def Res (H : Heur) (n : Node) (xs : List Node) : Prop := ∃ m, Out H n m ∧ flats m = xs

/-- The same for a list of images. -/
def ResL (H : Heur) : List Node → List Node → Prop
  | [], xs => xs = []
  | p :: ps, xs => ∃ ys zs, Res H p ys ∧ ResL H ps zs ∧ xs = ys ++ zs

theorem resL_append : ∀ {ps qs xs : List Node},
    ResL H (ps ++ qs) xs ↔ ∃ ys zs, ResL H ps ys ∧ ResL H qs zs ∧ xs = ys ++ zs
  | [], qs, xs => by
    constructor
    · exact fun h => ⟨[], xs, rfl, h, rfl⟩
    · rintro ⟨_, zs, rfl, h, rfl⟩
      exact h
  | p :: ps, qs, xs => by
    constructor
    · rintro ⟨ys, zs, h1, h2, rfl⟩
      obtain ⟨us, vs, h3, h4, rfl⟩ := resL_append.1 h2
      exact ⟨ys ++ us, vs, ⟨ys, us, h1, h3, rfl⟩, h4, by simp⟩
    · rintro ⟨_, vs, ⟨ys, us, h1, h3, rfl⟩, h4, rfl⟩
      exact ⟨ys, us ++ vs, h1, resL_append.2 ⟨us, vs, h3, h4, rfl⟩, by simp⟩

theorem resL_one {p : Node} {xs : List Node} : ResL H [p] xs ↔ Res H p xs := by
  constructor
  · rintro ⟨ys, _, h, rfl, rfl⟩
    simpa using h
  · exact fun h => ⟨xs, [], h, rfl, by simp⟩

theorem resL_congr {f g : Node → List Node} : ∀ {ps : List Node},
    (∀ p ∈ ps, ∀ xs, ResL H (f p) xs ↔ ResL H (g p) xs) → ∀ xs, ResL H (ps.flatMap f) xs ↔ ResL H (ps.flatMap g) xs
  | [], _, xs => Iff.rfl
  | p :: ps, h, xs => by
    rw [List.flatMap_cons, List.flatMap_cons, resL_append, resL_append]
    constructor
    · rintro ⟨ys, zs, h1, h2, rfl⟩
      exact ⟨ys, zs, (h p (by simp) ys).1 h1, (resL_congr (fun q hq => h q (by simp [hq])) zs).1 h2, rfl⟩
    · rintro ⟨ys, zs, h1, h2, rfl⟩
      exact ⟨ys, zs, (h p (by simp) ys).2 h1, (resL_congr (fun q hq => h q (by simp [hq])) zs).2 h2, rfl⟩

theorem resL_forall₂ : ∀ {ps qs : List Node}, List.Forall₂ (Out H) ps qs → ResL H ps (flatsL qs)
  | _, _, .nil => rfl
  | _, _, .cons h1 h2 => ⟨_, _, ⟨_, h1, rfl⟩, resL_forall₂ h2, rfl⟩

theorem forall₂_resL : ∀ {ps xs : List Node}, ResL H ps xs → ∃ qs, List.Forall₂ (Out H) ps qs ∧ flatsL qs = xs
  | [], _, h => ⟨[], .nil, h.symm⟩
  | p :: ps, _, ⟨ys, zs, ⟨m, h1, e⟩, h2, e'⟩ => by
    obtain ⟨qs, h3, h4⟩ := forall₂_resL h2
    exact ⟨m :: qs, .cons h1 h3, by rw [flatsL, e, h4, e']⟩

theorem res_concat {ps : List Node} {d : Int × Int} {xs : List Node} (hn : Plain (.concat ps d)) :
    Res H (.concat ps d) xs ↔ ResL H ps xs := by
  constructor
  · rintro ⟨m, h, rfl⟩
    obtain ⟨qs, h1, rfl⟩ := (out_concat hn).1 h
    exact resL_forall₂ h1
  · intro h
    obtain ⟨qs, h1, h2⟩ := forall₂_resL h
    exact ⟨_, (out_concat hn).2 ⟨qs, h1, rfl⟩, h2⟩

theorem resL_parts {p : Node} {xs : List Node} (hp : Plain p) : ResL H (partsOf p) xs ↔ Res H p xs := by
  cases p with
  | concat ps d => exact (res_concat hp).symm
  | _ => exact resL_one

mutual
theorem res_flats : ∀ (n : Node), Plain n → ∀ xs, (Res H n xs ↔ ResL H (flats n) xs)
  | .concat ps d, hn, xs => by
    rw [res_concat hn, flats, resL_flats ps (fun p hp => (sizeRules H).parts hn p hp) xs]
  | .leaf _, _, _ => resL_one.symm
  | .warp _ _ _ _, _, _ => resL_one.symm
  | .crop _ _ _ _ _ _, _, _ => resL_one.symm
  | .overview _ _ _, _, _ => resL_one.symm
  | .dequant _ _ _, _, _ => resL_one.symm
theorem resL_flats : ∀ (ps : List Node), (∀ p ∈ ps, Plain p) → ∀ xs, (ResL H ps xs ↔ ResL H (flatsL ps) xs)
  | [], _, _ => Iff.rfl
  | p :: ps, h, xs => by
    rw [flatsL, resL_append]
    constructor
    · rintro ⟨ys, zs, h1, h2, rfl⟩
      exact ⟨ys, zs, (res_flats p (h p (by simp)) ys).1 h1, (resL_flats ps (fun q hq => h q (by simp [hq])) zs).1 h2, rfl⟩
    · rintro ⟨ys, zs, h1, h2, rfl⟩
      exact ⟨ys, zs, (res_flats p (h p (by simp)) ys).2 h1, (resL_flats ps (fun q hq => h q (by simp [hq])) zs).2 h2, rfl⟩
end

/-! ### pushing operations under concats -/

/-- An operation that keeps all channels. -/
inductive Op where
  | warp (tf : Affine) (d : Int × Int) (a : Algo)
  | crop (y0 y1 x0 x1 : Int)
  | deq (q : Quantization)

/-- Apply an operation. -/
def Op.on : Op → Node → Node
  | .warp tf d a, s => .warp s tf d a
  | .crop y0 y1 x0 x1, s => .crop s y0 y1 x0 x1 none
  | .deq q, s => mkDequant s q

/-- The size of the result for a source of the given size. -/
def Op.size : Op → Int × Int → Int × Int
  | .warp _ d _, _ => d
  | .crop y0 y1 x0 x1, _ => (x1 - x0, y1 - y0)
  | .deq _, d => d

/-- A warp that is left out. -/
def Op.Skips (H : Heur) : Op → Int × Int → Prop
  | .warp tf d a, e => d = e ∧ H.negl a.noopEps tf = true
  | _, _ => False

instance (o : Op) (e : Int × Int) : Decidable (o.Skips H e) := by
  cases o <;> unfold Op.Skips <;> infer_instance

theorem Op.on_dsize (o : Op) (s : Node) : (o.on s).dsize = o.size s.dsize := by
  cases o <;> rfl

theorem Op.subOf (o : Op) (s : Node) : subOf (o.on s) = .ok (some s) := by
  cases o <;> rfl

theorem Op.setSub (o : Op) {s s' : Node} (h : s'.dsize = s.dsize) : setSub (o.on s) s' = o.on s' := by
  cases o with
  | deq q => simp only [Op.on, mkDequant, Tree.setSub, h]
  | _ => rfl

/-- An operation that can be applied to an image can be applied to every image of its size. -/
theorem Op.plain (o : Op) {s s' : Node} (h : Plain (o.on s)) (hs : Plain s') (hd : s'.dsize = s.dsize) :
    Plain (o.on s') := by
  cases o with
  | warp tf d a => exact ⟨⟨hs.wf, h.wf.2⟩, ⟨h.fit.1, hs.fit⟩, hs.noOv⟩
  | crop y0 y1 x0 x1 =>
    obtain ⟨_, f1, f2, f3, f4⟩ := h.fit
    exact ⟨⟨hs.wf, h.wf.2.1, h.wf.2.2.1, trivial⟩, ⟨hs.fit, f1, by rw [hd]; exact f2, f3, by rw [hd]; exact f4⟩, hs.noOv⟩
  | deq q => exact ⟨hs.wf, ⟨hs.fit, rfl⟩, hs.noOv⟩

theorem Op.out (o : Op) {s m : Node} (h : Plain (o.on s)) :
    Out H (o.on s) m ↔ ∃ s', Out H s s' ∧ Out H (o.on s') m := by
  have hs : Plain s := (sizeRules H).sub h (o.subOf s)
  rw [out_sub h (o.subOf s)]
  constructor
  · rintro ⟨s', h1, h2⟩
    rw [o.setSub (h1.plain hs).2.2.1] at h2
    exact ⟨s', h1, h2⟩
  · rintro ⟨s', h1, h2⟩
    refine ⟨s', h1, ?_⟩
    rw [o.setSub (h1.plain hs).2.2.1]
    exact h2

theorem Op.reapply (o : Op) {ps : List Node} {d : Int × Int} {p : Node} (h : Plain (o.on (.concat ps d))) (hp : p.dsize = d) :
    reapply (o.on (.concat ps d)) p = .ok (o.on p) := by
  cases o with
  | warp tf d a => rfl
  | deq q => rfl
  | crop y0 y1 x0 x1 =>
    obtain ⟨_, f1, f2, f3, f4⟩ := h.fit
    have hc : ∃ r, mkCrop p (ints y0 y1 x0 x1) none = .ok r := ⟨_, rfl⟩
    obtain ⟨r, hr⟩ := hc
    have := mkCrop_fit hr h.wf.2.1 h.wf.2.2.1 f1 (by rw [hp]; exact f2) f3 (by rw [hp]; exact f4)
    show mkCrop p (ints y0 y1 x0 x1) none = _
    rw [hr, this]
    rfl

theorem mapAll_map {f : Node → Py Node} {g : Node → Node} : ∀ {ps : List Node}, (∀ p ∈ ps, f p = .ok (g p)) →
    mapAll f ps = .ok (ps.map g)
  | [], _ => rfl
  | p :: ps, h => by
    rw [mapAll, h p (by simp), mapAll_map (ps := ps) fun q hq => h q (by simp [hq])]
    rfl

theorem Op.pushUnder (o : Op) {ps : List Node} {d : Int × Int} (h : Plain (o.on (.concat ps d))) :
    pushUnder (o.on (.concat ps d)) ps = .ok (some (.concat (ps.map o.on) (o.size d))) := by
  have hc : Plain (.concat ps d) := (sizeRules Heur.exact).sub h (o.subOf _)
  unfold Tree.pushUnder
  rw [mapAll_map fun p hp => o.reapply h ((sizeRules Heur.exact).same hc p hp)]
  simp only
  rw [mkConcat_same (d := o.size d)]
  · simpa using hc.wf.1
  · intro q hq
    obtain ⟨p, hp, rfl⟩ := List.mem_map.1 hq
    rw [o.on_dsize, (sizeRules Heur.exact).same hc p hp]

theorem Op.pushed (o : Op) {ps : List Node} {d : Int × Int} (h : Plain (o.on (.concat ps d))) :
    Plain (.concat (ps.map o.on) (o.size d)) := by
  refine ((sizeRules Heur.exact).push h (o.subOf _) ?_ (o.pushUnder h)).1
  cases o <;> exact id

/-- One step of `optimize` on an operation on a finished concat. -/
theorem Op.step (o : Op) {ps : List Node} {d : Int × Int} (h : Plain (o.on (.concat ps d)))
    (hd : Done H (.concat ps d)) (hk : ¬ o.Skips H d) : ∃ F, ∀ f, F ≤ f →
      opt H (f + 1) (o.on (.concat ps d)) = opt H f (.concat (ps.map o.on) (o.size d)) := by
  obtain ⟨F, hF⟩ := done_late ((sizeRules H).sub h (o.subOf _)) hd
  refine ⟨F, fun f hf => ?_⟩
  have e := hF f hf
  have hp := o.pushUnder h
  rw [opt]
  cases o with
  | warp tf d' a =>
    simp only [Op.on] at hp ⊢
    simp only [optStep, optWarp, e, warpRest, hp]
    exact if_neg hk
  | deq q =>
    simp only [Op.on, mkDequant] at hp ⊢
    simp only [optStep, optDequant, e, finish, Tree.subOf, hp]
  | crop y0 y1 x0 x1 =>
    have hc : mkCrop (.concat ps d) (ints y0 y1 x0 x1) none = .ok (.crop (.concat ps d) y0 y1 x0 x1 none) :=
      (Op.crop y0 y1 x0 x1).reapply h rfl
    simp only [Op.on] at hp ⊢
    simp only [optStep, optCrop, e, cropRest, finishCrop, cropConcat, hc, hp]

theorem Op.out_concat (o : Op) {ps : List Node} {d : Int × Int} {m : Node} (h : Plain (o.on (.concat ps d)))
    (hd : Done H (.concat ps d)) (hk : ¬ o.Skips H d) :
    Out H (o.on (.concat ps d)) m ↔ Out H (.concat (ps.map o.on) (o.size d)) m := by
  obtain ⟨F, hF⟩ := o.step h hd hk
  constructor
  · intro h1
    obtain ⟨G, hG⟩ := h1.late
    exact ⟨max F G, by rw [← hF _ (by omega)]; exact hG _ (by omega)⟩
  · intro h1
    obtain ⟨G, hG⟩ := h1.late
    exact ⟨max F G + 1, by rw [hF _ (by omega)]; exact hG _ (by omega)⟩

mutual
/-- The operation is applied to the parts of the parts. -/
theorem Op.res_done (o : Op) : ∀ (s : Node), Plain (o.on s) → Done H s → ¬ o.Skips H s.dsize → ∀ xs,
    (Res H (o.on s) xs ↔ ResL H ((flats s).map o.on) xs)
  | .concat ps d, h, hd, hk, xs => by
    have e : Res H (o.on (.concat ps d)) xs ↔ Res H (.concat (ps.map o.on) (o.size d)) xs :=
      exists_congr fun m => and_congr (o.out_concat h hd hk) Iff.rfl
    have hc : Plain (.concat ps d) := (sizeRules H).sub h (o.subOf _)
    rw [e, res_concat (o.pushed h), flats, o.resL_done ps
      (fun p hp => o.plain h ((sizeRules H).parts hc p hp) ((sizeRules H).same hc p hp))
      (fun p hp => ((DoneL_iff _ _ _).1 hd.2 p hp).1)
      (fun p hp => by rw [(sizeRules H).same hc p hp]; exact hk) xs]
  | .leaf _, _, _, _, _ => resL_one.symm
  | .warp _ _ _ _, _, _, _, _ => resL_one.symm
  | .crop _ _ _ _ _ _, _, _, _, _ => resL_one.symm
  | .overview _ _ _, _, _, _, _ => resL_one.symm
  | .dequant _ _ _, _, _, _, _ => resL_one.symm
theorem Op.resL_done (o : Op) : ∀ (ps : List Node), (∀ p ∈ ps, Plain (o.on p)) → (∀ p ∈ ps, Done H p) →
    (∀ p ∈ ps, ¬ o.Skips H p.dsize) → ∀ xs, (ResL H (ps.map o.on) xs ↔ ResL H ((flatsL ps).map o.on) xs)
  | [], _, _, _, _ => Iff.rfl
  | p :: ps, h, hd, hk, xs => by
    rw [flatsL, List.map_append, resL_append, List.map_cons]
    have h1 := o.res_done p (h p (by simp)) (hd p (by simp)) (hk p (by simp))
    have h2 := o.resL_done ps (fun q hq => h q (by simp [hq])) (fun q hq => hd q (by simp [hq]))
      (fun q hq => hk q (by simp [hq]))
    exact exists_congr fun ys => exists_congr fun zs => and_congr (h1 ys) (and_congr (h2 zs) Iff.rfl)
end

/-- An operation on an image with concats, in terms of the parts of the optimized image. -/
theorem Op.res (o : Op) {s : Node} (h : Plain (o.on s)) (hc : hasCat s = true) (xs : List Node) :
    Res H (o.on s) xs ↔ if o.Skips H s.dsize then Res H s xs else ∃ ys, Res H s ys ∧ ResL H (ys.map o.on) xs := by
  have hs : Plain s := (sizeRules H).sub h (o.subOf s)
  have e : Res H (o.on s) xs ↔ ∃ s', Out H s s' ∧ Res H (o.on s') xs := by
    constructor
    · rintro ⟨m, h1, h2⟩
      obtain ⟨s', h3, h4⟩ := (o.out h).1 h1
      exact ⟨s', h3, m, h4, h2⟩
    · rintro ⟨s', h3, m, h4, h2⟩
      exact ⟨m, (o.out h).2 ⟨s', h3, h4⟩, h2⟩
  rw [e]
  split
  · rename_i hk
    constructor
    · rintro ⟨s', h1, h2⟩
      obtain ⟨p1, p2, p3, _⟩ := h1.plain hs
      obtain ⟨ps, d, rfl⟩ := done_cat p2 ((h1.hasCat hs).trans hc)
      cases o with
      | crop _ _ _ _ => exact hk.elim
      | deq _ => exact hk.elim
      | warp tf d' a =>
        refine ⟨_, h1, ?_⟩
        obtain ⟨m, hm, rfl⟩ := h2
        obtain ⟨F, hF⟩ := done_late p1 p2
        have : Out H (.warp (.concat ps d) tf d' a) (.concat ps d) := by
          refine ⟨F + 1, ?_⟩
          rw [opt]
          simp only [optStep, optWarp, hF F (le_refl _), warpRest]
          rw [if_pos (by rw [p3]; exact hk)]
        rw [Out.det hm this]
    · rintro ⟨s', h1, h2⟩
      obtain ⟨p1, p2, p3, _⟩ := h1.plain hs
      obtain ⟨ps, d, rfl⟩ := done_cat p2 ((h1.hasCat hs).trans hc)
      cases o with
      | crop _ _ _ _ => exact hk.elim
      | deq _ => exact hk.elim
      | warp tf d' a =>
        obtain ⟨F, hF⟩ := done_late p1 p2
        refine ⟨_, h1, .concat ps d, ⟨F + 1, ?_⟩, h2⟩
        rw [opt]
        simp only [Op.on, optStep, optWarp, hF F (le_refl _), warpRest]
        rw [if_pos (by rw [p3]; exact hk)]
  · rename_i hk
    constructor
    · rintro ⟨s', h1, h2⟩
      obtain ⟨p1, p2, p3, _⟩ := h1.plain hs
      exact ⟨_, ⟨s', h1, rfl⟩, (o.res_done s' (o.plain h p1 p3) p2 (by rw [p3]; exact hk) xs).1 h2⟩
    · rintro ⟨_, ⟨s', h1, rfl⟩, h2⟩
      obtain ⟨p1, p2, p3, _⟩ := h1.plain hs
      exact ⟨s', h1, (o.res_done s' (o.plain h p1 p3) p2 (by rw [p3]; exact hk) xs).2 h2⟩

/-! ### selecting channels -/

mutual
theorem flats_channels : ∀ n : Node, channelsL (flats n) = n.channels
  | .concat ps d => by rw [flats, channels, flatsL_channels ps]
  | .leaf l => channelsL_parts (.leaf l)
  | .warp s tf d a => channelsL_parts (.warp s tf d a)
  | .crop s y0 y1 x0 x1 c => channelsL_parts (.crop s y0 y1 x0 x1 c)
  | .overview s k d => channelsL_parts (.overview s k d)
  | .dequant s q d => channelsL_parts (.dequant s q d)
theorem flatsL_channels : ∀ ps : List Node, channelsL (flatsL ps) = channelsL ps
  | [] => rfl
  | p :: ps => by rw [flatsL, channelsL_append, flats_channels p, flatsL_channels ps, channelsL_cons]
end

theorem takeIdx_concat {ps : List Node} {d : Int × Int} {c : List Nat} {t : Node} (h : takeIdx (.concat ps d) c = .ok t) :
    (∃ qs e, t = .concat qs e) ∧ c ≠ [] ∧ (channelsL ps).isSome := by
  rw [takeIdx] at h
  split at h
  · cases h
  · rename_i l hl
    refine ⟨?_, ?_, by rw [hl]; rfl⟩
    · unfold concatTake at h
      split at h
      · cases h
      · split at h
        · cases h
        · obtain ⟨e, rfl, _⟩ := mkConcat_ok h
          exact ⟨_, e, rfl⟩
    · rintro rfl
      simp [concatTake, accLoop, mapAll, mkConcat] at h

/-- A crop that selects channels of a finished concat. -/
theorem out_select {ps : List Node} {d : Int × Int} {y0 y1 x0 x1 : Int} {c : List Nat} {m : Node}
    (h : Plain (.crop (.concat ps d) y0 y1 x0 x1 (some c))) (hd : Done H (.concat ps d)) :
    Out H (.crop (.concat ps d) y0 y1 x0 x1 (some c)) m ↔
      ∃ t, takeIdx (.concat ps d) c = .ok t ∧ Out H (.crop t y0 y1 x0 x1 none) m := by
  have hs : Plain (.concat ps d) := (sizeRules H).sub h rfl
  obtain ⟨F, hF⟩ := done_late hs hd
  -- what happens after the selection
  have after : ∀ t t', takeIdx (.concat ps d) c = .ok t → Out H t t' → ∃ G, ∀ g, G ≤ g →
      opt H (g + 1) (.crop (.concat ps d) y0 y1 x0 x1 (some c)) = opt H (g + 1) (.crop t' y0 y1 x0 x1 none) := by
    intro t t' ht hto
    obtain ⟨p1, p2⟩ := (sizeRules H).take h ht
    obtain ⟨⟨qs, e, rfl⟩, _⟩ := takeIdx_concat ht
    obtain ⟨q1, q2, q3, q4⟩ := hto.plain p1
    obtain ⟨qs', e', rfl⟩ := done_cat q2 ((hto.hasCat p1).trans rfl)
    have hc : ∃ r, mkCrop (.concat qs' e') (ints y0 y1 x0 x1) none = .ok r := ⟨_, rfl⟩
    obtain ⟨r, hr⟩ := hc
    have hpr := (p2 _ _ q1 ⟨q3, q4⟩ hr).1
    have hT := takeIdx_ok _ h.wf.1 c _ h.wf.2.2.2 ht
    obtain ⟨f0, f1, f2, f3, f4⟩ := h.fit
    have ed : (Node.concat qs' e').dsize = d := q3.trans hT.dsize
    simp only [dsize] at f2 f4 ed
    have er := mkCrop_fit hr h.wf.2.1 h.wf.2.2.1 f1 (by simp only [dsize, ed]; exact f2) f3 (by
      simp only [dsize, ed]; exact f4)
    subst er
    have hpush := (Op.crop y0 y1 x0 x1).pushUnder hpr
    obtain ⟨G1, hG1⟩ := hto.late
    obtain ⟨G2, hG2⟩ := (Op.crop y0 y1 x0 x1).step (H := H) hpr q2 id
    refine ⟨max F (max G1 G2), fun g hg => ?_⟩
    refine Eq.trans ?_ (hG2 g (by omega)).symm
    simp only [Op.on] at hpush
    rw [opt]
    simp only [optStep, optCrop, hF g (by omega), cropRest, finishCrop, cropConcat, ht, hG1 g (by omega), hr, hpush]
  constructor
  · intro hm
    obtain ⟨t, ht⟩ : ∃ t, takeIdx (.concat ps d) c = .ok t := by
      obtain ⟨G, hG⟩ := hm.late
      have := hG (max F G + 1) (by omega)
      rw [opt] at this
      simp only [optStep, optCrop, hF _ (le_max_left F G), cropRest, finishCrop, cropConcat] at this
      cases ht : takeIdx (.concat ps d) c with
      | ok t => exact ⟨t, rfl⟩
      | error e => rw [ht] at this; cases this
    obtain ⟨t', hto⟩ : ∃ t', Out H t t' := by
      obtain ⟨G, hG⟩ := hm.late
      have := hG (max F G + 1) (by omega)
      rw [opt] at this
      simp only [optStep, optCrop, hF _ (le_max_left F G), cropRest, finishCrop, cropConcat, ht] at this
      cases hto : opt H (max F G) t with
      | ok t' => exact ⟨t', _, hto⟩
      | error e => rw [hto] at this; cases this
    obtain ⟨G, hG⟩ := after t t' ht hto
    obtain ⟨K, hK⟩ := hm.late
    refine ⟨t, ht, ?_⟩
    have pl : Plain (.crop t y0 y1 x0 x1 none) := by
      obtain ⟨p1, _⟩ := (sizeRules H).take h ht
      have hT := takeIdx_ok _ h.wf.1 c _ h.wf.2.2.2 ht
      obtain ⟨f0, f1, f2, f3, f4⟩ := h.fit
      exact ⟨⟨p1.wf, h.wf.2.1, h.wf.2.2.1, trivial⟩, ⟨p1.fit, f1, by rw [hT.dsize]; exact f2, f3, by
        rw [hT.dsize]; exact f4⟩, p1.noOv⟩
    refine ((Op.crop y0 y1 x0 x1).out pl).2 ⟨t', hto, max G K + 1, ?_⟩
    exact (hG _ (by omega)).symm.trans (hK _ (by omega))
  · rintro ⟨t, ht, hm⟩
    have pl : Plain (.crop t y0 y1 x0 x1 none) := by
      obtain ⟨p1, _⟩ := (sizeRules H).take h ht
      have hT := takeIdx_ok _ h.wf.1 c _ h.wf.2.2.2 ht
      obtain ⟨f0, f1, f2, f3, f4⟩ := h.fit
      exact ⟨⟨p1.wf, h.wf.2.1, h.wf.2.2.1, trivial⟩, ⟨p1.fit, f1, by rw [hT.dsize]; exact f2, f3, by
        rw [hT.dsize]; exact f4⟩, p1.noOv⟩
    obtain ⟨t', hto, hm'⟩ := ((Op.crop y0 y1 x0 x1).out pl).1 hm
    obtain ⟨G, hG⟩ := after t t' ht hto
    obtain ⟨K, hK⟩ := hm'.late
    exact ⟨max G K + 1, (hG _ (by omega)).trans (hK _ (by omega))⟩

/-- Selecting channels, in terms of the parts of the optimized image. -/
theorem select_res {s : Node} {y0 y1 x0 x1 : Int} {c : List Nat} (h : Plain (.crop s y0 y1 x0 x1 (some c)))
    (hc : hasCat s = true) (hpos : ∀ ys, Res H s ys → ∀ y ∈ ys, 0 < y.nchan) (xs : List Node) :
    Res H (.crop s y0 y1 x0 x1 (some c)) xs ↔ ∃ ys, Res H s ys ∧ (channelsL ys).isSome ∧ c ≠ [] ∧
      ∃ zs, ResL H (chooseAll ys c) zs ∧ ResL H (zs.map (Op.crop y0 y1 x0 x1).on) xs := by
  have hs : Plain s := (sizeRules H).sub h rfl
  -- the finished source
  have here : ∀ s', Out H s s' → (Res H (.crop s' y0 y1 x0 x1 (some c)) xs ↔ (channelsL (flats s')).isSome ∧ c ≠ [] ∧
      ∃ zs, ResL H (chooseAll (flats s') c) zs ∧ ResL H (zs.map (Op.crop y0 y1 x0 x1).on) xs) := by
    intro s' h1
    obtain ⟨p1, p2, p3, p4⟩ := h1.plain hs
    have hp : Plain (.crop s' y0 y1 x0 x1 (some c)) := ((sizeRules H).cong h rfl p1 ⟨p3, p4⟩).1
    have hpos' := hpos _ ⟨s', h1, rfl⟩
    obtain ⟨ps, d, rfl⟩ := done_cat p2 ((h1.hasCat hs).trans hc)
    have key : ∀ t, takeIdx (.concat ps d) c = .ok t → (Res H (.crop t y0 y1 x0 x1 none) xs ↔
        ∃ zs, ResL H (chooseAll (flats (.concat ps d)) c) zs ∧ ResL H (zs.map (Op.crop y0 y1 x0 x1).on) xs) := by
      intro t ht
      obtain ⟨⟨qs, e, rfl⟩, hne, _⟩ := takeIdx_concat ht
      obtain ⟨q1, _⟩ := (sizeRules H).take hp ht
      have hT := takeIdx_ok _ hp.wf.1 c _ hp.wf.2.2.2 ht
      obtain ⟨f0, f1, f2, f3, f4⟩ := hp.fit
      have pl : Plain ((Op.crop y0 y1 x0 x1).on (.concat qs e)) :=
        ⟨⟨q1.wf, hp.wf.2.1, hp.wf.2.2.1, trivial⟩, ⟨q1.fit, f1, by rw [hT.dsize]; exact f2, f3, by
          rw [hT.dsize]; exact f4⟩, q1.noOv⟩
      rw [← takeIdx_flats _ hpos' c _ hne hp.wf.2.2.2 (fun hh => absurd rfl (hh ps d)) ht]
      have := (Op.crop y0 y1 x0 x1).res (H := H) pl rfl xs
      rw [if_neg (show ¬ (Op.crop y0 y1 x0 x1).Skips H _ from id)] at this
      refine this.trans (exists_congr fun zs => and_congr (res_flats _ q1 zs) Iff.rfl)
    constructor
    · rintro ⟨m, hm, rfl⟩
      obtain ⟨t, ht, hm'⟩ := (out_select hp p2).1 hm
      obtain ⟨_, hne, hch⟩ := takeIdx_concat ht
      exact ⟨by rw [flats, flatsL_channels]; exact hch, hne, (key t ht).1 ⟨m, hm', rfl⟩⟩
    · rintro ⟨hch, hne, hz⟩
      obtain ⟨t, ht⟩ := takeIdx_total (.concat ps d) p1.wf (by rw [← flats_channels]; exact hch) c hne hp.wf.2.2.2
      obtain ⟨m, hm, e⟩ := (key t ht).2 hz
      exact ⟨m, (out_select hp p2).2 ⟨t, ht, hm⟩, e⟩
  constructor
  · rintro ⟨m, h1, h2⟩
    obtain ⟨s', h3, h4⟩ := (out_sub h rfl).1 h1
    exact ⟨flats s', ⟨s', h3, rfl⟩, (here s' h3).1 ⟨m, h4, h2⟩⟩
  · rintro ⟨_, ⟨s', h3, rfl⟩, h4⟩
    obtain ⟨m, h1, h2⟩ := (here s' h3).2 h4
    exact ⟨m, (out_sub h rfl).2 ⟨s', h3, h1⟩, h2⟩

/-! ### with and without groups -/

mutual
/-- Every file has a channel, and every selection selects one. -/
def Peopled : Node → Prop
  | .leaf l => 0 < l.nchan
  | .concat ps _ => PeopledL ps
  | .warp s _ _ _ => Peopled s
  | .crop s _ _ _ _ c => Peopled s ∧ c ≠ some []
  | .overview s _ _ => Peopled s
  | .dequant s _ _ => Peopled s
def PeopledL : List Node → Prop
  | [] => True
  | p :: ps => Peopled p ∧ PeopledL ps
end

theorem PeopledL_iff (ps : List Node) : PeopledL ps ↔ ∀ p ∈ ps, Peopled p := by
  induction ps with
  | nil => simp [PeopledL]
  | cons p ps ih => simp [PeopledL, ih]

/-- An image without concats, with channels. -/
structure Line (d : Int × Int) (p : Node) : Prop where
  plain : Plain p
  cat : hasCat p = false
  pos : 0 < p.nchan
  size : p.dsize = d

theorem flats_noCat {p : Node} (h : hasCat p = false) : flats p = [p] := by
  cases p with
  | concat _ _ => cases h
  | _ => rfl

theorem Line.res {d : Int × Int} {p : Node} (hp : Line d p) {xs : List Node} (h : Res H p xs) : ∀ x ∈ xs, Line d x := by
  obtain ⟨m, hm, rfl⟩ := h
  obtain ⟨p1, p2, p3, p4⟩ := hm.plain hp.plain
  have hc := (hm.hasCat hp.plain).trans hp.cat
  rw [flats_noCat hc]
  intro x hx
  rw [List.mem_singleton.1 hx]
  exact ⟨p1, hc, by rw [p4]; exact hp.pos, p3.trans hp.size⟩

theorem resL_lines {d : Int × Int} : ∀ {ps xs : List Node}, (∀ p ∈ ps, Line d p) → ResL H ps xs → ∀ x ∈ xs, Line d x
  | [], _, _, h => by rw [ResL] at h; simp [h]
  | p :: ps, _, hp, ⟨ys, zs, h1, h2, e⟩ => by
    subst e
    intro x hx
    rcases List.mem_append.1 hx with hx | hx
    · exact (hp p (by simp)).res h1 x hx
    · exact resL_lines (fun q hq => hp q (by simp [hq])) h2 x hx

theorem Op.line (o : Op) {d : Int × Int} {s y : Node} (h : Plain (o.on s)) (hs : s.dsize = d) (hy : Line d y) :
    Line (o.size d) (o.on y) := by
  refine ⟨o.plain h hy.plain (hy.size.trans hs.symm), ?_, ?_, by rw [o.on_dsize, hy.size]⟩
  · cases o <;> exact hy.cat
  · have := hy.pos
    cases o <;> simpa only [Op.on, mkDequant, nchan] using this

theorem chooseAll_mem {ys : List Node} {c : List Nat} (hc : ∀ i ∈ c, i < (ys.map nchan).sum) {z : Node}
    (h : z ∈ chooseAll ys c) : ∃ y ∈ ys, ∃ js, js ≠ [] ∧ (∀ j ∈ js, j < y.nchan) ∧ z = choose y js := by
  obtain ⟨g, hg, hz⟩ := List.mem_flatMap.1 h
  obtain ⟨hfl, hone⟩ := stretches_spec (fun i => (spot (ys.map nchan) i).1) c
  have hsub : ∀ i ∈ g, i ∈ c := fun i h => by
    rw [← hfl, List.mem_flatten]
    exact ⟨g, hg, h⟩
  obtain ⟨a, u, rfl, hkey⟩ := hone g hg
  obtain ⟨y, hy, _⟩ := spot_part (hc a (hsub a (by simp)))
  unfold chooseAt at hz
  rw [List.headD_cons, hy] at hz
  simp only [Option.toList_some, List.map_cons, List.map_nil, List.mem_singleton] at hz
  refine ⟨y, List.mem_of_getElem? hy, _, ?_, ?_, hz⟩
  · simp
  · intro j hj
    have hj' : j ∈ (a :: u).map fun i => (spot (ys.map nchan) i).2 := hj
    obtain ⟨i, hi, rfl⟩ := List.mem_map.1 hj'
    obtain ⟨y', hy', h2⟩ := spot_part (hc i (hsub i hi))
    have ek : (spot (ys.map nchan) i).1 = (spot (ys.map nchan) a).1 := hkey i hi
    rw [ek, hy] at hy'
    cases hy'
    exact h2

theorem choose_line {d : Int × Int} {y : Node} (hy : Line d y) {js : List Nat} (h0 : js ≠ [])
    (h : ∀ j ∈ js, j < y.nchan) : Line d (choose y js) := by
  unfold choose
  split
  · exact hy
  · obtain ⟨n1, n2⟩ := hy.plain.fit.nonneg hy.plain.wf
    refine ⟨⟨⟨hy.plain.wf, le_refl _, le_refl _, h⟩, ⟨hy.plain.fit, n2, le_refl _, n1, le_refl _⟩, hy.plain.noOv⟩, hy.cat,
      ?_, ?_⟩
    · simp only [nchan]
      exact List.length_pos_iff.2 h0
    · rw [← hy.size]
      simp [dsize]

theorem ungroup_hasCat : ∀ n : Node, hasCat (ungroup n) = hasCat n
  | .leaf _ => rfl
  | .concat _ _ => rfl
  | .warp s _ _ _ => ungroup_hasCat s
  | .crop s _ _ _ _ _ => ungroup_hasCat s
  | .overview s _ _ => ungroup_hasCat s
  | .dequant s _ _ => ungroup_hasCat s

theorem ungroup_noCat : ∀ n : Node, hasCat n = false → ungroup n = n
  | .leaf _, _ => rfl
  | .concat _ _, h => by cases h
  | .warp s _ _ _, h => by rw [ungroup, ungroup_noCat s h]
  | .crop s _ _ _ _ _, h => by rw [ungroup, ungroup_noCat s h]
  | .overview s _ _, h => by rw [ungroup, ungroup_noCat s h]
  | .dequant s _ _, h => by rw [ungroup, ungroup_noCat s h]

mutual
theorem ungroup_noOv : ∀ n : Node, NoOv n → NoOv (ungroup n)
  | .leaf _, h => h
  | .concat ps _, h => ungroupL_noOv ps h
  | .warp s _ _ _, h => ungroup_noOv s h
  | .crop s _ _ _ _ _, h => ungroup_noOv s h
  | .overview _ _ _, h => h.elim
  | .dequant s _ _, h => ungroup_noOv s h
theorem ungroupL_noOv : ∀ ps : List Node, NoOvL ps → NoOvL (ungroupL ps)
  | [], _ => trivial
  | p :: ps, h => by
    rw [NoOvL_iff]
    have h1 := ungroup_noOv p h.1
    have h2 := (NoOvL_iff _).1 (ungroupL_noOv ps h.2)
    intro q hq
    rw [ungroupL, List.mem_append] at hq
    rcases hq with hq | hq
    · cases hu : ungroup p with
      | concat qs d =>
        rw [hu] at hq h1
        exact (NoOvL_iff _).1 h1 q hq
      | _ => rw [hu] at hq h1; rw [List.mem_singleton.1 hq]; exact h1
    · exact h2 q hq
end

theorem ungroup_plain {n : Node} (h : Plain n) : Plain (ungroup n) :=
  ⟨ungroup_wf n h.wf, ungroup_fit n h.fit, ungroup_noOv n h.noOv⟩

/-- What is claimed about an image: the optimized parts are images without concats that have channels, and do not depend on
groups. -/
structure Regrouped (H : Heur) (n : Node) : Prop where
  same : ∀ xs, Res H n xs ↔ Res H (ungroup n) xs
  line : ∀ xs, Res H n xs → ∀ x ∈ xs, Line n.dsize x

theorem Peopled.pos : ∀ {n : Node}, hasCat n = false → Peopled n → 0 < n.nchan
  | .leaf _, _, h => h
  | .concat _ _, h, _ => by cases h
  | .warp s _ _ _, hc, h => by simpa only [nchan] using Peopled.pos (n := s) hc h
  | .crop s _ _ _ _ c, hc, h => by
    cases c with
    | none => simpa only [nchan] using Peopled.pos (n := s) hc h.1
    | some c =>
      simp only [nchan]
      exact List.length_pos_iff.2 fun e => h.2 (by rw [e])
  | .overview s _ _, hc, h => by simpa only [nchan] using Peopled.pos (n := s) hc h
  | .dequant s _ _, hc, h => by simpa only [nchan] using Peopled.pos (n := s) hc h

theorem regrouped_noCat {n : Node} (hn : Plain n) (hp : Peopled n) (h : hasCat n = false) : Regrouped H n :=
  ⟨fun xs => by rw [ungroup_noCat n h], fun _ hx => Line.res ⟨hn, h, hp.pos h, rfl⟩ hx⟩

theorem regrouped_op (o : Op) {s : Node} (hn : Plain (o.on s)) (hc : hasCat s = true) (ih : Regrouped H s) :
    Regrouped H (o.on s) := by
  have hs : Plain s := (sizeRules H).sub hn (o.subOf s)
  have eu : ungroup (o.on s) = o.on (ungroup s) := by
    cases o with
    | deq q => simp only [Op.on, mkDequant, ungroup, ungroup_dsize]
    | _ => rfl
  have hu : Plain (o.on (ungroup s)) := by rw [← eu]; exact ungroup_plain hn
  constructor
  · intro xs
    rw [eu, o.res hn hc, o.res hu ((ungroup_hasCat s).trans hc), ungroup_dsize]
    split
    · exact ih.same xs
    · exact exists_congr fun ys => and_congr (ih.same ys) Iff.rfl
  · intro xs hx
    rw [o.res hn hc] at hx
    split at hx
    · rename_i hk
      have e : (o.on s).dsize = s.dsize := by
        cases o with
        | warp tf d a => exact hk.1
        | crop _ _ _ _ => exact hk.elim
        | deq _ => rfl
      rw [e]
      exact ih.line xs hx
    · obtain ⟨ys, h1, h2⟩ := hx
      rw [o.on_dsize]
      refine resL_lines (fun p hp => ?_) h2
      obtain ⟨y, hy, rfl⟩ := List.mem_map.1 hp
      exact o.line hn rfl (ih.line ys h1 y hy)

theorem res_nchan {s : Node} (hs : Plain s) {ys : List Node} (h : Res H s ys) : (ys.map nchan).sum = s.nchan := by
  obtain ⟨m, hm, rfl⟩ := h
  rw [flats_nchan, (hm.plain hs).2.2.2]

theorem regrouped_select {s : Node} {y0 y1 x0 x1 : Int} {c : List Nat} (hn : Plain (.crop s y0 y1 x0 x1 (some c)))
    (hc : hasCat s = true) (ih : Regrouped H s) : Regrouped H (.crop s y0 y1 x0 x1 (some c)) := by
  have hs : Plain s := (sizeRules H).sub hn rfl
  have hu : Plain (.crop (ungroup s) y0 y1 x0 x1 (some c)) := ungroup_plain hn
  have pos : ∀ ys, Res H s ys → ∀ y ∈ ys, 0 < y.nchan := fun ys h y hy => (ih.line ys h y hy).pos
  constructor
  · intro xs
    show _ ↔ Res H (.crop (ungroup s) y0 y1 x0 x1 (some c)) xs
    rw [select_res hn hc pos, select_res hu ((ungroup_hasCat s).trans hc) fun ys h => pos ys ((ih.same ys).2 h)]
    exact exists_congr fun ys => and_congr (ih.same ys) Iff.rfl
  · intro xs hx
    rw [select_res hn hc pos] at hx
    obtain ⟨ys, h1, _, _, zs, h2, h3⟩ := hx
    have hz : ∀ z ∈ zs, Line s.dsize z := by
      refine resL_lines (fun p hp => ?_) h2
      obtain ⟨y, hy, js, j0, hj, rfl⟩ := chooseAll_mem (by rw [res_nchan hs h1]; exact hn.wf.2.2.2) hp
      exact choose_line (ih.line ys h1 y hy) j0 hj
    obtain ⟨f0, f1, f2, f3, f4⟩ := hn.fit
    have pl : Plain ((Op.crop y0 y1 x0 x1).on s) :=
      ⟨⟨hs.wf, hn.wf.2.1, hn.wf.2.2.1, trivial⟩, ⟨hs.fit, f1, f2, f3, f4⟩, hs.noOv⟩
    refine resL_lines (d := (Op.crop y0 y1 x0 x1).size s.dsize) (fun p hp => ?_) h3
    obtain ⟨z, hz', rfl⟩ := List.mem_map.1 hp
    exact (Op.crop y0 y1 x0 x1).line pl rfl (hz z hz')

mutual
theorem regrouped : ∀ n : Node, Plain n → Peopled n → Regrouped H n
  | .leaf l, hn, hp => regrouped_noCat hn hp rfl
  | .concat ps d, hn, hp => by
    have hps : ∀ p ∈ ps, Plain p ∧ p.dsize = d := fun p h => ⟨(sizeRules H).parts hn p h, (sizeRules H).same hn p h⟩
    have hu := ungroup_plain hn
    rw [ungroup] at hu
    obtain ⟨h1, h2⟩ := regroupedL d ps hps hp
    constructor
    · intro xs
      rw [ungroup, res_concat hn, res_concat hu]
      exact h1 xs
    · intro xs hx
      exact h2 xs ((res_concat hn).1 hx)
  | .warp s tf d a, hn, hp => by
    by_cases hc : hasCat s = true
    · exact regrouped_op (.warp tf d a) hn hc (regrouped s ((sizeRules H).sub hn rfl) hp)
    · exact regrouped_noCat hn hp (by simpa [hasCat] using hc)
  | .crop s y0 y1 x0 x1 none, hn, hp => by
    by_cases hc : hasCat s = true
    · exact regrouped_op (.crop y0 y1 x0 x1) hn hc (regrouped s ((sizeRules H).sub hn rfl) hp.1)
    · exact regrouped_noCat hn hp (by simpa [hasCat] using hc)
  | .crop s y0 y1 x0 x1 (some c), hn, hp => by
    by_cases hc : hasCat s = true
    · exact regrouped_select hn hc (regrouped s ((sizeRules H).sub hn rfl) hp.1)
    · exact regrouped_noCat hn hp (by simpa [hasCat] using hc)
  | .overview _ _ _, hn, _ => hn.noOv.elim
  | .dequant s q d, hn, hp => by
    by_cases hc : hasCat s = true
    · have e : Node.dequant s q d = (Op.deq q).on s := by
        rw [hn.fit.2]
        rfl
      have hn' : Plain ((Op.deq q).on s) := by rw [← e]; exact hn
      rw [e]
      exact regrouped_op (.deq q) hn' hc (regrouped s ((sizeRules H).sub hn rfl) hp)
    · exact regrouped_noCat hn hp (by simpa [hasCat] using hc)
theorem regroupedL (d : Int × Int) : ∀ ps : List Node, (∀ p ∈ ps, Plain p ∧ p.dsize = d) → PeopledL ps →
    (∀ xs, ResL H ps xs ↔ ResL H (ungroupL ps) xs) ∧ ∀ xs, ResL H ps xs → ∀ x ∈ xs, Line d x
  | [], _, _ => ⟨fun _ => Iff.rfl, fun xs h => by rw [ResL] at h; simp [h]⟩
  | p :: ps, h, hp => by
    obtain ⟨p1, p2⟩ := h p (by simp)
    have h1 := regrouped p p1 hp.1
    obtain ⟨h2, h3⟩ := regroupedL d ps (fun q hq => h q (by simp [hq])) hp.2
    constructor
    · intro xs
      rw [ungroupL, resL_append, ResL]
      exact exists_congr fun ys => exists_congr fun zs => and_congr
        ((h1.same ys).trans (resL_parts (ungroup_plain p1)).symm) (and_congr (h2 zs) Iff.rfl)
    · rintro _ ⟨ys, zs, g1, g2, rfl⟩ x hx
      rcases List.mem_append.1 hx with hx | hx
      · rw [← p2]
        exact h1.line ys g1 x hx
      · exact h3 zs g2 x hx
end

mutual
theorem partsOf_ungroup : ∀ n : Node, (∀ x ∈ flats n, hasCat x = false) → partsOf (ungroup n) = flats n
  | .concat ps d, h => ungroupL_flats ps h
  | .leaf l, _ => rfl
  | .warp s tf d a, h => by rw [ungroup_noCat _ (h _ (by simp [flats]))]; rfl
  | .crop s y0 y1 x0 x1 c, h => by rw [ungroup_noCat _ (h _ (by simp [flats]))]; rfl
  | .overview s k d, h => by rw [ungroup_noCat _ (h _ (by simp [flats]))]; rfl
  | .dequant s q d, h => by rw [ungroup_noCat _ (h _ (by simp [flats]))]; rfl
theorem ungroupL_flats : ∀ ps : List Node, (∀ x ∈ flatsL ps, hasCat x = false) → ungroupL ps = flatsL ps
  | [], _ => rfl
  | p :: ps, h => by
    rw [ungroupL, flatsL, partsOf_ungroup p fun x hx => h x (by rw [flatsL]; simp [hx]),
      ungroupL_flats ps fun x hx => h x (by rw [flatsL]; simp [hx])]
end

/-- Finished images with the same parts are the same image without groups. -/
theorem ungroup_eq {m m' : Node} (hd : Done H m) (hd' : Done H m') (hc : hasCat m' = hasCat m)
    (hs : m'.dsize = m.dsize) (hl : ∀ x ∈ flats m, hasCat x = false) (h : flats m' = flats m) :
    ungroup m' = ungroup m := by
  have key : ∀ (ps ps' : List Node) (d : Int × Int), flatsL ps' = flatsL ps → (∀ x ∈ flatsL ps, hasCat x = false) →
      ungroup (.concat ps' d) = ungroup (.concat ps d) := by
    intro ps ps' d e hx
    rw [ungroup, ungroup, ungroupL_flats ps hx, ungroupL_flats ps' (by rw [e]; exact hx), e]
  by_cases hcat : hasCat m = true
  · obtain ⟨ps, d, rfl⟩ := done_cat hd hcat
    obtain ⟨ps', d', rfl⟩ := done_cat hd' (hc.trans hcat)
    have : d' = d := hs
    subst this
    exact key ps ps' d' h hl
  · have h1 : hasCat m = false := by simpa using hcat
    rw [flats_noCat h1, flats_noCat (hc.trans h1)] at h
    rw [(List.cons.inj h).1]

/-! ### C82 -/

/-- The two images have the same results, up to groups. -/
theorem forms_regrouped {n : Node} (hb : Built n) (ho : NoOv n) (hp : Peopled n) :
    (∀ m, Out H n m → ∃ m', Out H (ungroup n) m' ∧ ungroup m' = ungroup m) ∧
    ∀ m', Out H (ungroup n) m' → ∃ m, Out H n m ∧ ungroup m' = ungroup m := by
  have hn : Plain n := ⟨hb.ok.1, hb.ok.2, ho⟩
  have hu := ungroup_plain hn
  have h := regrouped (H := H) n hn hp
  have fit : ∀ m m', Out H n m → Out H (ungroup n) m' → flats m' = flats m → ungroup m' = ungroup m := by
    intro m m' h1 h2 e
    obtain ⟨_, a2, a3, _⟩ := h1.plain hn
    obtain ⟨_, b2, b3, _⟩ := h2.plain hu
    refine ungroup_eq a2 b2 ?_ (by rw [b3, a3, ungroup_dsize]) (fun x hx => (h.line _ ⟨m, h1, rfl⟩ x hx).cat) e
    rw [h2.hasCat hu, h1.hasCat hn, ungroup_hasCat]
  constructor
  · intro m hm
    obtain ⟨m', h1, h2⟩ := (h.same (flats m)).1 ⟨m, hm, rfl⟩
    exact ⟨m', h1, fit m m' hm h1 h2⟩
  · intro m' hm
    obtain ⟨m, h1, h2⟩ := (h.same (flats m')).2 ⟨m', hm, rfl⟩
    exact ⟨m, h1, fit m m' h1 hm h2.symm⟩

/-- C82, `optimize` of all images without overviews: it succeeds with groups exactly if it succeeds without them, the
results differ in nothing but how parts are grouped, and they give the same arrays, so `finalize()` does too.  Missing:
overviews, and images in which a file or a selection has no channels. -/
theorem C82_optimized_forms_partial (H : Heur) {n : Node} (hb : Built n) (ho : NoOv n) (hp : Peopled n) :
    ((∃ fuel m, opt H fuel n = .ok m) ↔ ∃ fuel m, opt H fuel (ungroup n) = .ok m) ∧
    ∀ fuel fuel' m m', opt H fuel n = .ok m → opt H fuel' (ungroup n) = .ok m' →
      ungroup m' = ungroup m ∧ ∀ (V : Type) (E : Env V), Groupless E →
        ∀ r, finalize H E fuel n = .ok r ↔ finalize H E fuel' (ungroup n) = .ok r := by
  obtain ⟨h1, h2⟩ := forms_regrouped (H := H) hb ho hp
  have hn : Plain n := ⟨hb.ok.1, hb.ok.2, ho⟩
  refine ⟨⟨?_, ?_⟩, ?_⟩
  · rintro ⟨f, m, h⟩
    obtain ⟨m', ⟨f', h'⟩, _⟩ := h1 m ⟨f, h⟩
    exact ⟨f', m', h'⟩
  · rintro ⟨f, m, h⟩
    obtain ⟨m', ⟨f', h'⟩, _⟩ := h2 m ⟨f, h⟩
    exact ⟨f', m', h'⟩
  · intro f f' m m' h h'
    obtain ⟨u, hu, e⟩ := h1 m ⟨f, h⟩
    cases hu.det ⟨f', h'⟩
    refine ⟨e, fun V E hG r => ?_⟩
    simp only [finalize, h, h']
    rw [← ungroup_fin hG m (Out.plain hn ⟨f, h⟩).1.wf, ← ungroup_fin hG m' (Out.plain (ungroup_plain hn) ⟨f', h'⟩).1.wf, e]

/-- Groups in a group, scaled and sheared by parts of pixels, of which channels are selected out of order. -/
def deepGroups : Node :=
  .crop (.warp (.concat [
    .warp (.crop (.concat [.leaf rgbLeaf,
        .concat [.leaf { rgbLeaf with id := 2 }, .leaf { rgbLeaf with id := 3 }] (5, 4)] (5, 4))
      0 4 0 5 (some [7, 8, 3, 0, 1, 2])) ⟨3 / 2, 1 / 4, 1, 0, 3 / 2, 0⟩ (6, 5) .default,
    .concat [.warp (.dequant (.crop (.leaf { rgbLeaf with id := 4 }) 0 4 0 5 (some [1])) ⟨0, 1, 0, 255, none⟩ (5, 4))
      ⟨6 / 5, 0, 0, 0, 5 / 4, 0⟩ (6, 5) .default, .warp (.leaf rgbLeaf) ⟨2, 0, 0, 0, 2, 0⟩ (6, 5) .default] (6, 5)] (6, 5))
    ⟨4 / 5, 0, 1 / 3, 0, 2 / 3, 0⟩ (4, 3) .default) 1 3 0 3 (some [8, 6, 4, 5, 0])

/-- Each part is warped by the product of its warps, grouped in one image and next to each other in the other. -/
example : Built deepGroups ∧ NoOv deepGroups ∧ Peopled deepGroups ∧ ∃ m m', opt Heur.code 60 deepGroups = .ok m ∧
    opt Heur.code 60 (ungroup deepGroups) = .ok m' ∧ (partsOf m).length = 2 ∧ (partsOf m').length = 3 ∧
    ungroup m' = ungroup m := by
  have hl : ∀ k, ({ rgbLeaf with id := k } : Leaf).WF ∧ Nonneg ({ rgbLeaf with id := k } : Leaf).dsize := by
    intro k
    refine ⟨⟨?_, ?_⟩, (by decide : (0 : Int) ≤ 5), (by decide : (0 : Int) ≤ 4)⟩
    · intro l e
      simp only [rgbLeaf, Option.some.injEq] at e
      subst e
      rfl
    · intro e
      simp [rgbLeaf] at e
  have hb : Built deepGroups := by
    refine built_of _ ?_ ?_
    · refine ⟨⟨⟨by simp, ⟨⟨⟨by simp, (hl 1).1, rfl, ⟨by simp, (hl 2).1, rfl, (hl 3).1, rfl, trivial⟩, rfl, trivial⟩,
        by decide, by decide, ?_⟩, by decide +kernel⟩, rfl, ⟨by simp, ⟨⟨(hl 4).1, by decide, by decide, ?_⟩,
        by decide +kernel⟩, rfl, ⟨(hl 1).1, by decide +kernel⟩, rfl, trivial⟩, rfl, trivial⟩, by decide +kernel⟩, by decide,
        by decide, ?_⟩
      · intro i hi
        simp only [List.mem_cons, List.not_mem_nil, or_false] at hi
        rcases hi with rfl | rfl | rfl | rfl | rfl | rfl <;> decide
      · intro i hi
        rw [List.mem_singleton.1 hi]
        decide
      · intro i hi
        simp only [List.mem_cons, List.not_mem_nil, or_false] at hi
        rcases hi with rfl | rfl | rfl | rfl | rfl <;> decide
    · have h0 := (hl 0).2
      have h1 : Nonneg (6, 5) := ⟨by decide, by decide⟩
      exact ⟨⟨⟨by decide, by decide⟩, h1, ⟨h1, ⟨h0, (hl 1).2, ⟨h0, (hl 2).2, (hl 3).2, trivial⟩, trivial⟩, by decide,
        by decide, by decide, by decide⟩, ⟨h1, ⟨h1, ⟨(hl 4).2, by decide, by decide, by decide, by decide⟩, rfl⟩,
        ⟨h1, (hl 1).2⟩, trivial⟩, trivial⟩, by decide, by decide, by decide, by decide⟩
  have ho : NoOv deepGroups :=
    ⟨⟨.inl rfl, ⟨.inl rfl, .inl rfl, trivial⟩, trivial⟩, ⟨.inl rfl, .inl rfl, trivial⟩, trivial⟩
  have h3 : (0 : Nat) < 3 := by decide
  have hp : Peopled deepGroups := by
    refine ⟨⟨⟨⟨h3, ⟨h3, h3, trivial⟩, trivial⟩, by simp⟩, ⟨⟨h3, by simp⟩, h3, trivial⟩, trivial⟩, by simp⟩
  obtain ⟨m, e, em⟩ := holds_ok (x := opt Heur.code 60 deepGroups) (f := fun m => (partsOf m).length == 2)
    (by decide +kernel)
  obtain ⟨m', e', em'⟩ := holds_ok (x := opt Heur.code 60 (ungroup deepGroups)) (f := fun m => (partsOf m).length == 3)
    (by decide +kernel)
  exact ⟨hb, ho, hp, m, m', e, e', by simpa using em, by simpa using em',
    ((C82_optimized_forms_partial Heur.code hb ho hp).2 _ _ _ _ e e').1⟩

/-- One pixel of a picture moved out of view and back. -/
def outAndBack : Node :=
  .warp (.warp (.leaf { pyramid with id := 2, overviews := none }) (.trans (-20) 0) (10, 10) .default) (.trans 20 0) (1, 1)
    .default

/-- It twice, once in a group with `halfCrop`. -/
def stuckGroup : Node := .concat [.concat [halfCrop, outAndBack] (1, 1), outAndBack] (1, 1)

theorem outAndBack_built : Built outAndBack := by
  refine built_of _ ⟨⟨⟨?_, ?_⟩, by decide +kernel⟩, by decide +kernel⟩
    ⟨⟨by decide, by decide⟩, ⟨by decide, by decide⟩, (by decide : (0 : Int) ≤ 10), (by decide : (0 : Int) ≤ 10)⟩
  · intro l e
    simp only [pyramid, Option.some.injEq] at e
    subst e
    rfl
  · intro e
    simp [pyramid] at e

/-- C82 fails for `finalize()` with overviews: a concat of which an optimized part has another size is left as it is, so
parts in the same group are not optimized, while parts of other groups are.  The last channels of the two arrays differ. -/
theorem C82_overviews_violated : Built stuckGroup ∧ Peopled stuckGroup ∧ Groupless bigGrid ∧
    ∃ a b, finalize Heur.code bigGrid 40 stuckGroup = .ok a ∧ finalize Heur.code bigGrid 40 (ungroup stuckGroup) = .ok b ∧
      (a.h, a.w, a.n) = (b.h, b.w, b.n) ∧ a.px 0 0 6 = (0, 0, 0) ∧ b.px 0 0 6 = bigGrid.nan := by
  have hd : halfCrop.dsize = (1, 1) := by decide +kernel
  have hb : Built (.concat [halfCrop, outAndBack] (1, 1)) := by
    refine .concat [halfCrop, outAndBack] _ ?_ ?_
    · intro p hp
      simp only [List.mem_cons, List.not_mem_nil, or_false] at hp
      rcases hp with rfl | rfl
      · exact C36_size_violated.1
      · exact outAndBack_built
    · simp only [mkConcat, hd, List.all_cons, List.all_nil]
      rfl
  refine ⟨?_, ?_, fun _ _ _ => rfl, ?_⟩
  · refine .concat [.concat [halfCrop, outAndBack] (1, 1), outAndBack] _ ?_ rfl
    intro p hp
    simp only [List.mem_cons, List.not_mem_nil, or_false] at hp
    rcases hp with rfl | rfl
    · exact hb
    · exact outAndBack_built
  · have h3 : (0 : Nat) < 3 := by decide
    exact ⟨⟨⟨h3, by simp⟩, h3, trivial⟩, h3, trivial⟩
  obtain ⟨a, ha, ea⟩ := holds_ok (x := finalize Heur.code bigGrid 40 stuckGroup)
    (f := fun i => decide ((i.h, i.w, i.n) = (1, 1, 9) ∧ i.px 0 0 6 = (0, 0, 0))) (by decide +kernel)
  obtain ⟨b, hb', eb⟩ := holds_ok (x := finalize Heur.code bigGrid 40 (ungroup stuckGroup))
    (f := fun i => decide ((i.h, i.w, i.n) = (1, 1, 9) ∧ i.px 0 0 6 = bigGrid.nan)) (by decide +kernel)
  obtain ⟨a1, a2⟩ := of_decide_eq_true ea
  obtain ⟨b1, b2⟩ := of_decide_eq_true eb
  exact ⟨a, b, ha, hb', a1.trans b1.symm, a2, b2⟩

end Verif.Props
