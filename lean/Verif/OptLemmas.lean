/-
Induction over the recursion of `optimize`: an invariant and a relation between trees that are respected
by every single rewrite are respected by `optimize`, and its results are in normal form.
-/
import Verif.TakeLemmas

namespace Verif
namespace Tree

open Helpers Node

/-- Leaves, overviews, crops. -/
def isLOC : Node → Prop
  | .leaf _ => True
  | .overview _ _ _ => True
  | .crop .. => True
  | _ => False

def isLeafNode : Node → Prop
  | .leaf _ => True
  | _ => False

/-- Operations that may be below a warp. -/
def underWarp : Node → Prop
  | .leaf _ => True
  | .overview _ _ _ => True
  | .crop .. => True
  | .dequant _ _ _ => True
  | _ => False

/-- The sources a crop of the given size keeps. -/
def underCrop (w h : Int) : Node → Prop
  | .leaf l => l.nan = false
  | .overview _ _ _ => True
  | .warp _ _ _ a => a.interp = .nearest ∨ w = 0 ∨ h = 0
  | _ => False

mutual
/-- The results of `optimize`: below concats at most one warp, one dequantization, one crop and one
overview, in this order, over a leaf; a crop stays above a warp only if the warp interpolates with
`nearest` or the crop is empty; a warp over an overview is not big.  With `deep` the parts of concats are
in normal form, too. -/
def NF (H : Heur) (deep : Bool) : Node → Prop
  | .leaf _ => True
  | .concat ps _ => deep = true → NFL H deep ps
  | .overview s k _ => NF H deep s ∧ k ≠ 0 ∧ isLeafNode s
  | .crop s y0 y1 x0 x1 _ => NF H deep s ∧ underCrop (x1 - x0) (y1 - y0) s
  | .dequant s _ _ => NF H deep s ∧ isLOC s
  | .warp s tf _ _ => NF H deep s ∧ underWarp s ∧ ((look 4 s).isSome = true → H.big tf = false)
def NFL (H : Heur) (deep : Bool) : List Node → Prop
  | [] => True
  | p :: ps => NF H deep p ∧ NFL H deep ps
end

theorem NFL_iff (H : Heur) (deep : Bool) (ps : List Node) : NFL H deep ps ↔ ∀ p ∈ ps, NF H deep p := by
  induction ps with
  | nil => simp [NFL]
  | cons p ps ih => simp [NFL, ih]

/-- A crop that also selects channels. -/
def selects : Node → Prop
  | .crop _ _ _ _ _ (some _) => True
  | _ => False

/-- The level chosen by `_opt_split_warp_overview`. -/
structure SplitLevel (H : Heur) (tf : Affine) (num k : Int) : Prop where
  can : H.canSplit tf = true
  eq : k = min num (H.downs tf)
  ne : k ≠ 0

/-- An invariant and a relation respected by every rewrite. -/
structure Rules (H : Heur) (P : Node → Prop) (R : Node → Node → Prop) : Prop where
  refl : ∀ n, R n n
  trans : ∀ {a b c}, R a b → R b c → R a c
  sub : ∀ {n x}, P n → subOf n = .ok (some x) → P x
  parts : ∀ {ps d}, P (.concat ps d) → ∀ p ∈ ps, P p
  same : ∀ {ps d}, P (.concat ps d) → ∀ p ∈ ps, p.dsize = d
  nan : ∀ {l : Leaf}, P (.leaf l) → l.nan = true → l.overviews = none
  cong : ∀ {n x x'}, P n → subOf n = .ok (some x) → P x' → R x x' →
    P (setSub n x') ∧ R n (setSub n x')
  concat : ∀ {ps d qs c}, P (.concat ps d) → List.Forall₂ (fun p q => P q ∧ R p q) ps qs →
    mkConcat qs = .ok c → P c ∧ R (.concat ps d) c
  push : ∀ {n ps d c}, P n → subOf n = .ok (some (.concat ps d)) → ¬ selects n →
    pushUnder n ps = .ok (some c) → P c ∧ R n c
  fuseWarps : ∀ {s t1 d1 a1 t2 d2 a2}, P (.warp (.warp s t1 d1 a1) t2 d2 a2) →
    P (.warp s (t2 * t1) d2 a2.common) ∧
    R (.warp (.warp s t1 d1 a1) t2 d2 a2) (.warp s (t2 * t1) d2 a2.common)
  idWarp : ∀ {s tf d a}, P (.warp s tf d a) → d = s.dsize → H.negl a.noopEps tf = true →
    R (.warp s tf d a) s
  nanWarp : ∀ {l tf d a}, P (.warp (.leaf l) tf d a) → l.nan = true →
    P (nanLeaf l.id d l.names) ∧ R (.warp (.leaf l) tf d a) (nanLeaf l.id d l.names)
  splitWarp : ∀ {s tf d a num k}, P (.warp s tf d a) → s.numOverviews = .ok (some num) → num ≠ 0 →
    SplitLevel H tf num k →
    P (.warp (mkOverview s k) (tf * (ovScale k).inv) d a.common) ∧
    R (.warp s tf d a) (.warp (mkOverview s k) (tf * (ovScale k).inv) d a.common)
  splitOv : ∀ {s tf d a num k}, P (.warp s tf d a) → s.numOverviews = .ok (some num) → num ≠ 0 →
    SplitLevel H tf num k →
    H.closeId (tf * (ovScale k).inv) = true → (mkOverview s k).dsize = d →
    P (mkOverview s k) ∧ R (.warp s tf d a) (mkOverview s k)
  splitCrop : ∀ {s tf d a num k c}, P (.warp s tf d a) → s.numOverviews = .ok (some num) → num ≠ 0 →
    SplitLevel H tf num k →
    H.closeId (tf * (ovScale k).inv) = true →
    paddedCrop (mkOverview s k) 0 d.2 0 d.1 ((0, 0), (0, 0)) = .ok c → P c ∧ R (.warp s tf d a) c
  absorb : ∀ {s tf d a num r}, P (.warp s tf d a) → s.numOverviews = .ok num →
    absorb H s tf d a = .ok r → P r ∧ R (.warp s tf d a) r
  nanCrop : ∀ {l y0 y1 x0 x1 c r}, P (.crop (.leaf l) y0 y1 x0 x1 c) → l.nan = true →
    nanCrop l y0 y1 x0 x1 c = .ok r → P r ∧ R (.crop (.leaf l) y0 y1 x0 x1 c) r
  fuseCrops : ∀ {s iy0 iy1 ix0 ix1 ic y0 y1 x0 x1 c r},
    P (.crop (.crop s iy0 iy1 ix0 ix1 ic) y0 y1 x0 x1 c) →
    fuseCrops s iy0 iy1 ix0 ix1 ic y0 y1 x0 x1 c = .ok r →
    P r ∧ R (.crop (.crop s iy0 iy1 ix0 ix1 ic) y0 y1 x0 x1 c) r
  warpAfterCrop : ∀ {s tf d a y0 y1 x0 x1 c inner tf'}, P (.crop (.warp s tf d a) y0 y1 x0 x1 c) →
    warpAfterCrop s tf y0 y1 x0 x1 c = .ok (some (inner, tf')) →
    P (.warp inner tf' (x1 - x0, y1 - y0) a.common) ∧
    R (.crop (.warp s tf d a) y0 y1 x0 x1 c) (.warp inner tf' (x1 - x0, y1 - y0) a.common)
  dequantCrop : ∀ {s q d y0 y1 x0 x1 c}, P (.crop (.dequant s q d) y0 y1 x0 x1 c) →
    P (mkDequant (.crop s y0 y1 x0 x1 c) q) ∧
    R (.crop (.dequant s q d) y0 y1 x0 x1 c) (mkDequant (.crop s y0 y1 x0 x1 c) q)
  take : ∀ {ps d y0 y1 x0 x1 c t}, P (.crop (.concat ps d) y0 y1 x0 x1 (some c)) →
    takeIdx (.concat ps d) c = .ok t → P t ∧ ∀ t' cr, P t' → R t t' →
      mkCrop t' (ints y0 y1 x0 x1) none = .ok cr →
      P cr ∧ R (.crop (.concat ps d) y0 y1 x0 x1 (some c)) cr
  renorm : ∀ {ps d y0 y1 x0 x1 cr}, P (.crop (.concat ps d) y0 y1 x0 x1 none) →
    mkCrop (.concat ps d) (ints y0 y1 x0 x1) none = .ok cr →
    P cr ∧ R (.crop (.concat ps d) y0 y1 x0 x1 none) cr
  cropAfterOverview : ∀ {s y0 y1 x0 x1 c k d r}, P (.overview (.crop s y0 y1 x0 x1 c) k d) →
    cropAfterOverview H s y0 y1 x0 x1 c k = .ok r →
    P r ∧ R (.overview (.crop s y0 y1 x0 x1 c) k d) r
  warpAfterOverview : ∀ {s tf dw a k d}, P (.overview (.warp s tf dw a) k d) →
    P (warpAfterOverview s tf k) ∧ R (.overview (.warp s tf dw a) k d) (warpAfterOverview s tf k)
  dequantOverview : ∀ {s q dq k d}, P (.overview (.dequant s q dq) k d) →
    P (mkDequant (.overview s k d) q) ∧
    R (.overview (.dequant s q dq) k d) (mkDequant (.overview s k d) q)
  ov0 : ∀ {s d}, P (.overview s 0 d) → R (.overview s 0 d) s
  fuseOv : ∀ {s k1 d1 k d}, P (.overview (.overview s k1 d1) k d) →
    P (mkOverview s (k1 + k)) ∧ R (.overview (.overview s k1 d1) k d) (mkOverview s (k1 + k))
  dequantWarp : ∀ {s tf dw a q d}, P (.dequant (.warp s tf dw a) q d) →
    P (.warp (mkDequant s q) tf dw a) ∧
    R (.dequant (.warp s tf dw a) q d) (.warp (mkDequant s q) tf dw a)

/-- What is known about a result. -/
structure Good (H : Heur) (P : Node → Prop) (R : Node → Node → Prop) (deep : Bool) (n n' : Node) : Prop where
  inv : P n'
  rel : R n n'
  nf : NF H deep n'

theorem mapAll_same {f : Node → Py Node} {ps qs : List Node} {d : Int × Int}
    (hf : ∀ p ∈ ps, ∀ q, f p = .ok q → q.dsize = d) (h : mapAll f ps = .ok qs) : ∀ q ∈ qs, q.dsize = d := by
  have := mapAll_ok h
  intro q hq
  obtain ⟨p, hp, e⟩ := forall₂_mem_right this hq
  exact hf p hp q e

theorem mkConcat_ne_compat {qs : List Node} {d : Int × Int} (h : ∀ q ∈ qs, q.dsize = d) :
    mkConcat qs ≠ .error .coordinateCompat := by
  cases qs with
  | nil => simp [mkConcat]
  | cons q qs => rw [mkConcat_same (by simp) h]; simp

/-- Applying an operation to parts of the same size gives parts of the same size. -/
theorem reapply_dsize {op : Node} {d : Int × Int} {p q : Node} (hp : p.dsize = d)
    (h : reapply op p = .ok q) {p' q' : Node} (hp' : p'.dsize = d) (h' : reapply op p' = .ok q') :
    q'.dsize = q.dsize := by
  cases op with
  | leaf _ => simp [reapply] at h
  | concat _ _ => simp [reapply] at h
  | warp s tf dw a =>
    simp only [reapply, Except.ok.injEq] at h h'
    subst h h'; rfl
  | crop s y0 y1 x0 x1 c =>
    simp only [reapply] at h h'
    rw [mkCrop_ints h, mkCrop_ints h', hp, hp']
    rfl
  | overview s k dw =>
    simp only [reapply, Except.ok.injEq] at h h'
    subst h h'
    rw [mkOverview, mkOverview, hp, hp']
    rfl
  | dequant s k dw =>
    simp only [reapply, Except.ok.injEq] at h h'
    subst h h'
    rw [mkDequant, mkDequant, hp, hp']
    rfl

theorem pushUnder_ne_none {op : Node} {ps : List Node} {d : Int × Int} (hps : ∀ p ∈ ps, p.dsize = d) :
    pushUnder op ps ≠ .ok none := by
  intro h
  unfold pushUnder at h
  split at h
  · cases h
  · rename_i qs hqs
    split at h
    · cases h
    · rename_i hc
      have hm := mapAll_ok hqs
      cases hm with
      | nil => simp [mkConcat] at hc
      | @cons p q ps' qs' hpq _ =>
        have : ∀ q' ∈ q :: qs', q'.dsize = q.dsize := by
          intro q' hq'
          obtain ⟨p', hp', e⟩ := forall₂_mem_right (mapAll_ok hqs) hq'
          exact reapply_dsize (hps p (by simp)) hpq (hps p' hp') e
        exact mkConcat_ne_compat this hc
    · cases h

variable {H : Heur} {P : Node → Prop} {R : Node → Node → Prop} {deep : Bool} {rec : Node → Py Node}

/-- The induction hypothesis. -/
def RecOk (H : Heur) (P : Node → Prop) (R : Node → Node → Prop) (deep : Bool) (rec : Node → Py Node) : Prop :=
  ∀ n n', P n → rec n = .ok n' → Good H P R deep n n'

theorem Good.step (hr : Rules H P R) {a b c : Node} (h1 : R a b) (h2 : Good H P R deep b c) :
    Good H P R deep a c := ⟨h2.inv, hr.trans h1 h2.rel, h2.nf⟩

/-- A node in normal form is not an operation on a concat. -/
theorem NF.sub_not_concat {n : Node} (h : NF H deep n) {ps : List Node} {d : Int × Int} :
    subOf n ≠ .ok (some (.concat ps d)) := by
  intro e
  cases n with
  | leaf l => simp [subOf] at e
  | concat _ _ => simp [subOf] at e
  | warp s _ _ _ =>
    simp only [subOf, Except.ok.injEq, Option.some.injEq] at e; subst e
    rw [NF] at h; exact h.2.1
  | crop s _ _ _ _ _ =>
    simp only [subOf, Except.ok.injEq, Option.some.injEq] at e; subst e
    rw [NF] at h; exact h.2
  | overview s _ _ =>
    simp only [subOf, Except.ok.injEq, Option.some.injEq] at e; subst e
    rw [NF] at h; exact h.2.2
  | dequant s _ _ =>
    simp only [subOf, Except.ok.injEq, Option.some.injEq] at e; subst e
    rw [NF] at h; exact h.2

theorem finish_ok (hr : Rules H P R) (hrec : RecOk H P R deep rec) {n n' : Node} (hn : P n)
    (hs : ¬ selects n) (hnf : (∀ ps d, subOf n ≠ .ok (some (.concat ps d))) → NF H deep n)
    (h : finish rec n = .ok n') : Good H P R deep n n' := by
  unfold finish at h
  split at h
  · cases h
  · rename_i ps d hsub
    split at h
    · cases h
    · rename_i hnone
      exact absurd hnone (pushUnder_ne_none (hr.same (hr.sub hn hsub)))
    · rename_i p hp
      obtain ⟨h1, h2⟩ := hr.push hn hsub hs hp
      exact (hrec p n' h1 h).step hr h2
  · rename_i y hno hy
    cases h
    exact ⟨hn, hr.refl n, hnf fun ps d e => hno ps d (by rw [hy] at e; exact Except.ok.inj e)⟩

/-- `finish` of a node in normal form. -/
theorem finish_nf (hr : Rules H P R) {n n' : Node} (hn : P n) (hnf : NF H deep n)
    (h : finish rec n = .ok n') : Good H P R deep n n' := by
  unfold finish at h
  split at h
  · cases h
  · rename_i ps d hsub
    exact absurd hsub hnf.sub_not_concat
  · cases h
    exact ⟨hn, hr.refl n, hnf⟩

theorem finishCrop_nf (hr : Rules H P R) {n n' : Node} (hn : P n) (hnf : NF H deep n)
    (h : finishCrop rec n = .ok n') : Good H P R deep n n' := by
  unfold finishCrop at h
  split at h
  · rw [NF] at hnf
    exact absurd hnf.2 (by simp [underCrop])
  · exact finish_nf hr hn hnf h

/-! #### the classes of nodes -/

theorem optConcat_ok (hr : Rules H P R) (hdeep : deep = true → ∀ a b, R a b → b.dsize = a.dsize)
    (hrec : RecOk H P R deep rec) {ps : List Node} {d : Int × Int} {n' : Node} (hn : P (.concat ps d))
    (h : optConcat rec ps d = .ok n') : Good H P R deep (.concat ps d) n' := by
  unfold optConcat at h
  split at h
  · cases h
  · rename_i qs hqs
    have hm := mapAll_ok hqs
    have hg : List.Forall₂ (fun p q => Good H P R deep p q) ps qs :=
      forall₂_imp_left hm fun p hp q hpq => hrec p q (hr.parts hn p hp) hpq
    split at h
    · rename_i c hc
      cases h
      obtain ⟨h1, h2⟩ := hr.concat hn (hg.imp fun _ _ g => ⟨g.inv, g.rel⟩) hc
      refine ⟨h1, h2, ?_⟩
      obtain ⟨d', rfl, _⟩ := mkConcat_ok hc
      rw [NF]
      intro _
      rw [NFL_iff]
      intro q hq
      obtain ⟨p, _, g⟩ := forall₂_mem_right hg hq
      exact g.nf
    · rename_i hc
      cases h
      refine ⟨hn, hr.refl _, ?_⟩
      rw [NF]
      intro hd
      exfalso
      refine mkConcat_ne_compat (d := d) ?_ hc
      intro q hq
      obtain ⟨p, hp, g⟩ := forall₂_mem_right (forall₂_imp_left hg (S := fun p q => q.dsize = d)
        fun p hp q g => (hdeep hd p q g.rel).trans (hr.same hn p hp)) hq
      exact g
    · cases h

theorem optDequant_ok (hr : Rules H P R) (hrec : RecOk H P R deep rec) {s : Node} {q : Quantization}
    {d : Int × Int} {n' : Node} (hn : P (.dequant s q d)) (h : optDequant rec s q d = .ok n') :
    Good H P R deep (.dequant s q d) n' := by
  have hs : P s := hr.sub hn rfl
  unfold optDequant at h
  split at h
  · cases h
  · cases h
  · rename_i x tf dw a hx
    have g := hrec _ _ hs hx
    obtain ⟨c1, c2⟩ := hr.cong hn rfl g.inv g.rel
    obtain ⟨w1, w2⟩ := hr.dequantWarp c1
    split at h
    · cases h
    · rename_i r hrr
      have g2 := hrec _ _ w1 hrr
      exact (finish_nf hr g2.inv g2.nf h).step hr (hr.trans c2 (hr.trans w2 g2.rel))
  · rename_i s' hnd hnw hx
    have g := hrec _ _ hs hx
    obtain ⟨c1, c2⟩ := hr.cong hn rfl g.inv g.rel
    refine (finish_ok hr hrec c1 (by simp [setSub, selects]) ?_ h).step hr c2
    intro hnc
    simp only [setSub]
    rw [NF]
    refine ⟨g.nf, ?_⟩
    cases s' with
    | leaf _ => trivial
    | overview _ _ _ => trivial
    | crop _ _ _ _ _ _ => trivial
    | concat ps d' => exact absurd rfl (hnc ps d')
    | warp _ _ _ _ => exact (hnw _ _ _ _ rfl).elim
    | dequant _ _ _ => exact (hnd _ _ _ rfl).elim

/-! #### overviews -/

theorem isLeafNode_iff {n : Node} : isLeafNode n ↔ ∃ l, n = .leaf l := by
  cases n <;> simp [isLeafNode]

theorem NF.overview_sub {s : Node} {k : Int} {d : Int × Int} (h : NF H deep (.overview s k d)) :
    ∃ l, s = .leaf l := by
  rw [NF] at h
  exact isLeafNode_iff.1 h.2.2

theorem overviewRest_ok (hr : Rules H P R) (hrec : RecOk H P R deep rec) {s : Node} {k : Int}
    {d : Int × Int} {n' : Node} (hn : P (.overview s k d)) (hs : NF H deep s)
    (hno : ∀ x k1 d1, s ≠ .overview x k1 d1) (h : overviewRest H rec s k d = .ok n') :
    Good H P R deep (.overview s k d) n' := by
  have hps : P s := hr.sub hn rfl
  unfold overviewRest at h
  split at h
  · rename_i hk
    subst hk
    exact (finish_nf hr hps hs h).step hr (hr.ov0 hn)
  · rename_i hk
    split at h
    · split at h
      · cases h
      · rename_i m hm
        obtain ⟨m1, m2⟩ := hr.cropAfterOverview hn hm
        split at h
        · cases h
        · rename_i r hrr
          have g := hrec _ _ m1 hrr
          exact (finish_nf hr g.inv g.nf h).step hr (hr.trans m2 g.rel)
    · obtain ⟨m1, m2⟩ := hr.warpAfterOverview hn
      split at h
      · cases h
      · rename_i r hrr
        have g := hrec _ _ m1 hrr
        exact (finish_nf hr g.inv g.nf h).step hr (hr.trans m2 g.rel)
    · obtain ⟨m1, m2⟩ := hr.dequantOverview hn
      split at h
      · cases h
      · rename_i r hrr
        have g := hrec _ _ m1 hrr
        exact (finish_nf hr g.inv g.nf h).step hr (hr.trans m2 g.rel)
    · rename_i hnc hnw hnd
      refine finish_ok hr hrec hn (by simp [selects]) ?_ h
      intro hncat
      rw [NF]
      refine ⟨hs, hk, ?_⟩
      cases s with
      | leaf _ => trivial
      | overview x k1 d1 => exact absurd rfl (hno x k1 d1)
      | crop _ _ _ _ _ _ => exact (hnc _ _ _ _ _ _ rfl).elim
      | concat ps d' => exact absurd rfl (hncat ps d')
      | warp _ _ _ _ => exact (hnw _ _ _ _ rfl).elim
      | dequant _ _ _ => exact (hnd _ _ _ rfl).elim

theorem optOverview_ok (hr : Rules H P R) (hrec : RecOk H P R deep rec) {s : Node} {k : Int}
    {d : Int × Int} {n' : Node} (hn : P (.overview s k d)) (h : optOverview H rec s k d = .ok n') :
    Good H P R deep (.overview s k d) n' := by
  have hs : P s := hr.sub hn rfl
  unfold optOverview at h
  split at h
  · cases h
  · rename_i s1 k1 d1 hx
    have g := hrec _ _ hs hx
    obtain ⟨c1, c2⟩ := hr.cong hn rfl g.inv g.rel
    obtain ⟨w1, w2⟩ := hr.fuseOv c1
    obtain ⟨l, rfl⟩ := g.nf.overview_sub
    have hl : NF H deep (.leaf l) := by rw [NF]; trivial
    exact (overviewRest_ok hr hrec w1 hl (by simp) h).step hr (hr.trans c2 w2)
  · rename_i s' hno hx
    have g := hrec _ _ hs hx
    obtain ⟨c1, c2⟩ := hr.cong hn rfl g.inv g.rel
    exact (overviewRest_ok hr hrec c1 g.nf (fun x k1 d1 e => hno x k1 d1 e) h).step hr c2

/-! #### crops -/

theorem cropConcat_ok (hr : Rules H P R) (hrec : RecOk H P R deep rec) {ps : List Node} {d : Int × Int}
    {y0 y1 x0 x1 : Int} {c : Option (List Nat)} {n' : Node} (hn : P (.crop (.concat ps d) y0 y1 x0 x1 c))
    (h : cropConcat rec ps d y0 y1 x0 x1 c = .ok n') :
    Good H P R deep (.crop (.concat ps d) y0 y1 x0 x1 c) n' := by
  unfold cropConcat at h
  split at h
  · cases h
  · rename_i taken ht
    split at h
    · cases h
    · rename_i cr hcr
      have key : P cr ∧ R (.crop (.concat ps d) y0 y1 x0 x1 c) cr := by
        cases c with
        | none =>
          cases ht
          exact hr.renorm hn hcr
        | some c =>
          simp only at ht
          split at ht
          · cases ht
          · rename_i t htt
            obtain ⟨k1, k2⟩ := hr.take hn htt
            have g := hrec _ _ k1 ht
            exact k2 _ _ g.inv g.rel hcr
      obtain ⟨k1, k2⟩ := key
      have hform := mkCrop_ints hcr
      split at h
      · rename_i qs dq
        split at h
        · cases h
        · exact (hrec _ _ k1 h).step hr k2
        · rename_i p hp
          obtain ⟨p1, p2⟩ := hr.push (d := dq) k1 (by rw [hform]; rfl) (by rw [hform]; simp [selects]) hp
          exact (hrec _ _ p1 h).step hr (hr.trans k2 p2)
      · exact (hrec _ _ k1 h).step hr k2

/-- What a crop may be over after fusing. -/
def preCrop (H : Heur) (deep : Bool) : Node → Prop
  | .leaf l => l.nan = false
  | .concat _ _ => True
  | .crop .. => False
  | n => NF H deep n

theorem cropRest_ok (hr : Rules H P R) (hrec : RecOk H P R deep rec) {s : Node}
    {y0 y1 x0 x1 : Int} {c : Option (List Nat)} {n' : Node} (hn : P (.crop s y0 y1 x0 x1 c))
    (hs : preCrop H deep s) (h : cropRest rec s y0 y1 x0 x1 c = .ok n') :
    Good H P R deep (.crop s y0 y1 x0 x1 c) n' := by
  unfold cropRest at h
  split at h
  · rename_i x tf dw a
    split at h
    · rename_i ha
      cases h
      refine ⟨hn, hr.refl _, ?_⟩
      rw [NF]
      exact ⟨hs, .inl ha⟩
    · split at h
      · cases h
      · rename_i hz
        cases h
        refine ⟨hn, hr.refl _, ?_⟩
        rw [NF]
        refine ⟨hs, .inr ?_⟩
        unfold warpAfterCrop at hz
        split at hz
        · assumption
        · simp only at hz
          split at hz
          · cases hz
          · cases hz
      · rename_i inner tf' hz
        obtain ⟨w1, w2⟩ := hr.warpAfterCrop hn hz
        split at h
        · cases h
        · rename_i r hrr
          have g := hrec _ _ w1 hrr
          exact (finishCrop_nf hr g.inv g.nf h).step hr (hr.trans w2 g.rel)
  · obtain ⟨w1, w2⟩ := hr.dequantCrop hn
    split at h
    · cases h
    · rename_i r hrr
      have g := hrec _ _ w1 hrr
      exact (finishCrop_nf hr g.inv g.nf h).step hr (hr.trans w2 g.rel)
  · rename_i hnw hnd
    cases s with
    | concat ps d => exact cropConcat_ok hr hrec hn h
    | crop _ _ _ _ _ _ => exact hs.elim
    | warp _ _ _ _ => exact (hnw _ _ _ _ rfl).elim
    | dequant _ _ _ => exact (hnd _ _ _ rfl).elim
    | leaf l =>
      simp only [finishCrop, finish, subOf, Except.ok.injEq] at h
      subst h
      refine ⟨hn, hr.refl _, ?_⟩
      rw [NF, NF]
      exact ⟨trivial, hs⟩
    | overview x k d =>
      simp only [finishCrop, finish, subOf, Except.ok.injEq] at h
      subst h
      refine ⟨hn, hr.refl _, ?_⟩
      rw [NF]
      exact ⟨hs, trivial⟩

theorem optCrop_ok (hr : Rules H P R) (hrec : RecOk H P R deep rec)
    (hfuse : ∀ {s : Node} {iy0 iy1 ix0 ix1 ic y0 y1 x0 x1 c r},
      fuseCrops s iy0 iy1 ix0 ix1 ic y0 y1 x0 x1 c = .ok r → ∃ y0' y1' x0' x1' c',
        r = .crop s y0' y1' x0' x1' c') {s : Node}
    {y0 y1 x0 x1 : Int} {c : Option (List Nat)} {n' : Node} (hn : P (.crop s y0 y1 x0 x1 c))
    (h : optCrop rec s y0 y1 x0 x1 c = .ok n') : Good H P R deep (.crop s y0 y1 x0 x1 c) n' := by
  have hs : P s := hr.sub hn rfl
  unfold optCrop at h
  split at h
  · cases h
  · rename_i s' hx
    have g := hrec _ _ hs hx
    obtain ⟨c1, c2⟩ := hr.cong hn rfl g.inv g.rel
    simp only [setSub] at c1 c2
    cases s' with
    | crop s1 iy0 iy1 ix0 ix1 ic =>
      simp only at h
      split at h
      · cases h
      · rename_i s2 y0' y1' x0' x1' c' hf
        obtain ⟨f1, f2⟩ := hr.fuseCrops c1 hf
        obtain ⟨_, _, _, _, _, e⟩ := hfuse hf
        cases e
        have hnf := g.nf
        rw [NF] at hnf
        split at h
        · rename_i l hl
          split at hl
          · rename_i l'
            split at hl
            · rename_i hl2
              have : l'.nan = false := hnf.2
              rw [this] at hl2
              cases hl2
            · cases hl
          · cases hl
        · refine (cropRest_ok hr hrec f1 ?_ h).step hr (hr.trans c2 f2)
          cases s1 with
          | leaf l => exact hnf.2
          | concat _ _ => exact hnf.2.elim
          | crop _ _ _ _ _ _ => exact hnf.2.elim
          | warp _ _ _ _ => exact hnf.1
          | dequant _ _ _ => exact hnf.2.elim
          | overview _ _ _ => exact hnf.1
      · rename_i n hne hf
        obtain ⟨_, _, _, _, _, e⟩ := hfuse hf
        exact (hne _ _ _ _ _ _ e).elim
    | leaf l =>
      simp only at h
      split at h
      · rename_i l' hl
        split at hl
        · rename_i hnan
          cases hl
          split at h
          · cases h
          · rename_i r hrr
            obtain ⟨k1, k2⟩ := hr.nanCrop c1 hnan hrr
            exact (hrec _ _ k1 h).step hr (hr.trans c2 k2)
        · cases hl
      · rename_i hl
        refine (cropRest_ok hr hrec c1 ?_ h).step hr c2
        cases hln : l.nan with
        | false => exact hln
        | true => rw [hln] at hl; simp at hl
    | concat _ _ => exact (cropRest_ok hr hrec c1 trivial h).step hr c2
    | warp _ _ _ _ => exact (cropRest_ok hr hrec c1 g.nf h).step hr c2
    | dequant _ _ _ => exact (cropRest_ok hr hrec c1 g.nf h).step hr c2
    | overview _ _ _ => exact (cropRest_ok hr hrec c1 g.nf h).step hr c2

/-! #### warps -/

theorem look_step (n : Nat) (s : Node) : look (n + 1) s =
    match s with
    | .overview s k d => some ([], s, k, d)
    | .dequant s q d => (look n s).map (fun r => (.deq q d :: r.1, r.2))
    | .crop s y0 y1 x0 x1 c => (look n s).map (fun r => (.crop y0 y1 x0 x1 c :: r.1, r.2))
    | _ => none := by
  cases s <;> rfl

/-- A leaf below an overview whose number of overviews is known is not a `DelayedNans`. -/
theorem ovLeaf_not_nan (hr : Rules H P R) {l : Leaf} {k : Int} {d : Int × Int}
    (h : P (.overview (.leaf l) k d)) {num : Option Int}
    (hk : (Node.overview (.leaf l) k d : Node).numOverviews = .ok num) : l.nan = false := by
  cases hl : l.nan with
  | false => rfl
  | true =>
    have := hr.nan (hr.sub h rfl) hl
    simp [numOverviews, this] at hk

/-- The possible results of `look` on a node in normal form. -/
theorem absorb_nf (hr : Rules H P R) {s : Node} {tf : Affine} {d : Int × Int} {a : Algo} {r : Node}
    {num : Option Int} (hp : P s) (hs : NF H deep s) (hu : underWarp s) (hnum : s.numOverviews = .ok num)
    (h : absorb H s tf d a = .ok r) : NF H deep r := by
  have hself : ((look 4 s).isSome = true → H.big tf = false) → ∀ b, NF H deep (.warp s tf d b) :=
    fun hb b => by rw [NF]; exact ⟨hs, hu, hb⟩
  unfold absorb at h
  split at h
  · rename_i hb
    cases h
    exact hself (fun _ => by simpa using hb) _
  · cases s with
    | concat _ _ => exact hu.elim
    | warp _ _ _ _ => exact hu.elim
    | leaf l => simp only [look_step, Except.ok.injEq] at h; subst h; exact hself (by simp [look_step]) _
    | overview x k d1 =>
      simp only [look_step, relink, List.filter_nil, List.length_nil, Nat.not_lt_zero, gt_iff_lt,
        if_false, List.getLast?_nil, Except.ok.injEq] at h
      subst h
      obtain ⟨l, rfl⟩ := hs.overview_sub
      rw [NF, NF]
      exact ⟨trivial, trivial, by simp [look_step]⟩
    | crop x y0 y1 x0 x1 c =>
      have hcr := hs
      rw [NF] at hcr
      cases x with
      | concat _ _ => exact hcr.2.elim
      | crop _ _ _ _ _ _ => exact hcr.2.elim
      | dequant _ _ _ => exact hcr.2.elim
      | leaf l => simp only [look_step, Option.map_none, Except.ok.injEq] at h; subst h; exact hself (by simp [look_step]) _
      | warp _ _ _ _ => simp only [look_step, Option.map_none, Except.ok.injEq] at h; subst h; exact hself (by simp [look_step]) _
      | overview x k d1 =>
        obtain ⟨l, rfl⟩ := hcr.1.overview_sub
        have hnan := ovLeaf_not_nan hr (hr.sub hp rfl) (num := num) (by simpa [numOverviews] using hnum)
        simp only [look_step, Option.map_some] at h
        simp only [Link.isCrop, List.filter_cons, List.filter_nil, if_true, List.length_cons,
          List.length_nil, zero_add, gt_iff_lt, lt_irrefl, if_false, List.getLast?_singleton,
          List.dropLast_singleton, relink] at h
        split at h
        · cases h
        · cases h
        · rename_i inner tf1 hw
          cases h
          have hin : ∃ y0' y1' x0' x1', inner = .crop (.leaf l) y0' y1' x0' x1' c := by
            simp only [warpAfterCrop] at hw
            split at hw
            · cases hw
            · split at hw
              · cases hw
              · rename_i i hi
                simp only [Except.ok.injEq, Option.some.injEq, Prod.mk.injEq] at hw
                obtain ⟨rfl, _⟩ := hw
                exact ⟨_, _, _, _, mkCrop_ints hi⟩
          obtain ⟨_, _, _, _, rfl⟩ := hin
          rw [NF, NF, NF]
          exact ⟨⟨trivial, hnan⟩, trivial, by simp [look_step]⟩
    | dequant y q dq =>
      have hdq := hs
      rw [NF] at hdq
      cases y with
      | concat _ _ => exact hdq.2.elim
      | dequant _ _ _ => exact hdq.2.elim
      | warp _ _ _ _ => exact hdq.2.elim
      | leaf l => simp only [look_step, Option.map_none, Except.ok.injEq] at h; subst h; exact hself (by simp [look_step]) _
      | overview x k d1 =>
        obtain ⟨l, rfl⟩ := hdq.1.overview_sub
        simp only [look_step, Option.map_some] at h
        simp [Link.isCrop, relink] at h
        subst h
        rw [NF, NF, NF]
        exact ⟨⟨trivial, trivial⟩, trivial, by simp [look_step]⟩
      | crop x y0 y1 x0 x1 c =>
        have hcr := hdq.1
        rw [NF] at hcr
        cases x with
        | concat _ _ => exact hcr.2.elim
        | crop _ _ _ _ _ _ => exact hcr.2.elim
        | dequant _ _ _ => exact hcr.2.elim
        | leaf l => simp only [look_step, Option.map_none, Except.ok.injEq] at h; subst h; exact hself (by simp [look_step]) _
        | warp _ _ _ _ => simp only [look_step, Option.map_none, Except.ok.injEq] at h; subst h; exact hself (by simp [look_step]) _
        | overview x k d1 =>
          obtain ⟨l, rfl⟩ := hcr.1.overview_sub
          have hnan := ovLeaf_not_nan hr (hr.sub (hr.sub hp rfl) rfl) (num := num)
            (by simpa [numOverviews] using hnum)
          simp only [look_step, Option.map_some] at h
          simp only [Link.isCrop, List.filter_cons, List.filter_nil, if_true, List.length_cons,
            List.length_nil, zero_add, gt_iff_lt, lt_irrefl, if_false, List.getLast?_cons_cons,
            List.getLast?_singleton, List.dropLast_cons₂, List.dropLast_singleton, relink,
            Bool.false_eq_true] at h
          split at h
          · cases h
          · cases h
          · rename_i inner tf1 hw
            cases h
            have hin : ∃ y0' y1' x0' x1', inner = .crop (.leaf l) y0' y1' x0' x1' c := by
              simp only [warpAfterCrop] at hw
              split at hw
              · cases hw
              · split at hw
                · cases hw
                · rename_i i hi
                  simp only [Except.ok.injEq, Option.some.injEq, Prod.mk.injEq] at hw
                  obtain ⟨rfl, _⟩ := hw
                  exact ⟨_, _, _, _, mkCrop_ints hi⟩
            obtain ⟨_, _, _, _, rfl⟩ := hin
            rw [NF, NF, NF, NF]
            exact ⟨⟨⟨trivial, hnan⟩, trivial⟩, trivial, by simp [look_step]⟩

theorem split_ok (hr : Rules H P R) (hrec : RecOk H P R deep rec) {s : Node} {tf : Affine} {d : Int × Int}
    {a : Algo} {m : Node} (hn : P (.warp s tf d a)) (h : split H rec s tf d a = .ok (some m)) :
    P m ∧ R (.warp s tf d a) m := by
  unfold split at h
  split at h
  · cases h
  · cases h
  · rename_i num hnum
    split at h
    · cases h
    · rename_i hne
      split at h
      · cases h
      · rename_i hcan
        simp only at h
        split at h
        · cases h
        · rename_i hnd
          have hsl : SplitLevel H tf num (min num (H.downs tf)) := ⟨by simpa using hcan, rfl, hnd⟩
          split at h
          · rename_i hid
            split at h
            · split at h
              · cases h
              · rename_i c hc
                obtain ⟨k1, k2⟩ := hr.splitCrop hn hnum hne hsl hid hc
                split at h
                · cases h
                · rename_i r hrr
                  cases h
                  have g := hrec _ _ k1 hrr
                  exact ⟨g.inv, hr.trans k2 g.rel⟩
            · rename_i hd
              cases h
              exact hr.splitOv hn hnum hne hsl hid (not_not.1 hd)
          · cases h
            exact hr.splitWarp hn hnum hne hsl

theorem warpRest_ok (hr : Rules H P R) (hrec : RecOk H P R deep rec) {s : Node} {tf : Affine}
    {d : Int × Int} {a : Algo} {n' : Node} (hn : P (.warp s tf d a)) (hs : NF H deep s)
    (hw : ∀ x t e b, s ≠ .warp x t e b) (h : warpRest H rec s tf d a = .ok n') :
    Good H P R deep (.warp s tf d a) n' := by
  have hps : P s := hr.sub hn rfl
  unfold warpRest at h
  split at h
  · rename_i hz
    cases h
    exact ⟨hps, hr.idWarp hn hz.1 hz.2, hs⟩
  · split at h
    · rename_i ps dc
      split at h
      · cases h
      · rename_i hnone
        exact absurd hnone (pushUnder_ne_none (hr.same hps))
      · rename_i p hp
        obtain ⟨k1, k2⟩ := hr.push hn rfl (by simp [selects]) hp
        exact (hrec _ _ k1 h).step hr k2
    · rename_i hnc
      split at h
      · rename_i l hl
        split at hl
        · rename_i l'
          split at hl
          · rename_i hnan
            cases hl
            obtain ⟨k1, k2⟩ := hr.nanWarp hn hnan
            exact (hrec _ _ k1 h).step hr k2
          · cases hl
        · cases hl
      · split at h
        · cases h
        · rename_i hsp
          have hnum : ∃ num, s.numOverviews = .ok num := by
            unfold split at hsp
            split at hsp
            · cases hsp
            · rename_i e; exact ⟨_, e⟩
            · rename_i e; exact ⟨_, e⟩
          obtain ⟨num, hnum⟩ := hnum
          obtain ⟨k1, k2⟩ := hr.absorb hn hnum h
          refine ⟨k1, k2, absorb_nf hr hps hs ?_ hnum h⟩
          cases s with
          | concat ps dc => exact (hnc _ _ rfl).elim
          | warp x t e b => exact absurd rfl (hw x t e b)
          | leaf _ => trivial
          | overview _ _ _ => trivial
          | crop _ _ _ _ _ _ => trivial
          | dequant _ _ _ => trivial
        · rename_i m hm
          obtain ⟨m1, m2⟩ := split_ok hr hrec hn hm
          split at h
          · cases h
          · cases h
          · rename_i x hx
            split at h
            · cases h
            · rename_i x' hx'
              have g := hrec _ _ (hr.sub m1 hx) hx'
              obtain ⟨c1, c2⟩ := hr.cong m1 hx g.inv g.rel
              exact (hrec _ _ c1 h).step hr (hr.trans m2 c2)

theorem optWarp_ok (hr : Rules H P R) (hrec : RecOk H P R deep rec) {s : Node} {tf : Affine}
    {d : Int × Int} {a : Algo} {n' : Node} (hn : P (.warp s tf d a)) (h : optWarp H rec s tf d a = .ok n') :
    Good H P R deep (.warp s tf d a) n' := by
  have hs : P s := hr.sub hn rfl
  unfold optWarp at h
  split at h
  · cases h
  · rename_i s1 tf1 d1 a1 hx
    have g := hrec _ _ hs hx
    obtain ⟨c1, c2⟩ := hr.cong hn rfl g.inv g.rel
    obtain ⟨w1, w2⟩ := hr.fuseWarps c1
    have hnf := g.nf
    rw [NF] at hnf
    refine (warpRest_ok hr hrec w1 hnf.1 ?_ h).step hr (hr.trans c2 w2)
    rintro x t e b rfl
    exact hnf.2.1
  · rename_i s' hnw hx
    have g := hrec _ _ hs hx
    obtain ⟨c1, c2⟩ := hr.cong hn rfl g.inv g.rel
    exact (warpRest_ok hr hrec c1 g.nf (fun x t e b he => hnw x t e b he) h).step hr c2

theorem fuseCrops_form {s : Node} {iy0 iy1 ix0 ix1 y0 y1 x0 x1 : Int} {ic c : Option (List Nat)} {r : Node}
    (h : fuseCrops s iy0 iy1 ix0 ix1 ic y0 y1 x0 x1 c = .ok r) : ∃ y0' y1' x0' x1' c',
      r = .crop s y0' y1' x0' x1' c' := by
  simp only [fuseCrops] at h
  split at h
  · cases h
  · exact ⟨_, _, _, _, _, mkCrop_ints h⟩

/-- An invariant and a relation respected by every rewrite are respected by `optimize`, and its results
are in normal form. -/
theorem opt_good (hr : Rules H P R) (hdeep : deep = true → ∀ a b, R a b → b.dsize = a.dsize)
    (fuel : Nat) : ∀ n n', P n → opt H fuel n = .ok n' → Good H P R deep n n' := by
  induction fuel with
  | zero => intro n n' _ h; simp [opt] at h
  | succ fuel ih =>
    intro n n' hn h
    have hrec : RecOk H P R deep (opt H fuel) := ih
    rw [opt] at h
    cases n with
    | leaf l =>
      simp only [optStep, Except.ok.injEq] at h
      subst h
      exact ⟨hn, hr.refl _, by rw [NF]; trivial⟩
    | concat ps d => exact optConcat_ok hr hdeep hrec hn h
    | warp s tf d a => exact optWarp_ok hr hrec hn h
    | crop s y0 y1 x0 x1 c => exact optCrop_ok hr hrec fuseCrops_form hn h
    | overview s k d => exact optOverview_ok hr hrec hn h
    | dequant s q d => exact optDequant_ok hr hrec hn h

end Tree
end Verif
