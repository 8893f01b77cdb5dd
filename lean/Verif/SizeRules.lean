/-
Trees without overviews: every rewrite keeps the size.
-/
import Verif.SimRules

namespace Verif
namespace Tree

open Helpers Node

/-- Not a negative size. -/
def Nonneg (d : Int × Int) : Prop := 0 ≤ d.1 ∧ 0 ≤ d.2

mutual
/-- Slices are inside the canvas and run forward, stored sizes are the ones the constructors compute, and
no size is negative. -/
def Fit : Node → Prop
  | .leaf l => Nonneg l.dsize
  | .concat ps d => Nonneg d ∧ FitL ps
  | .warp s _ d _ => Nonneg d ∧ Fit s
  | .crop s y0 y1 x0 x1 _ => Fit s ∧ y0 ≤ y1 ∧ y1 ≤ s.dsize.2 ∧ x0 ≤ x1 ∧ x1 ≤ s.dsize.1
  | .overview s k d => Fit s ∧ d = (mkOverview s k).dsize
  | .dequant s _ d => Fit s ∧ d = s.dsize
def FitL : List Node → Prop
  | [] => True
  | p :: ps => Fit p ∧ FitL ps
end

theorem FitL_iff (ps : List Node) : FitL ps ↔ ∀ p ∈ ps, Fit p := by
  induction ps with
  | nil => simp [FitL]
  | cons p ps ih => simp [FitL, ih]

mutual
/-- No overviews: no leaf has any and none is requested. -/
def NoOv : Node → Prop
  | .leaf l => l.overviews = none ∨ l.overviews = some 0
  | .concat ps _ => NoOvL ps
  | .warp s _ _ _ => NoOv s
  | .crop s _ _ _ _ _ => NoOv s
  | .overview _ _ _ => False
  | .dequant s _ _ => NoOv s
def NoOvL : List Node → Prop
  | [] => True
  | p :: ps => NoOv p ∧ NoOvL ps
end

theorem NoOvL_iff (ps : List Node) : NoOvL ps ↔ ∀ p ∈ ps, NoOv p := by
  induction ps with
  | nil => simp [NoOvL]
  | cons p ps ih => simp [NoOvL, ih]

theorem ovSize_nonneg (k w : Int) (h : 0 ≤ w) : 0 ≤ ovSize k w := by
  unfold ovSize
  have h1 := two_pow_pos k
  have h2 : (0 : ℚ) ≤ w := by exact_mod_cast h
  have : (0 : ℚ) ≤ ((2 : ℚ) ^ k)⁻¹ * w := by positivity
  have h3 : (0 : ℚ) ≤ ⌈((2 : ℚ) ^ k)⁻¹ * w⌉ := this.trans (Int.le_ceil _)
  exact_mod_cast h3

mutual
theorem Fit.nonneg : ∀ {n : Node}, Fit n → WF n → Nonneg n.dsize
  | .leaf l, h, _ => h
  | .concat ps d, h, _ => h.1
  | .warp s _ d _, h, _ => h.1
  | .crop s y0 y1 x0 x1 _, h, _ => by
    obtain ⟨_, h1, _, h3, _⟩ := h
    exact ⟨by simp only [dsize]; omega, by simp only [dsize]; omega⟩
  | .overview s k d, h, hw => by
    have := Fit.nonneg h.1 hw
    rw [show (Node.overview s k d).dsize = d from rfl, h.2]
    exact ⟨ovSize_nonneg k _ this.1, ovSize_nonneg k _ this.2⟩
  | .dequant s q d, h, hw => by
    rw [show (Node.dequant s q d).dsize = d from rfl, h.2]
    exact Fit.nonneg h.1 hw
end

/-- A slice inside the canvas is already normalized. -/
theorem normBound_id {D i : Int} (h0 : 0 ≤ i) (h1 : i ≤ D) : normBound D i = i := by
  unfold normBound
  split <;> omega

theorem mkCrop_fit {s r : Node} {y0 y1 x0 x1 : Int} {c : Option (List Nat)}
    (h : mkCrop s (ints y0 y1 x0 x1) c = .ok r) (hy : 0 ≤ y0) (hx : 0 ≤ x0) (hy1 : y0 ≤ y1)
    (hyD : y1 ≤ s.dsize.2) (hx1 : x0 ≤ x1) (hxD : x1 ≤ s.dsize.1) : r = .crop s y0 y1 x0 x1 c := by
  rw [mkCrop_ints h, normBound_id hy (hy1.trans hyD), normBound_id (hy.trans hy1) hyD,
    normBound_id hx (hx1.trans hxD), normBound_id (hx.trans hx1) hxD, max_eq_right hy1, max_eq_right hx1]

/-- Whatever the bounds, the constructor gives a slice inside the canvas. -/
theorem fit_mkCrop {s r : Node} {y0 y1 x0 x1 : Int} {c : Option (List Nat)} (hs : Fit s) (hw : WF s)
    (h : mkCrop s (ints y0 y1 x0 x1) c = .ok r) : Fit r := by
  obtain ⟨h1, h2⟩ := hs.nonneg hw
  rw [mkCrop_ints h]
  refine ⟨hs, le_max_left _ _, ?_, le_max_left _ _, ?_⟩ <;> unfold normBound <;> omega

theorem numOverviews_noOv : ∀ n : Node, NoOv n → ∀ k, n.numOverviews = .ok (some k) → k = 0 := by
  intro n
  induction n using Node.rec (motive_2 := fun ps => NoOvL ps → ∀ cs, numOverviewsL ps = .ok cs →
    ∀ k, some k ∈ cs → k = 0) with
  | leaf l =>
    intro h k e
    simp only [numOverviews, Except.ok.injEq] at e
    rcases h with h | h <;> rw [h] at e <;> cases e
    rfl
  | concat ps d ih =>
    intro h k e
    simp only [numOverviews] at e
    split at e
    · cases e
    · cases e
    · rename_i c cs hcs
      simp only [Except.ok.injEq] at e
      split at e
      · subst e
        exact ih h _ hcs k (by simp)
      · cases e
  | warp s tf d a ih => intro h k e; simp only [numOverviews] at e; exact ih h k e
  | crop s y0 y1 x0 x1 c ih => intro h k e; simp only [numOverviews] at e; exact ih h k e
  | overview s k' d ih => intro h; exact h.elim
  | dequant s q d ih => intro h k e; simp only [numOverviews] at e; exact ih h k e
  | nil =>
    rename_i cs e k hk
    simp only [numOverviewsL, Except.ok.injEq] at e
    subst e
    simp at hk
  | cons p ps ihp ihps =>
    rename_i h cs e k hk
    simp only [numOverviewsL] at e
    split at e
    · cases e
    · rename_i c hc
      split at e
      · cases e
      · rename_i cs' hcs
        cases e
        rcases List.mem_cons.1 hk with hk | hk
        · rw [← hk] at hc
          exact ihp h.1 k hc
        · exact ihps h.2 _ hcs k hk

theorem look_noOv (fuel : Nat) (s : Node) (h : NoOv s) : look fuel s = none := by
  induction fuel generalizing s with
  | zero => rfl
  | succ n ih =>
    rw [look_step]
    cases s with
    | overview _ _ _ => exact h.elim
    | dequant s q d => simp only [ih s h, Option.map_none]
    | crop s _ _ _ _ _ => simp only [ih s h, Option.map_none]
    | _ => rfl

/-! #### channel selection -/

/-- A property of trees kept by the constructors used by `take_channels`. -/
structure TakeStable (Q : Node → Prop) : Prop where
  parts : ∀ {ps d}, Q (.concat ps d) → ∀ p ∈ ps, Q p
  concat : ∀ {ps qs d c}, Q (.concat ps d) → (∀ q ∈ qs, Q q ∧ q.dsize = d) → mkConcat qs = .ok c → Q c
  nan : ∀ {ps d names}, Q (.concat ps d) → Q (nanLeaf 0 d names)
  crop : ∀ {p idxs t}, WF p → Q p → (∀ i ∈ idxs, i < nchan p) → mkCrop p none (some idxs) = .ok t → Q t

/-- Channel selection from a concat keeps such a property, whatever the requests. -/
theorem concatTake_stable {Q : Node → Prop} (hQ : TakeStable Q) {ps : List Node} {d : Int × Int}
    (hn : Q (.concat ps d))
    (hT : ∀ p ∈ ps, ∀ idxs t, (∀ i ∈ idxs, i < nchan p) → takeIdx p idxs = .ok t → Q t)
    {reqs : List (Option Nat × Option Str)} {t : Node} (htd : t.dsize = d)
    (h : concatTake d (takers ps) reqs = .ok t) : Q t := by
  unfold concatTake at h
  split at h
  · cases h
  · rename_i segs hsegs
    split at h
    · cases h
    · rename_i comps hcomps
      have hc := mapAll_ok hcomps
      refine hQ.concat hn (fun q hq => ?_) h
      have hqd : q.dsize = d := by
        obtain ⟨d', rfl, _, hd'⟩ := mkConcat_ok h
        exact (hd' q hq).trans htd
      refine ⟨?_, hqd⟩
      obtain ⟨sg, hsg, hsub⟩ := forall₂_mem_right hc hq
      unfold Seg.sub at hsub
      split at hsub
      · cases hsub
        exact hQ.nan hn
      · rename_i o ho
        rw [takers_eq] at hsub
        simp only [List.getElem?_map] at hsub
        cases hp : ps[o]? with
        | none => rw [hp] at hsub; simp at hsub
        | some p =>
          rw [hp] at hsub
          simp only [Option.map_some] at hsub
          have hmem : p ∈ ps := List.mem_of_getElem? hp
          split at hsub
          · cases hsub
          · cases hsub; exact hQ.parts hn _ hmem
          · rename_i idxs' hix
            have hlt : ∀ j ∈ idxs', j < nchan p := by
              have hsz : (takers ps).map (fun p => p.1.nchan) = ps.map nchan := by
                rw [takers_eq, List.map_map]; rfl
              rw [hsz] at hsegs
              obtain ⟨r1, r2, _⟩ := accLoop_ok hsegs (by simp [accSegs])
              have hix' := Seg.indexer_ok (r2 sg hsg) hix
              simp only [Option.getD_some] at hix'
              intro j hj
              rw [← hix'] at hj
              have : some (o, j) ∈ segs.flatMap Seg.rep := by
                rw [List.mem_flatMap]
                exact ⟨sg, hsg, by
                  simp only [Seg.rep, List.mem_map]; exact ⟨j, hj, by simp [ho]⟩⟩
              rw [r1] at this
              simp only [accSegs, Option.toList_none, List.append_nil, List.flatMap_nil,
                List.nil_append, List.mem_map] at this
              obtain ⟨r, _, e⟩ := this
              simp only [reqPos, Option.bind_eq_some_iff] at e
              obtain ⟨i, _, hu⟩ := e
              obtain ⟨p', h1, h2, _⟩ := unravel_den hu
              rw [hp] at h1
              cases h1
              exact h2
            exact hT p hmem idxs' q hlt hsub

mutual
theorem takeIdx_stable {Q : Node → Prop} (hQ : TakeStable Q) : ∀ (n : Node), WF n → Q n → ∀ idxs t,
    (∀ i ∈ idxs, i < nchan n) → takeIdx n idxs = .ok t → Q t
  | .leaf l, hw, hn, idxs, t, hi, h => by rw [takeIdx] at h; exact hQ.crop hw hn hi h
  | .warp s tf d a, hw, hn, idxs, t, hi, h => by rw [takeIdx] at h; exact hQ.crop hw hn hi h
  | .crop s y0 y1 x0 x1 c, hw, hn, idxs, t, hi, h => by rw [takeIdx] at h; exact hQ.crop hw hn hi h
  | .overview s k d, hw, hn, idxs, t, hi, h => by rw [takeIdx] at h; exact hQ.crop hw hn hi h
  | .dequant s q d, hw, hn, idxs, t, hi, h => by rw [takeIdx] at h; exact hQ.crop hw hn hi h
  | .concat ps d, hw, hn, idxs, t, hi, h => by
    have hps : WFL d ps := by rw [WF] at hw; exact hw.2
    have ht := takeIdx_ok _ hw idxs t hi h
    rw [takeIdx] at h
    split at h
    · cases h
    · exact concatTake_stable hQ hn (takeIdx_stableL hQ ps d hps (hQ.parts hn)) ht.dsize h
theorem takeIdx_stableL {Q : Node → Prop} (hQ : TakeStable Q) : ∀ (ps : List Node) (d : Int × Int),
    WFL d ps → (∀ p ∈ ps, Q p) → ∀ p ∈ ps, ∀ idxs t, (∀ i ∈ idxs, i < nchan p) →
    takeIdx p idxs = .ok t → Q t
  | [], _, _, _, p, hp, _, _, _, _ => by simp at hp
  | q :: qs, d, h, hq, p, hp, idxs, t, hi, ht => by
    rw [WFL] at h
    rcases List.mem_cons.1 hp with e | hp
    · rw [e] at hi ht; exact takeIdx_stable hQ q h.1 (hq q (by simp)) idxs t hi ht
    · exact takeIdx_stableL hQ qs d h.2.2 (fun p hp => hq p (by simp [hp])) p hp idxs t hi ht
end

/-! #### sizes -/

/-- Well-formed trees without overviews. -/
structure Plain (n : Node) : Prop where
  wf : WF n
  fit : Fit n
  noOv : NoOv n

theorem noOv_nanLeaf (kind : Nat) (d : Int × Int) (names : Option (List Str)) : NoOv (nanLeaf kind d names) := Or.inl rfl

theorem mkCrop_none_form {p t : Node} {idxs : Option (List Nat)} (h : mkCrop p none idxs = .ok t) :
    t = .crop p 0 p.dsize.2 0 p.dsize.1 idxs := by
  unfold mkCrop at h
  split at h
  · cases h
  · simp only [Except.ok.injEq] at h
    exact h.symm

theorem noOv_take : TakeStable NoOv where
  parts := fun h p hp => (NoOvL_iff _).1 h p hp
  concat := by
    intro ps qs d c _ hq hc
    obtain ⟨d', rfl, _, _⟩ := mkConcat_ok hc
    exact (NoOvL_iff _).2 fun q hq' => (hq q hq').1
  nan := fun _ => noOv_nanLeaf _ _ _
  crop := by
    intro p idxs t _ hp _ h
    rw [mkCrop_none_form h]; exact hp

theorem fit_take : TakeStable Fit where
  parts := fun h p hp => (FitL_iff _).1 h.2 p hp
  concat := by
    intro ps qs d c h hq hc
    obtain ⟨d', rfl, hne, hd'⟩ := mkConcat_ok hc
    obtain ⟨q, hq1⟩ := List.exists_mem_of_ne_nil _ hne
    have e : d' = d := (hd' q hq1).symm.trans (hq q hq1).2
    exact ⟨by rw [e]; exact h.1, (FitL_iff _).2 fun q hq' => (hq q hq').1⟩
  nan := fun h => h.1
  crop := by
    intro p idxs t hw hp _ h
    obtain ⟨h1, h2⟩ := hp.nonneg hw
    rw [mkCrop_none_form h]
    exact ⟨hp, h2, le_refl _, h1, le_refl _⟩

theorem plain_sub {n x : Node} (hn : Plain n) (h : subOf n = .ok (some x)) : Plain x := by
  refine ⟨wf_sub hn.wf h, ?_, ?_⟩
  · have := hn.fit
    cases n with
    | leaf l => simp [subOf] at h
    | concat _ _ => simp [subOf] at h
    | warp s _ _ _ => cases h; exact this.2
    | crop s _ _ _ _ _ => cases h; exact this.1
    | overview s _ _ => cases h; exact this.1
    | dequant s _ _ => cases h; exact this.1
  · have := hn.noOv
    cases n with
    | leaf l => simp [subOf] at h
    | concat _ _ => simp [subOf] at h
    | warp s _ _ _ => cases h; exact this
    | crop s _ _ _ _ _ => cases h; exact this
    | overview s _ _ => exact this.elim
    | dequant s _ _ => cases h; exact this

theorem fit_setSub {n x x' : Node} (hn : Fit n) (h : subOf n = .ok (some x)) (hx : Fit x')
    (hd : x'.dsize = x.dsize) : Fit (setSub n x') ∧ (setSub n x').dsize = n.dsize := by
  cases n with
  | leaf l => simp [subOf] at h
  | concat _ _ => simp [subOf] at h
  | warp s _ _ _ => cases h; exact ⟨⟨hn.1, hx⟩, rfl⟩
  | crop s _ _ _ _ _ =>
    cases h
    obtain ⟨_, h1, h2, h3, h4⟩ := hn
    exact ⟨⟨hx, h1, by rw [hd]; exact h2, h3, by rw [hd]; exact h4⟩, rfl⟩
  | overview s k d =>
    cases h
    refine ⟨⟨hx, ?_⟩, rfl⟩
    rw [hn.2]
    simp only [mkOverview, Node.dsize] at hd ⊢
    rw [hd]
  | dequant s q d => cases h; exact ⟨⟨hx, by rw [hd]; exact hn.2⟩, rfl⟩

theorem noOv_setSub {n x x' : Node} (hn : NoOv n) (h : subOf n = .ok (some x)) (hx : NoOv x') :
    NoOv (setSub n x') := by
  cases n with
  | leaf l => simp [subOf] at h
  | concat _ _ => simp [subOf] at h
  | warp s _ _ _ => exact hx
  | crop s _ _ _ _ _ => exact hx
  | overview s k d => exact hn.elim
  | dequant s q d => exact hx

/-- Sizes of operations moved into a concat. -/
theorem push_size {n c : Node} {ps : List Node} {d : Int × Int} (hn : WF n) (hf : Fit n)
    (hsub : subOf n = .ok (some (.concat ps d))) (h : pushUnder n ps = .ok (some c)) :
    ∃ qs, c = .concat qs n.dsize ∧ qs ≠ [] ∧ Nonneg n.dsize ∧
      List.Forall₂ (fun p q => reapply n p = .ok q) ps qs ∧
      (∀ p ∈ ps, p.dsize = d ∧ Fit p ∧ WF p) ∧ ∀ q ∈ qs, Fit q ∧ q.dsize = n.dsize := by
  unfold pushUnder at h
  split at h
  · cases h
  · rename_i qs hqs
    split at h
    · rename_i c' hc
      cases h
      obtain ⟨d', rfl, hne, hd'⟩ := mkConcat_ok hc
      have hm := mapAll_ok hqs
      have hcw : WF (.concat ps d) := wf_sub hn hsub
      have hcf : Fit (.concat ps d) := by
        cases n with
        | leaf l => simp [subOf] at hsub
        | concat _ _ => simp [subOf] at hsub
        | warp s _ _ _ => cases hsub; exact hf.2
        | crop s _ _ _ _ _ => cases hsub; exact hf.1
        | overview s _ _ => cases hsub; exact hf.1
        | dequant s _ _ => cases hsub; exact hf.1
      have hps : ∀ p ∈ ps, p.dsize = d ∧ Fit p ∧ WF p := fun p hp =>
        ⟨((WFL_iff _ _).1 hcw.2 p hp).2, (FitL_iff _).1 hcf.2 p hp, ((WFL_iff _ _).1 hcw.2 p hp).1⟩
      have hqs' : ∀ q ∈ qs, Fit q ∧ q.dsize = n.dsize := by
        intro q hq
        obtain ⟨p, hp, e⟩ := forall₂_mem_right hm hq
        obtain ⟨p1, p2, p3⟩ := hps p hp
        cases n with
        | leaf l => simp [subOf] at hsub
        | concat _ _ => simp [subOf] at hsub
        | warp s tf dw a => cases e; exact ⟨⟨hf.1, p2⟩, rfl⟩
        | crop s y0 y1 x0 x1 ci =>
          cases hsub
          simp only [reapply] at e
          obtain ⟨_, f1, f2, f3, f4⟩ := hf
          simp only [dsize] at f2 f4
          have e' := mkCrop_fit e hn.2.1 hn.2.2.1 f1 (by rw [p1]; exact f2) f3 (by rw [p1]; exact f4)
          subst e'
          exact ⟨⟨p2, f1, by rw [p1]; exact f2, f3, by rw [p1]; exact f4⟩, rfl⟩
        | overview s k dw =>
          cases hsub
          cases e
          refine ⟨⟨p2, rfl⟩, ?_⟩
          rw [show (Node.overview (.concat ps d) k dw).dsize = dw from rfl, hf.2]
          simp only [mkOverview, Node.dsize] at p1 ⊢
          rw [p1]
        | dequant s k dw =>
          cases hsub
          cases e
          refine ⟨⟨p2, rfl⟩, ?_⟩
          rw [show (Node.dequant (.concat ps d) k dw).dsize = dw from rfl, hf.2]
          exact p1
      obtain ⟨q, hq⟩ := List.exists_mem_of_ne_nil _ hne
      have ed : d' = n.dsize := (hd' q hq).symm.trans (hqs' q hq).2
      subst ed
      exact ⟨qs, rfl, hne, hf.nonneg hn, hm, hps, hqs'⟩
    · cases h
    · cases h

theorem fuseAxis_fit {i0 i1 o0 o1 : Int} (ho : o0 ≤ o1) (h1 : o1 ≤ i1 - i0) :
    fuseAxis i0 i1 o0 o1 = (i0 + o0, i0 + o1) := by
  unfold fuseAxis
  rw [min_eq_left (by omega), min_eq_left (by omega)]

theorem fuseCrops_fit {s r : Node} {iy0 iy1 ix0 ix1 y0 y1 x0 x1 : Int} {ic c : Option (List Nat)}
    (hw : WF (.crop (.crop s iy0 iy1 ix0 ix1 ic) y0 y1 x0 x1 c))
    (hf : Fit (.crop (.crop s iy0 iy1 ix0 ix1 ic) y0 y1 x0 x1 c))
    (h : fuseCrops s iy0 iy1 ix0 ix1 ic y0 y1 x0 x1 c = .ok r) :
    ∃ nc, fuseChans ic c = .ok nc ∧ r = .crop s (iy0 + y0) (iy0 + y1) (ix0 + x0) (ix0 + x1) nc ∧ Fit r := by
  simp only [fuseCrops] at h
  split at h
  · cases h
  · rename_i nc hnc
    obtain ⟨⟨_, w1, w2, _⟩, w3, w4, _⟩ := hw
    obtain ⟨⟨f0, f1, f2, f3, f4⟩, f5, f6, f7, f8⟩ := hf
    simp only [dsize] at f6 f8
    rw [fuseAxis_fit f5 f6, fuseAxis_fit f7 f8] at h
    have := mkCrop_fit h (by simp only; omega) (by simp only; omega) (by simp only; omega)
      (by simp only; omega) (by simp only; omega) (by simp only; omega)
    subst this
    exact ⟨nc, hnc, rfl, f0, by omega, by omega, by omega, by omega⟩

theorem nanCrop_size {l : Leaf} {y0 y1 x0 x1 : Int} {c : Option (List Nat)} {r : Node} (hl : Nonneg l.dsize)
    (hy : 0 ≤ y0) (hx : 0 ≤ x0) (hy1 : y0 ≤ y1) (hyD : y1 ≤ l.dsize.2) (hx1 : x0 ≤ x1)
    (hxD : x1 ≤ l.dsize.1) (h : nanCrop l y0 y1 x0 x1 c = .ok r) :
    ∃ names, r = nanLeaf l.id (x1 - x0, y1 - y0) names := by
  unfold nanCrop at h
  split at h
  · cases h
  · rename_i ns hns
    split at h
    · cases h
    · split at h
      · cases h
      · rename_i ysl yex hy' _ xsl xex hx'
        cases h
        refine ⟨ns, ?_⟩
        unfold embedSlice at hy' hx'
        rw [if_neg (by omega)] at hy' hx'
        simp only [Except.ok.injEq, Prod.mk.injEq] at hy' hx'
        obtain ⟨rfl, rfl⟩ := hy'
        obtain ⟨rfl, rfl⟩ := hx'
        obtain ⟨l1, l2⟩ := hl
        have e1 : min l.dsize.1 (max 0 (x1 + 0)) = x1 := by omega
        have e2 : min l.dsize.1 (max 0 (x0 - 0)) = x0 := by omega
        have e3 : min l.dsize.2 (max 0 (y1 + 0)) = y1 := by omega
        have e4 : min l.dsize.2 (max 0 (y0 - 0)) = y0 := by omega
        simp only [e1, e2, e3, e4]

theorem sizeRules (H : Heur) :
    Rules H Plain (fun n n' => n'.dsize = n.dsize ∧ n'.nchan = n.nchan) where
  refl := fun _ => ⟨rfl, rfl⟩
  trans := fun h1 h2 => ⟨h2.1.trans h1.1, h2.2.trans h1.2⟩
  sub := plain_sub
  parts := fun h p hp => ⟨((WFL_iff _ _).1 h.wf.2 p hp).1, (FitL_iff _).1 h.fit.2 p hp,
    (NoOvL_iff _).1 h.noOv p hp⟩
  same := fun h p hp => ((WFL_iff _ _).1 h.wf.2 p hp).2
  nan := fun h hn => (h.wf.2 hn).2
  cong := by
    intro n x x' hn hx hx' hs
    obtain ⟨f1, f2⟩ := fit_setSub hn.fit hx hx'.fit hs.1
    have hwf : WF (setSub n x') ∧ (setSub n x').nchan = n.nchan := by
      have := hn.wf
      cases n with
      | leaf l => simp [subOf] at hx
      | concat _ _ => simp [subOf] at hx
      | warp s tf d a => cases hx; exact ⟨⟨hx'.wf, this.2⟩, by simp only [setSub, nchan]; exact hs.2⟩
      | crop s y0 y1 x0 x1 c =>
        cases hx
        refine ⟨⟨hx'.wf, this.2.1, this.2.2.1, by rw [hs.2]; exact this.2.2.2⟩, ?_⟩
        cases c with
        | none => simp only [setSub, nchan]; exact hs.2
        | some c => simp only [setSub, nchan]
      | overview s k d => exact hn.noOv.elim
      | dequant s q d => cases hx; exact ⟨hx'.wf, by simp only [setSub, nchan]; exact hs.2⟩
    exact ⟨⟨hwf.1, f1, noOv_setSub hn.noOv hx hx'.noOv⟩, f2, hwf.2⟩
  concat := by
    intro ps d qs c hn hf hc
    obtain ⟨d', rfl, hne, hd'⟩ := mkConcat_ok hc
    have hq : ∀ q ∈ qs, Plain q ∧ q.dsize = d := by
      intro q hq
      obtain ⟨p, hp, h⟩ := forall₂_mem_right (forall₂_imp_left hf (S := fun p q => Plain q ∧ q.dsize = d)
        fun p hp q h => ⟨h.1, h.2.1.trans ((WFL_iff _ _).1 hn.wf.2 p hp).2⟩) hq
      exact h
    obtain ⟨q, hq1⟩ := List.exists_mem_of_ne_nil _ hne
    have e : d' = d := (hd' q hq1).symm.trans (hq q hq1).2
    subst e
    refine ⟨⟨⟨hne, (WFL_iff _ _).2 fun q h => ⟨(hq q h).1.wf, (hq q h).2⟩⟩,
      ⟨hn.fit.1, (FitL_iff _).2 fun q h => (hq q h).1.fit⟩, (NoOvL_iff _).2 fun q h => (hq q h).1.noOv⟩, rfl, ?_⟩
    simp only [nchan, nchans_eq]
    clear hc hq hd' hne hn hq1
    induction hf with
    | nil => rfl
    | cons h _ ih => simp only [List.map_cons, List.sum_cons]; rw [h.2.2, ih]
  push := by
    intro n ps d c hn hsub hsel h
    obtain ⟨w1, w2⟩ := sim_push hn.wf hsub hsel h
    obtain ⟨qs, rfl, hne, hnn, hm, hps, hqs⟩ := push_size hn.wf hn.fit hsub h
    refine ⟨⟨w1, ⟨hnn, (FitL_iff _).2 fun q hq => (hqs q hq).1⟩, (NoOvL_iff _).2 fun q hq => ?_⟩, rfl, w2.nchan⟩
    obtain ⟨p, hp, e⟩ := forall₂_mem_right hm hq
    have hno : NoOv p := (NoOvL_iff _).1 (plain_sub hn hsub).noOv p hp
    have hnn := hn.noOv
    cases n with
    | leaf l => simp [subOf] at hsub
    | concat _ _ => simp [subOf] at hsub
    | warp s tf dw a => cases e; exact hno
    | crop s y0 y1 x0 x1 ci =>
      simp only [reapply] at e
      rw [mkCrop_ints e]; exact hno
    | overview s k dw => exact hnn.elim
    | dequant s k dw => cases e; exact hno
  fuseWarps := by
    intro s t1 d1 a1 t2 d2 a2 h
    obtain ⟨w1, w2⟩ := (simRules Heur.exact Heur.exact_exact).fuseWarps h.wf
    exact ⟨⟨w1, ⟨h.fit.1, h.fit.2.2⟩, h.noOv⟩, rfl, w2.nchan⟩
  idWarp := by
    intro s tf d a h hd _
    exact ⟨hd.symm, by simp only [nchan]⟩
  nanWarp := by
    intro l tf d a h hn
    obtain ⟨w1, w2⟩ := (simRules Heur.exact Heur.exact_exact).nanWarp h.wf hn
    exact ⟨⟨w1, h.fit.1, noOv_nanLeaf _ _ _⟩, rfl, w2.nchan⟩
  splitWarp := fun h hnum hne => absurd (numOverviews_noOv _ h.noOv _ hnum) hne
  splitOv := fun h hnum hne => absurd (numOverviews_noOv _ h.noOv _ hnum) hne
  splitCrop := fun h hnum hne => absurd (numOverviews_noOv _ h.noOv _ hnum) hne
  absorb := by
    intro s tf d a num r h _ hr
    unfold absorb at hr
    split at hr
    · cases hr; exact ⟨h, rfl, rfl⟩
    · rw [look_noOv 4 s h.noOv] at hr
      cases hr; exact ⟨h, rfl, rfl⟩
  nanCrop := by
    intro l y0 y1 x0 x1 c r h hn hr
    obtain ⟨w1, w2⟩ := (simRules Heur.exact Heur.exact_exact).nanCrop h.wf hn hr
    obtain ⟨f0, f1, f2, f3, f4⟩ := h.fit
    obtain ⟨names, rfl⟩ := nanCrop_size f0 h.wf.2.1 h.wf.2.2.1 f1 f2 f3 f4 hr
    exact ⟨⟨w1, ⟨by simp only; omega, by simp only; omega⟩, noOv_nanLeaf _ _ _⟩, rfl, w2.nchan⟩
  fuseCrops := by
    intro s iy0 iy1 ix0 ix1 ic y0 y1 x0 x1 c r h hr
    obtain ⟨w1, w2⟩ := (simRules Heur.exact Heur.exact_exact).fuseCrops h.wf hr
    obtain ⟨nc, _, rfl, f⟩ := fuseCrops_fit h.wf h.fit hr
    refine ⟨⟨w1, f, h.noOv⟩, ?_, w2.nchan⟩
    simp only [dsize, Prod.mk.injEq]
    exact ⟨by ring, by ring⟩
  warpAfterCrop := by
    intro s tf d a y0 y1 x0 x1 c inner tf' h hr
    obtain ⟨w1, w2⟩ := (simRules Heur.exact Heur.exact_exact).warpAfterCrop h.wf hr
    obtain ⟨⟨_, fs⟩, f1, f2, f3, f4⟩ := h.fit
    refine ⟨⟨w1, ⟨⟨by simp only; omega, by simp only; omega⟩, ?_⟩, ?_⟩, rfl, w2.nchan⟩
    · simp only [warpAfterCrop] at hr
      split at hr
      · cases hr
      · split at hr
        · cases hr
        · rename_i i hi
          simp only [Except.ok.injEq, Option.some.injEq, Prod.mk.injEq] at hr
          obtain ⟨rfl, _⟩ := hr
          exact fit_mkCrop fs h.wf.1.1 hi
    · simp only [warpAfterCrop] at hr
      split at hr
      · cases hr
      · split at hr
        · cases hr
        · rename_i i hi
          simp only [Except.ok.injEq, Option.some.injEq, Prod.mk.injEq] at hr
          obtain ⟨rfl, _⟩ := hr
          rw [mkCrop_ints hi]
          exact h.noOv
  dequantCrop := by
    intro s q d y0 y1 x0 x1 c h
    obtain ⟨w1, w2⟩ := (simRules Heur.exact Heur.exact_exact).dequantCrop h.wf
    obtain ⟨⟨fs, fd⟩, f1, f2, f3, f4⟩ := h.fit
    simp only [Node.dsize] at f2 f4
    rw [fd] at f2 f4
    exact ⟨⟨w1, ⟨⟨fs, f1, f2, f3, f4⟩, rfl⟩, h.noOv⟩, rfl, w2.nchan⟩
  take := by
    intro ps d y0 y1 x0 x1 c t h ht
    have hT := takeIdx_ok _ h.wf.1 c t h.wf.2.2.2 ht
    refine ⟨⟨hT.wf, takeIdx_stable fit_take _ h.wf.1 h.fit.1 c t h.wf.2.2.2 ht,
      takeIdx_stable noOv_take _ h.wf.1 h.noOv c t h.wf.2.2.2 ht⟩, ?_⟩
    intro t' cr ht' hs hcr
    obtain ⟨f0, f1, f2, f3, f4⟩ := h.fit
    have ed : t'.dsize = d := hs.1.trans hT.dsize
    simp only [dsize] at f2 f4
    have e := mkCrop_fit hcr h.wf.2.1 h.wf.2.2.1 f1 (by rw [ed]; exact f2) f3 (by rw [ed]; exact f4)
    subst e
    refine ⟨⟨⟨ht'.wf, h.wf.2.1, h.wf.2.2.1, trivial⟩, ⟨ht'.fit, f1, by rw [ed]; exact f2, f3, by
      rw [ed]; exact f4⟩, ht'.noOv⟩, rfl, ?_⟩
    simp only [nchan]
    rw [hs.2, ← den_length, hT.den]
    simp [pick]
  renorm := by
    intro ps d y0 y1 x0 x1 cr h hcr
    obtain ⟨f0, f1, f2, f3, f4⟩ := h.fit
    have e := mkCrop_fit hcr h.wf.2.1 h.wf.2.2.1 f1 f2 f3 f4
    subst e
    exact ⟨h, rfl, rfl⟩
  cropAfterOverview := fun h => h.noOv.elim
  warpAfterOverview := fun h => h.noOv.elim
  dequantOverview := fun h => h.noOv.elim
  ov0 := fun h => h.noOv.elim
  fuseOv := fun h => h.noOv.elim
  dequantWarp := by
    intro s tf dw a q d h
    obtain ⟨w1, w2⟩ := (simRules Heur.exact Heur.exact_exact).dequantWarp h.wf
    obtain ⟨⟨f1, f2⟩, f3⟩ := h.fit
    exact ⟨⟨w1, ⟨f1, f2, rfl⟩, h.noOv⟩, f3.symm, w2.nchan⟩

end Tree
end Verif
