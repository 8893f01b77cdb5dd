/-
`take_channels` with any way of looking at the channels of a tree that treats concats part by part.
-/
import Verif.TakeTotal

namespace Verif
namespace Tree

open Helpers Node

/-- A list of channels for every tree.  `Q` are the trees of interest, `x0` is used for positions that do
not exist, `miss` is a channel of NaNs. -/
structure View {X : Type} (Q : Node → Prop) (f : Node → List X) (x0 miss : X) : Prop where
  len : ∀ {n}, Q n → (f n).length = n.nchan
  parts : ∀ {ps d}, Q (.concat ps d) → ∀ p ∈ ps, Q p
  concat : ∀ ps d, f (.concat ps d) = ps.flatMap f
  crop : ∀ {p : Node} {idxs : List Nat}, Q p → (∀ ps d, p ≠ .concat ps d) → (∀ i ∈ idxs, i < p.nchan) →
    f (.crop p 0 p.dsize.2 0 p.dsize.1 (some idxs)) = pick x0 (f p) idxs
  nan : ∀ (d : Int × Int) (l : List Str), (∃ p, Q p ∧ p.dsize = d) →
    f (nanLeaf 0 d (some l)) = List.replicate l.length miss

variable {X : Type} {Q : Node → Prop} {f : Node → List X} {x0 miss : X}

/-- What is seen at a position. -/
def SeenAt (f : Node → List X) (x0 miss : X) (ps : List Node) : Option (Nat × Nat) → X → Prop
  | none, x => x = miss
  | some (o, j), x => ∃ p, ps[o]? = some p ∧ x = (f p).getD j x0

theorem Seg.sub_view (hv : View Q f x0 miss) {ps : List Node} {d : Int × Int} (hps : ∀ p ∈ ps, Q p)
    (hd : ∃ p, Q p ∧ p.dsize = d)
    (hT : ∀ p ∈ ps, ∀ idxs t, (∀ i ∈ idxs, i < nchan p) → takeIdx p idxs = .ok t → f t = pick x0 (f p) idxs)
    {s : Seg} (hs : s.Inv) (hpos : ∀ o j, some (o, j) ∈ s.rep → ∃ p, ps[o]? = some p ∧ j < nchan p)
    (hc : s.comp = none → ∃ l, s.codes = some l ∧ l.length = s.indexes.length)
    {t : Node} (h : s.sub d (takers ps) = .ok t) :
    List.Forall₂ (SeenAt f x0 miss ps) s.rep (f t) := by
  unfold Seg.sub at h
  split at h
  · rename_i hcomp
    obtain ⟨l, hl, hlen⟩ := hc hcomp
    simp only [Except.ok.injEq] at h
    subst h
    have hrep : s.rep = List.replicate s.indexes.length none := by
      simp [Seg.rep, hcomp]
    rw [hrep, hl, hv.nan _ _ hd, hlen]
    generalize s.indexes.length = m
    induction m with
    | zero => exact .nil
    | succ m ih => exact .cons rfl ih
  · rename_i o hcomp
    have hrep : s.rep = s.indexes.map (fun j => some (o, j)) := by
      simp [Seg.rep, hcomp]
    rw [takers_eq] at h
    simp only [List.getElem?_map] at h
    cases hp : ps[o]? with
    | none => rw [hp] at h; simp at h
    | some p =>
      rw [hp] at h
      simp only [Option.map_some] at h
      have hmem : p ∈ ps := List.mem_of_getElem? hp
      have hlt : ∀ j ∈ s.indexes, j < nchan p := by
        intro j hj
        obtain ⟨p', hp', hj'⟩ := hpos o j (by rw [hrep]; exact List.mem_map.2 ⟨j, hj, rfl⟩)
        rw [hp] at hp'
        cases hp'
        exact hj'
      suffices H : f t = pick x0 (f p) s.indexes by
        rw [H, hrep]
        simp only [pick]
        rw [List.forall₂_map_left_iff]
        exact forall₂_map_right fun j _ => ⟨p, hp, rfl⟩
      split at h
      · cases h
      · rename_i hix
        have := Seg.indexer_ok hs hix
        simp only [Except.ok.injEq] at h
        subst h
        simp only [Option.getD_none] at this
        rw [this, ← hv.len (hps p hmem), pick_range]
      · rename_i idxs hix
        have := Seg.indexer_ok hs hix
        simp only [Option.getD_some] at this
        rw [this]
        rw [this] at hlt
        exact hT p hmem idxs t hlt h

/-- What is seen for a request. -/
def SeenReq (f : Node → List X) (x0 miss : X) (ps : List Node) (r : Option Nat × Option Str) (x : X) : Prop :=
  match r.1 with
  | none => x = miss
  | some i => x = (ps.flatMap f).getD i x0

theorem concatTake_view (hv : View Q f x0 miss) {ps : List Node} {d : Int × Int} (hps : ∀ p ∈ ps, Q p)
    (hd : ∃ p, Q p ∧ p.dsize = d)
    (hT : ∀ p ∈ ps, ∀ idxs t, (∀ i ∈ idxs, i < nchan p) → takeIdx p idxs = .ok t → f t = pick x0 (f p) idxs)
    {reqs : List (Option Nat × Option Str)} (hreq : ReqsOk reqs)
    {t : Node} (h : concatTake d (takers ps) reqs = .ok t) :
    List.Forall₂ (SeenReq f x0 miss ps) reqs (f t) := by
  unfold concatTake at h
  have hsz : (takers ps).map (fun p => p.1.nchan) = ps.map nchan := by
    rw [takers_eq, List.map_map]; rfl
  rw [hsz] at h
  split at h
  · cases h
  · rename_i segs hloop
    split at h
    · cases h
    · rename_i comps hcomps
      have hc := mapAll_ok hcomps
      obtain ⟨r1, r2, r3⟩ := accLoop_ok hloop (by simp [accSegs])
      have r4 := accLoop_nonempty hloop (by simp [accSegs])
      simp only [accSegs, Option.toList_none, List.append_nil, List.flatMap_nil, List.nil_append] at r1
      have hcs : ∀ s ∈ segs, s.comp = Option.none → ∃ l, s.codes = some l ∧ l.length = s.indexes.length := by
        rcases hreq with ⟨codes, hcodes⟩ | hsome
        · obtain ⟨c1, c2⟩ := accLoop_codes hcodes hloop (by simp [accSegs])
          intro s hs _
          rcases c2 s hs with ⟨_, h2, _⟩ | ⟨_, l, h1, h2⟩
          · exact absurd h2 (r4 s hs)
          · exact ⟨l, h1, h2⟩
        · intro s hs hcomp
          exfalso
          obtain ⟨j, hj⟩ := List.exists_mem_of_ne_nil _ (r4 s hs)
          have : Option.none ∈ segs.flatMap Seg.rep := by
            rw [List.mem_flatMap]
            exact ⟨s, hs, by simp only [Seg.rep, List.mem_map]; exact ⟨j, hj, by simp [hcomp]⟩⟩
          rw [r1, List.mem_map] at this
          obtain ⟨r, hr, e⟩ := this
          have := r3 r hr (hsome r hr).1
          rw [e] at this
          cases this
      have hseg : List.Forall₂ (fun s t => List.Forall₂ (SeenAt f x0 miss ps) s.rep (f t)) segs comps := by
        have hposAll : ∀ s ∈ segs, ∀ o j, some (o, j) ∈ s.rep → ∃ p, ps[o]? = some p ∧ j < nchan p := by
          intro s hs o j hm
          have : some (o, j) ∈ segs.flatMap Seg.rep := List.mem_flatMap.2 ⟨s, hs, hm⟩
          rw [r1, List.mem_map] at this
          obtain ⟨r, hr, e⟩ := this
          simp only [reqPos, Option.bind_eq_some_iff] at e
          obtain ⟨i, _, hu⟩ := e
          obtain ⟨p, h1, h2, _⟩ := unravel_den hu
          exact ⟨p, h1, h2⟩
        exact forall₂_imp_left hc fun s hs t hst =>
          Seg.sub_view hv hps hd hT (r2 s hs) (hposAll s hs) (hcs s hs) hst
      obtain ⟨d', rfl, _, _⟩ := mkConcat_ok h
      rw [hv.concat, List.flatMap_def]
      have h1 : List.Forall₂ (SeenAt f x0 miss ps) (segs.flatMap Seg.rep) (comps.map f).flatten := by
        apply forall₂_flatMap
        rw [List.forall₂_map_right_iff]
        exact hseg
      rw [r1, List.forall₂_map_left_iff] at h1
      refine forall₂_imp_left h1 fun r hr x hx => ?_
      unfold SeenReq
      cases hi : r.1 with
      | none =>
        simp only [reqPos, hi, Option.bind_none] at hx
        exact hx
      | some i =>
        have := r3 r hr (by rw [hi]; rfl)
        obtain ⟨⟨o, j⟩, hoj⟩ := Option.isSome_iff_exists.1 this
        rw [hoj] at hx
        simp only [reqPos, hi, Option.bind_some] at hoj
        have e : ps.map nchan = (ps.map f).map List.length := by
          rw [List.map_map]
          exact List.map_congr_left fun p hp => (hv.len (hps p hp)).symm
        rw [e] at hoj
        obtain ⟨l, k1, k2, k3⟩ := unravel_getD x0 _ _ _ _ hoj
        obtain ⟨p, k4, rfl⟩ := hx
        simp only [List.getElem?_map, k4, Option.map_some, Option.some.injEq] at k1
        subst k1
        show (f p).getD j x0 = _
        rw [List.flatMap_def, k3]

theorem seenReq_idxs {ps : List Node} {idxs : List Nat} {l : List X}
    (h : List.Forall₂ (SeenReq f x0 miss ps) (idxs.map (fun i => (some i, Option.none))) l) :
    l = pick x0 (ps.flatMap f) idxs := by
  rw [List.forall₂_map_left_iff] at h
  induction h with
  | nil => rfl
  | cons h _ ih => rw [ih]; simp only [pick, List.map_cons]; rw [← h]

theorem mkCrop_view (hv : View Q f x0 miss) {n t : Node} (hq : Q n) (hn : ∀ ps d, n ≠ .concat ps d)
    {idxs : List Nat} (hi : ∀ i ∈ idxs, i < nchan n) (h : mkCrop n none (some idxs) = .ok t) :
    f t = pick x0 (f n) idxs := by
  unfold mkCrop at h
  split at h
  · cases h
  · cases h; exact hv.crop hq hn hi

mutual
theorem takeIdx_view (hv : View Q f x0 miss) : ∀ (n : Node), Q n → ∀ idxs t, (∀ i ∈ idxs, i < nchan n) →
    takeIdx n idxs = .ok t → f t = pick x0 (f n) idxs
  | .leaf l, hn, idxs, t, hi, h => by
    rw [takeIdx] at h; exact mkCrop_view hv hn (by intro _ _ e; cases e) hi h
  | .warp s tf d a, hn, idxs, t, hi, h => by
    rw [takeIdx] at h; exact mkCrop_view hv hn (by intro _ _ e; cases e) hi h
  | .crop s y0 y1 x0 x1 c, hn, idxs, t, hi, h => by
    rw [takeIdx] at h; exact mkCrop_view hv hn (by intro _ _ e; cases e) hi h
  | .overview s k d, hn, idxs, t, hi, h => by
    rw [takeIdx] at h; exact mkCrop_view hv hn (by intro _ _ e; cases e) hi h
  | .dequant s q d, hn, idxs, t, hi, h => by
    rw [takeIdx] at h; exact mkCrop_view hv hn (by intro _ _ e; cases e) hi h
  | .concat ps d, hn, idxs, t, hi, h => by
    rw [takeIdx] at h
    split at h
    · cases h
    · have hps := hv.parts hn
      rw [seenReq_idxs (concatTake_view hv hps ⟨_, hn, rfl⟩ (takeIdx_viewL hv ps hps) (Or.inr (by simp)) h),
        hv.concat]
theorem takeIdx_viewL (hv : View Q f x0 miss) : ∀ (ps : List Node), (∀ p ∈ ps, Q p) → ∀ p ∈ ps, ∀ idxs t,
    (∀ i ∈ idxs, i < nchan p) → takeIdx p idxs = .ok t → f t = pick x0 (f p) idxs
  | [], _, p, hp, _, _, _, _ => by simp at hp
  | q :: qs, h, p, hp, idxs, t, hi, ht => by
    rcases List.mem_cons.1 hp with e | hp
    · rw [e] at hi ht ⊢; exact takeIdx_view hv q (h q (by simp)) idxs t hi ht
    · exact takeIdx_viewL hv qs (fun p hp => h p (by simp [hp])) p hp idxs t hi ht
end

/-- What is seen for a code. -/
def SeenCode (f : Node → List X) (x0 miss : X) (n : Node) (names : List Str) (code : Str) (x : X) : Prop :=
  match osetIndex names code with
  | none => x = miss
  | some i => x = (f n).getD i x0

theorem takeNamesIf_view (hv : View Q f x0 miss) {same : Bool} {n t : Node} (hq : Q n) {names codes : List Str}
    (hn : n.channels = some names) (hsame : same = true → n.channels = some codes) (hl : names.length = n.nchan) (hd : names.Nodup) {policy : Policy}
    (h : takeNamesIf same n codes policy = .ok t) :
    List.Forall₂ (SeenCode f x0 miss n names) codes (f t) := by
  have self : names = codes → List.Forall₂ (SeenCode f x0 miss n names) codes (f n) := by
    rintro rfl
    rw [List.forall₂_iff_get]
    refine ⟨by rw [hl, hv.len hq], fun i h1 h2 => ?_⟩
    have e := (firsts_aux names []).2.2 (by simpa using hd)
    simp only [List.nil_append] at e
    have key : osetIndex names names[i] = some i := by
      rw [osetIndex_eq, show firsts names = names from e, if_pos (List.getElem_mem h1), hd.idxOf_getElem]
    simp only [List.get_eq_getElem, SeenCode, key]
    exact (List.getD_eq_getElem _ _ h2).symm
  by_cases hcc : ∃ ps d, n = .concat ps d
  · obtain ⟨ps, d, rfl⟩ := hcc
    have hn' : channelsL ps = some names := by rw [Node.channels] at hn; exact hn
    simp only [takeNamesIf, hn'] at h
    split at h
    · rename_i e
      cases h
      exact self (by simpa using hn.symm.trans (hsame e))
    · split at h
      · cases h
      · have hps := hv.parts hq
        have h2 := concatTake_view hv hps ⟨_, hq, rfl⟩ (takeIdx_viewL hv ps hps) (reqsOk_of names codes) h
        rw [reqsOf, List.forall₂_map_left_iff] at h2
        refine h2.imp fun c x hx => ?_
        simp only [SeenReq] at hx
        unfold SeenCode
        rw [hv.concat]
        exact hx
  · have hnc : ∀ ps d, n ≠ .concat ps d := fun ps d e => hcc ⟨ps, d, e⟩
    have hform := concat_form hnc same codes policy
    rw [hform, hn] at h
    simp only at h
    split at h
    · rename_i hall
      have hf := filterMap_all hall
      have hi : ∀ i ∈ codes.filterMap (osetIndex names), i < nchan n := by
        intro i hi
        rw [List.mem_filterMap] at hi
        obtain ⟨c, _, hc⟩ := hi
        rw [← hl]; exact osetIndex_lt hc
      rw [mkCrop_view hv hq hnc hi h]
      refine pick_forall₂ hf fun c i hc => ?_
      unfold SeenCode; rw [hc]
    · split at h
      · rename_i e
        cases h
        have := self (by simpa using hn.symm.trans (hsame e))
        rw [hv.concat]
        simpa using this
      · split at h
        · cases h
        · have hps : ∀ p ∈ [n], Q p := by simpa using hq
          have h2 := concatTake_view hv hps ⟨_, hq, rfl⟩ (takeIdx_viewL hv [n] hps) (reqsOk_of names codes) h
          rw [reqsOf, List.forall₂_map_left_iff] at h2
          refine h2.imp fun c x hx => ?_
          simp only [SeenReq, List.flatMap_cons, List.flatMap_nil, List.append_nil] at hx
          exact hx

/-- Selecting channels by codes keeps properties that selecting keeps. -/
theorem takeNamesIf_stable (hQ : TakeStable Q) {same : Bool} {s n : Node} (hw : WF s) (hq : Q s)
    (h1 : Q (.concat [s] s.dsize)) {codes : List Str} {p : Policy} (e : takeNamesIf same s codes p = .ok n) : Q n := by
  have hps : WFL s.dsize [s] := (WFL_iff _ _).2 (by simpa using hw)
  by_cases hcc : ∃ ps d, s = .concat ps d
  · obtain ⟨ps, d, rfl⟩ := hcc
    simp only [takeNamesIf] at e
    split at e
    · cases e; exact hq
    · split at e
      · cases e
      · rename_i names hn
        split at e
        · cases e
        · have hps : WFL d ps := by rw [WF] at hw; exact hw.2
          obtain ⟨⟨qs, rfl⟩, _⟩ := concatTake_ok hps (takeIdx_all ps d hps)
            (channelsL_some (by rw [hn]; rfl)) (reqsOk_of names codes) e
          exact concatTake_stable hQ hq (takeIdx_stableL hQ ps d hps (hQ.parts hq)) rfl e
  · rw [concat_form (fun ps d h => hcc ⟨ps, d, h⟩)] at e
    split at e
    · cases e
    · rename_i names hn
      have hl := channels_length s names hw hn
      split at e
      · refine hQ.crop hw hq ?_ e
        intro i hi
        rw [List.mem_filterMap] at hi
        obtain ⟨c, _, hc⟩ := hi
        rw [← hl]; exact osetIndex_lt hc
      · split at e
        · cases e
          exact h1
        · split at e
          · cases e
          · have hcl : channelsL [s] = some names := by simp [channelsL, hn]
            obtain ⟨⟨qs, rfl⟩, _⟩ := concatTake_ok hps (takeIdx_all [s] _ hps)
              (channelsL_some (by rw [hcl]; rfl)) (reqsOk_of names codes) e
            exact concatTake_stable hQ h1 (takeIdx_stableL hQ [s] _ hps (hQ.parts h1)) rfl e

end Tree
end Verif
